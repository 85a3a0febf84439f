import Verif.Spec.BatchedVariational
import Verif.Spec.NatGrad
import Verif.Model.BatchedNatGrad

/-!
# Specification of natural gradients on batches (C70)
-/

namespace MF.Spec
open MF.Tensor
variable {n d : ℕ}

/-- The moving averages of an optimiser that is used with a batch: none yet (then they are zero), or one triple per batch index. -/
def HoldsMoving (bs : List ℕ) (x : Option TTriple) (m : List ℕ → ExpPar n d) : Prop :=
  (x = none ∧ ∀ b, InRange b bs → m b = 0) ∨ ∃ y, x = some y ∧ HoldsTriple bs y m

/-- A loss of a batch of distributions, as a function of the three tensors of expectation parameters. -/
noncomputable def batchLossOfExpectations (L : TSSM → ℝ) (x : TTriple) : ℝ :=
  match tensorExpectationsToSSM x.1 x.2.1 x.2.2 with
  | .ok S => L S
  | .error _ => 0

/-- The tensors holding `g` are the gradient of `F` at the tensors holding `η`: along every straight line of tensors through them (with symmetric
diagonal blocks), `F` has as derivative the sum over the whole batch of the products of corresponding entries. -/
def IsBatchGradient (bs : List ℕ) (F : TTriple → ℝ) (η g : List ℕ → ExpPar n d) : Prop :=
  (∀ b, InRange b bs → SymDiag (g b)) ∧
    ∀ (h : List ℕ → ExpPar n d) (c : ℝ → TTriple), (∀ b, SymDiag (h b)) → (∀ t : ℝ, HoldsTriple bs (c t) fun b => η b + t • h b) →
      HasDerivAt (fun t => F (c t)) (sumShape bs fun b => pairing (g b) (h b)) 0

end MF.Spec
