import Verif.Spec.Gauss
import Verif.Model.NatGrad
import Mathlib.Analysis.Calculus.Deriv.Basic

/-!
# Specification: gradients with respect to expectation and natural parameters

The pairing of the two parameter spaces is the plain sum over all entries of the three tensors; `T x` are the sufficient
statistics `x_k`, `x_k x_kᵀ`, `x_{k+1} x_kᵀ`.
-/

namespace MF.Spec
open Matrix MeasureTheory
variable {n d : ℕ}

/-- The sum of the products of corresponding entries. -/
def pairing (g h : ExpPar n d) : ℝ :=
  (∑ b, ∑ i, g.1 b i * h.1 b i) + (∑ b, ∑ i, ∑ j, g.2.1 b i j * h.2.1 b i j) +
    ∑ k, ∑ i, ∑ j, g.2.2 k i j * h.2.2 k i j

/-- The matrices on the diagonal are symmetric. -/
def SymDiag (g : ExpPar n d) : Prop := ∀ b, (g.2.1 b)ᵀ = g.2.1 b

/-- `g` is the gradient of `f` at `η`, along all directions with symmetric diagonal blocks. -/
def IsGradient (f : ExpPar n d → ℝ) (η g : ExpPar n d) : Prop :=
  SymDiag g ∧ ∀ h, SymDiag h → HasDerivAt (fun t : ℝ => f (η + t • h)) (pairing g h) 0

/-- Entry by entry, the curve `c` has the derivative `c'` at `0`. -/
def HasVelocity (c : ℝ → ExpPar n d) (c' : ExpPar n d) : Prop :=
  (∀ b i, HasDerivAt (fun t => (c t).1 b i) (c'.1 b i) 0) ∧ (∀ b i j, HasDerivAt (fun t => (c t).2.1 b i j) (c'.2.1 b i j) 0) ∧
    ∀ k i j, HasDerivAt (fun t => (c t).2.2 k i j) (c'.2.2 k i j) 0

/-- `g` is the gradient of `f` at `η` in the strong sense (total differentiability): along every differentiable curve through `η` with symmetric
diagonal blocks, `f` has the derivative that `g` and the velocity of the curve give. -/
def IsTotalGradient (f : ExpPar n d → ℝ) (η g : ExpPar n d) : Prop :=
  SymDiag g ∧ ∀ c c', c 0 = η → (∀ t, SymDiag (c t)) → HasVelocity c c' → HasDerivAt (fun t => f (c t)) (pairing g c') 0

/-- A loss (a function of the distribution) as a function of the expectation parameters. -/
noncomputable def lossOfExpectations (L : SSM n d → ℝ) (η : ExpPar n d) : ℝ :=
  match expectationsToSSM η.1 η.2.1 η.2.2 with
  | .ok s => L s
  | .error _ => 0

/-- A loss as a function of the natural parameters. -/
noncomputable def lossOfNaturals (L : SSM n d → ℝ) (θ : ExpPar n d) : ℝ :=
  match naturalsToSSM θ.1 θ.2.1 θ.2.2 with
  | .ok s => L s
  | .error _ => 0

/-- The natural parameters describe a Gaussian: the precision they encode is positive definite. -/
def ProperNaturals (θ : ExpPar n d) : Prop := (denseSym (fun b => (-2 : ℝ) • θ.2.1 b) fun k => -θ.2.2 k).PosDef

/-- Sufficient statistics of a trajectory. -/
def suffStats (x : Fin (n + 1) → Vec d) : ExpPar n d :=
  (x, fun b => vecMulVec (x b) (x b), fun k => vecMulVec (x k.succ) (x k.castSucc))

end MF.Spec
