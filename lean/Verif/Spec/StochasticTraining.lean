import Verif.Props.SVGPNatGrad

/-!
# Specification for C84: natural gradient training on random minibatches
-/

namespace MF
open Matrix MeasureTheory InformationTheory
variable {n d o p N : ℕ}

/-- A training loop on a sequence of `T` minibatches: call number `t` of `minimize` (ssm_natgrad.py:95-109) gets the gradients of the `t`-th
minibatch at the current distribution, and uses the rate `γ t` (`gamma` is a public attribute, ssm_natgrad.py:85; with a constant `γ` it is never
changed). `B` is the type of minibatches. -/
noncomputable def NatGrad.train {B : Type} (grad : B → SSM n d → ExpPar n d × ExpPar n d) (γ : ℕ → ℝ) (opt : NatGrad n d) (q : SSM n d) :
    (T : ℕ) → (Fin T → B) → Except Err (NatGrad n d × SSM n d)
  | 0, _ => .ok (opt, q)
  | T + 1, F => do
    let (o, q') ← NatGrad.train grad γ opt q T fun i => F i.castSucc
    ({ o with gamma := γ T } : NatGrad n d).step q' (grad (F (Fin.last T)) q').1 (grad (F (Fin.last T)) q').2

namespace Spec

/-- The average of finitely many numbers or vectors, that is the expectation under the uniform distribution. -/
noncomputable def average {ι V : Type*} [Fintype ι] [AddCommGroup V] [Module ℝ V] (x : ι → V) : V := (Fintype.card ι : ℝ)⁻¹ • ∑ i, x i

/-- `best` maximises the objective of the sparse model on the data `(X, Y)` over all distributions of the inducing states: the objective of every
`s` is the largest value minus the Kullback-Leibler divergence from `s` to `best`. -/
def Optimum (v : SVGP n o d) (X : Fin p → ℝ) (Y : Fin p → Vec o) (best : SSM n d) : Prop :=
  best.Nondegenerate ∧ ∃ E : ℝ, ∀ s : SSM n d, s.Nondegenerate → klDiv s.law best.law ≠ ⊤ ∧
    ({ v with q := s } : SVGP n o d).elbo X Y = .ok (E - (klDiv s.law best.law).toReal)

/-- `q T F` is the distribution after training on the sequence `F` of `T` minibatches, each of `p` data drawn from the `N` with replacement;
the gradients are those of the minibatch `loss`, every call succeeds, there is no momentum and all rates are in `[0, 1]`. -/
structure TrainedOn (v : SVGP n o d) (X : Fin N → ℝ) (Y : Fin N → Vec o) (γ : ℕ → ℝ)
    (q : (T : ℕ) → (Fin T → Fin p → Fin N) → SSM n d) : Prop where
  rate : ∀ t, 0 ≤ γ t ∧ γ t ≤ 1
  run : ∃ (grad : (Fin p → Fin N) → SSM n d → ExpPar n d × ExpPar n d) (opt : NatGrad n d), opt.momentum = false ∧
    (∀ f, GivesGradient (v.lossOf (X ∘ f) (Y ∘ f)) fun _ => grad f) ∧
    ∀ T F, ∃ o, NatGrad.train grad γ opt v.q T F = .ok (o, q T F)

end Spec
end MF
