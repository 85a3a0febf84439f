import Verif.Spec.Bridge
import Verif.Spec.Likelihood
import Verif.Model.Stack

/-!
# Specification: independent processes with a joint likelihood
-/

namespace MF.Spec
open Matrix MeasureTheory ProbabilityTheory

/-- States of dimension `d` at `N` times, followed up to dimension `D` by coordinates of `ξ`. -/
def padStates {N d D : ℕ} (u : Fin N × Fin d → ℝ) (ξ : Fin N × Fin D → ℝ) : Fin N × Fin D → ℝ :=
  fun i => if h : (i.2 : ℕ) < d then u (i.1, ⟨i.2, h⟩) else ξ i

/-- The likelihood's `variational_expectations` are exact: the mean of `log_prob` over independent normal latent values. -/
structure ExactVector {R : ℕ} {β : Type} (lik : VectorLikelihood R β) : Prop where
  measurable : ∀ y, Measurable fun f => lik.logProb f y
  integrable : ∀ (m v : Vec R) y, Integrable (fun f => lik.logProb f y)
    (Measure.pi fun r => gaussianReal (m r) (v r).toNNReal)
  varExp : ∀ (m v : Vec R) y, (∀ r, 0 ≤ v r) →
    lik.varExp m v y = ∫ f, lik.logProb f y ∂Measure.pi fun r => gaussianReal (m r) (v r).toNNReal

/-- `Σ_i log p(y_i | f_1(i), …, f_R(i))`, where `f r` are the values of latent process `r` at its data times. -/
def stackLogLik {p R : ℕ} {β : Type} (lik : VectorLikelihood R β) (Y : Fin p → β) (f : Fin R → Fin p × Fin 1 → ℝ) : ℝ :=
  ∑ i, lik.logProb (fun r => f r (i, 0)) (Y i)

end MF.Spec
