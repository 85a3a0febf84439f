import Verif.Spec.LinearGaussian
import Verif.Model.Likelihood

/-!
# Specification: what a likelihood's variational expectations should be
-/

namespace MF.Spec
open MeasureTheory ProbabilityTheory

/-- `varExp m v y = ∫ log p(y | f) N(f; m, v) df`, the integral existing. -/
structure ExactLikelihood (lik : ScalarLikelihood) : Prop where
  measurable : ∀ y, Measurable fun f => lik.logProb f y
  integrable : ∀ (m v y : ℝ), Integrable (fun f => lik.logProb f y) (gaussianReal m v.toNNReal)
  varExp : ∀ m v y : ℝ, 0 ≤ v → lik.varExp m v y = ∫ f, lik.logProb f y ∂gaussianReal m v.toNNReal

/-- The log likelihood of latent outputs at the data times: `Σ_i Σ_a log p(y_ia | f_ia)`. -/
def outputLogLik {T : Type*} [Fintype T] {o : ℕ} (lik : ScalarLikelihood) (y : T → Vec o)
    (f : T × Fin o → ℝ) : ℝ :=
  ∑ i, ∑ a, lik.logProb (f (i, a)) (y i a)

end MF.Spec
