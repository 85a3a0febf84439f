import Verif.Spec.Likelihood
import Verif.Model.PredictDensity

/-!
# Specification: what a likelihood's predictive log density should be
-/

namespace MF.Spec
open MeasureTheory ProbabilityTheory

/-- `predict_log_density(m, v, y) = log ∫ p(y | f) N(f; m, v) df`. -/
structure ExactPredictive (lik : PredictiveLikelihood) : Prop where
  measurable : ∀ y, Measurable fun f => lik.logProb f y
  value : ∀ m v y : ℝ, 0 ≤ v →
    lik.predictLogDensity m v y = Real.log (evidence (gaussianReal m v.toNNReal) fun f => lik.logProb f y).toReal

end MF.Spec
