import Verif.Spec.LinearGaussian
import Mathlib.Probability.Distributions.Poisson.Basic

/-!
# Specification: elementary sampling distributions
-/

namespace MF.Spec
open MeasureTheory ProbabilityTheory

/-- A draw that is 1 with probability `p` and 0 otherwise. -/
noncomputable def bernoulliLaw (p : ℝ) : Measure ℕ := ENNReal.ofReal (1 - p) • Measure.dirac 0 + ENNReal.ofReal p • Measure.dirac 1

/-- Independent draws of two Bernoulli variables and a Poisson variable. -/
noncomputable def stageLaw (p0 p1 : ℝ) (lam : ℝ) : Measure (ℕ × ℕ × ℕ) :=
  (bernoulliLaw p0).prod ((bernoulliLaw p1).prod (poissonMeasure lam.toNNReal))

end MF.Spec
