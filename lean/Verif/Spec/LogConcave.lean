import Mathlib.Analysis.Convex.Function
import Verif.Spec.Likelihood

/-!
# Specification: log-concave likelihoods
-/

namespace MF.Spec

/-- `f ↦ log p(y | f)` is concave, for every observation `y`. -/
def LogConcaveLikelihood (lik : ScalarLikelihood) : Prop := ∀ y, ConcaveOn ℝ Set.univ fun f => lik.logProb f y

end MF.Spec
