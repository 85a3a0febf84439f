import Verif.Model.Likelihood
import Mathlib.Analysis.Calculus.ContDiff.Defs

/-!
# Smooth likelihoods
-/

namespace MF.Spec

/-- The variational expectations are twice continuously differentiable in mean and positive variance. -/
def SmoothVarExp (lik : ScalarLikelihood) : Prop :=
  ∀ m v y : ℝ, 0 < v → ContDiffAt ℝ 2 (fun x : ℝ × ℝ => lik.varExp x.1 x.2 y) (m, v)

end MF.Spec
