import Verif.Model.TF
import Mathlib.Analysis.SpecialFunctions.Log.Basic
import Mathlib.Analysis.SpecialFunctions.Trigonometric.Basic
import Mathlib.Analysis.SpecialFunctions.Gamma.Basic

/-!
# GPflow scalar likelihoods, as used by the models

GPflow is a dependency, not part of `/repo`; a `ScalarLikelihood` enters the model by contract:
`variational_expectations(Fmu, Fvar, Y)` is the sum over the outputs of a scalar function.  Its two
members with closed form expectations that the models below are instantiated with are written out.
-/

namespace MF

/-- A `gpflow.likelihoods.ScalarLikelihood`, one datum and one output at a time. -/
structure ScalarLikelihood where
  /-- `_scalar_log_prob(F, Y)` -/
  logProb : ℝ → ℝ → ℝ
  /-- `variational_expectations(Fmu, Fvar, Y)` -/
  varExp : ℝ → ℝ → ℝ → ℝ

/-- `variational_expectations` for `o` outputs: GPflow sums over the last axis (contract; called at
variational.py:141-146). -/
def ScalarLikelihood.varExps {o : ℕ} (lik : ScalarLikelihood) (Fmu Fvar Y : Vec o) : ℝ :=
  ∑ a, lik.varExp (Fmu a) (Fvar a) (Y a)

/-- `gpflow.likelihoods.Gaussian(variance)`. -/
noncomputable def gaussianLikelihood (variance : ℝ) : ScalarLikelihood where
  logProb f y := -(1 / 2) * (Real.log (2 * Real.pi) + Real.log variance + (f - y) ^ 2 / variance)
  varExp m v y := -(1 / 2) * Real.log (2 * Real.pi) - 1 / 2 * Real.log variance
    - 1 / 2 * ((y - m) ^ 2 + v) / variance

/-- `gpflow.likelihoods.Poisson()` (inverse link `exp`, bin size 1). -/
noncomputable def poissonLikelihood : ScalarLikelihood where
  logProb f y := y * f - Real.exp f - Real.log (Real.Gamma (y + 1))
  varExp m v y := y * m - Real.exp (m + v / 2) - Real.log (Real.Gamma (y + 1))

end MF
