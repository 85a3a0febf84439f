import Verif.Model.SVGP
import Verif.Model.CVI
import Verif.Model.SparseCVI
import Verif.Model.PEP
import Verif.Model.SparsePEP
import Verif.Model.SpatioTemporal

/-!
# `predict_log_density` of the approximate inference models

The likelihood's own `predict_log_density(Fmu, Fvar, Y)` belongs to GPflow: for a scalar likelihood it is, per datum,
the sum over the outputs of a function of the mean, the variance and the observation of that output.
-/

namespace MF
variable {n p o d : ℕ}

/-- A GPflow scalar likelihood seen through `predict_log_density` (models.py:227), one datum and one output at a time. -/
structure PredictiveLikelihood where
  /-- `_scalar_log_prob(F, Y)` -/
  logProb : ℝ → ℝ → ℝ
  /-- `predict_log_density(Fmu, Fvar, Y)` -/
  predictLogDensity : ℝ → ℝ → ℝ → ℝ

/-- `gpflow.likelihoods.Gaussian(variance)`: `_predict_log_density` is
`sum(logdensities.gaussian(Y, Fmu, Fvar + variance))` (contract). -/
noncomputable def gaussianPredictive (variance : ℝ) : PredictiveLikelihood where
  logProb := (gaussianLikelihood variance).logProb
  predictLogDensity m v y := -(1 / 2) * (Real.log (2 * Real.pi) + Real.log (v + variance) + (m - y) ^ 2 / (v + variance))

/-- `likelihood.predict_log_density(f_mean, f_var, Y)` on arrays (called at models.py:227, variational_cvi.py:420,
pep.py:247, sparse_variational.py:270, sparse_pep.py:559, spatio_temporal_variational.py:246). -/
def PredictiveLikelihood.logDensities (lik : PredictiveLikelihood) (f : Fin p → Vec o × Vec o) (Y : Fin p → Vec o) :
    Fin p → ℝ :=
  fun i => ∑ a, lik.predictLogDensity ((f i).1 a) ((f i).2 a) (Y i a)

/-- `SparseVariationalGaussianProcess.predict_log_density` (sparse_variational.py:262-270); `full_output_cov` is not
used by the code. The likelihood is an argument here because the model of the objective uses another part of it. -/
noncomputable def SVGP.predictLogDensity (v : SVGP n o d) (lik : PredictiveLikelihood) (X : Fin p → ℝ)
    (Y : Fin p → Vec o) : Except Err (Fin p → ℝ) := do
  let f ← v.posterior.predictFDiag X
  return lik.logDensities f Y

/-- `CVIGaussianProcess.predict_log_density` (variational_cvi.py:406-420), `full_output_cov=False`. -/
noncomputable def CVI.predictLogDensity (c : CVI n d) (lik : PredictiveLikelihood) (X : Fin p → ℝ)
    (Y : Fin p → Vec 1) : Except Err (Fin p → ℝ) := do
  let post ← c.posterior
  let f ← post.predictFDiag X
  return lik.logDensities f Y

/-- `PowerExpectationPropagation.predict_log_density` (pep.py:232-247), `full_output_cov=False`; `posterior` is the
inherited property (variational_cvi.py:170-184). -/
noncomputable def PEP.predictLogDensity (c : PEP n d) (lik : PredictiveLikelihood) (X : Fin p → ℝ)
    (Y : Fin p → Vec 1) : Except Err (Fin p → ℝ) := do
  let post ← c.toBase.posterior
  let f ← post.predictFDiag X
  return lik.logDensities f Y

/-- `MarkovFlowSparseModel.predict_log_density` (models.py:202-227) as inherited by `SparseCVIGaussianProcess`, through
`predict_f` (models.py:182-200), `full_output_cov=False`. -/
noncomputable def SparseCVI.predictLogDensity (c : SparseCVI n d) (lik : PredictiveLikelihood) (X : Fin p → ℝ)
    (Y : Fin p → Vec 1) : Except Err (Fin p → ℝ) := do
  let post ← c.posterior
  let f ← post.predictFDiag X
  return lik.logDensities f Y

/-- `SparsePowerExpectationPropagation.predict_log_density` (sparse_pep.py:544-559); `full_output_cov` is not used by
the code. -/
noncomputable def SparsePEP.predictLogDensity (c : SparsePEP n d) (lik : PredictiveLikelihood) (X : Fin p → ℝ)
    (Y : Fin p → Vec 1) : Except Err (Fin p → ℝ) := do
  let post ← c.posterior
  let f ← post.predictFDiag X
  return lik.logDensities f Y

end MF
