import Verif.Model.Posterior
import Verif.Model.Likelihood
import Mathlib.Analysis.SpecialFunctions.Gamma.Basic

/-!
# Model of `markovflow/likelihoods/multivariate_gaussian.py` and `markovflow/likelihoods/mutlistage_likelihood.py`

One datum at a time (all operations act along the leading axes elementwise); batch shape `()`.
-/

namespace MF
open Matrix

/-- A `MultivariateGaussian` (multivariate_gaussian.py:31-54). The `triangular()` transform of the parameter keeps only the lower
triangle of the given matrix. -/
structure MvGaussian (o : ℕ) where
  /-- `chol_covariance` -/
  chol : Mat o o

namespace MvGaussian
variable {o n d p : ℕ}

/-- `__init__` (l.41-53) -/
def init (chol : Mat o o) : MvGaussian o := ⟨tril chol⟩

/-- `log_probability_density` (l.62-77) -/
noncomputable def logProb (l : MvGaussian o) (f y : Vec o) : ℝ := mvnTriLLogProb f l.chol y

/-- `variational_expectations` (l.80-115) -/
noncomputable def varExp (l : MvGaussian o) (mean : Vec o) (cov : Mat o o) (y : Vec o) : ℝ :=
  let inv := cholSolve l.chol (1 : Mat o o)
  (-1 / 2) * (∑ i, ∑ j, inv i j * cov i j) + mvnTriLLogProb mean l.chol y

/-- `predict_density` (l.117-146) -/
noncomputable def predictDensity (l : MvGaussian o) (mean : Vec o) (cov : Mat o o) (y : Vec o) : Except Err ℝ := do
  let covariance := l.chol * l.cholᵀ
  let c ← tfCholesky (cov + covariance)
  return mvnTriLLogProb mean c y

/-- `predict_mean_and_var` (l.148-177) on full covariances -/
noncomputable def predictMeanVar (l : MvGaussian o) (mean : Vec o) (cov : Mat o o) : Vec o × Mat o o :=
  (mean, l.chol * l.cholᵀ + cov)

/-- `covariance + f_covariances` (l.177) when `f_covariances` has shape `[p, o]` (marginal variances): `[o, o] + [p, o]`, with the
broadcasting rule of `tf.add` on the first axis. The result has as many rows as the larger axis. -/
noncomputable def addVariances (l : MvGaussian o) (var : Fin p → Vec o) : Except Err (Σ r, Fin r → Vec o) :=
  let cov := l.chol * l.cholᵀ
  if h : p = o then .ok ⟨p, fun q i => cov (h ▸ q) i + var q i⟩
  else if h : o = 1 then .ok ⟨p, fun q i => cov ⟨0, by omega⟩ i + var q i⟩
  else if h : p = 1 then .ok ⟨o, fun q i => cov q i + var ⟨0, by omega⟩ i⟩
  else .error .invalidArgument

/-- `AnalyticPosteriorProcess.predict_y` (posterior.py:445-467) with this likelihood, `full_output_cov=True`. -/
noncomputable def predictY (l : MvGaussian o) (c : CondProcess n o d) (new : Fin p → ℝ) : Except Err (Fin p → Vec o × Mat o o) := do
  let f ← c.predictF new
  return fun q => l.predictMeanVar (f q).1 (f q).2

/-- The same (posterior.py:445-467) with `full_output_cov=False` (the default): means and what is returned as variances. -/
noncomputable def predictYDiag (l : MvGaussian o) (c : CondProcess n o d) (new : Fin p → ℝ) :
    Except Err ((Fin p → Vec o) × Σ r, Fin r → Vec o) := do
  let f ← c.predictFDiag new
  let v ← l.addVariances fun q => (f q).2
  return (fun q => (f q).1, v)

end MvGaussian

/-! ### the multi-stage likelihood -/

/-- `gpflow.logdensities.bernoulli(x, p)` (contract of `Bernoulli.log_prob`, GPflow). -/
noncomputable def bernoulliLog (x p : ℝ) : ℝ := Real.log (if x = 1 then p else 1 - p)

/-- `gpflow.logdensities.poisson(x, lam)` (contract of `Poisson.log_prob`, GPflow). -/
noncomputable def poissonLog (x lam : ℝ) : ℝ := x * Real.log lam - lam - Real.log (Real.Gamma (x + 1))

/-- A `MultiStageLikelihood` (mutlistage_likelihood.py:26-66). The `variational_expectations` of the two GPflow likelihoods are by
quadrature or closed form inside GPflow: given functions. -/
structure MultiStage where
  /-- `invlink_bernoulli` -/
  sigma : ℝ → ℝ
  /-- `invlink_poisson` -/
  rate : ℝ → ℝ
  /-- `Bernoulli(invlink).variational_expectations(Fmu, Fvar, Y)` -/
  bernVarExp : ℝ → ℝ → ℝ → ℝ
  /-- `Poisson(invlink).variational_expectations(Fmu, Fvar, Y)` -/
  poisVarExp : ℝ → ℝ → ℝ → ℝ

namespace MultiStage

/-- `_log_prob` (mutlistage_likelihood.py:68-100), one datum -/
noncomputable def logProb (l : MultiStage) (F : Fin 3 → ℝ) (Y : ℝ) : ℝ :=
  let lp0 := bernoulliLog 1 (l.sigma (F 0))
  let lpn0 := bernoulliLog 0 (l.sigma (F 0))
  let lp1 := bernoulliLog 1 (l.sigma (F 1))
  let lpn1 := bernoulliLog 0 (l.sigma (F 1))
  let lp2 := poissonLog (Y - 2) (l.rate (F 2))
  (if Y = 0 then lp0 else 0) + (if Y = 1 then lpn0 + lp1 else 0) + (if 2 ≤ Y then lpn0 + lpn1 + lp2 else 0)

/-- `_variational_expectations` (mutlistage_likelihood.py:102-142), one datum -/
noncomputable def varExp (l : MultiStage) (m v : Fin 3 → ℝ) (Y : ℝ) : ℝ :=
  let ve0 := l.bernVarExp (m 0) (v 0) 1
  let ven0 := l.bernVarExp (m 0) (v 0) 0
  let ve1 := l.bernVarExp (m 1) (v 1) 1
  let ven1 := l.bernVarExp (m 1) (v 1) 0
  let ve2 := l.poisVarExp (m 2) (v 2) (Y - 2)
  (if Y = 0 then ve0 else 0) + (if Y = 1 then ven0 + ve1 else 0) + (if 2 ≤ Y then ven0 + ven1 + ve2 else 0)

/-- `sample_y` (mutlistage_likelihood.py:150-179) given the three draws `eta0`, `eta1` (0 or 1) and `lmbda` -/
def sampleY (eta0 eta1 lmbda : ℕ) : ℕ :=
  let outputOnes := eta0 = 0 ∧ eta1 = 1
  let outputLarger := eta0 = 0 ∧ eta1 = 0
  (if outputOnes then 1 else 0) + (if outputLarger then lmbda + 2 else 0)

end MultiStage
end MF
