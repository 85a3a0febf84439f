import Verif.Model.CVI

/-!
# Model of `markovflow/models/pep.py` and of the PEP likelihoods in `markovflow/likelihoods/likelihoods.py`

`PowerExpectationPropagation`, `PEPScalarLikelihood`, `PEPGaussian`, `gradient_correction`. Batch shape `()`, one
output. `tf.GradientTape` gradients are derivatives (contract); GPflow's `predict_log_density` is a function of
mean, variance and datum (contract; what it should be is stated in the theorems).
-/

namespace MF
open Matrix
variable {n d : ℕ}

/-- What PEP uses of a likelihood (likelihoods.py:149-220), one datum. -/
structure PEPLikelihood where
  /-- `base` -/
  base : ScalarLikelihood
  /-- `log_expected_density(Fmu, Fvar, Y, alpha)` -/
  logExpectedDensity : ℝ → ℝ → ℝ → ℝ → ℝ
  /-- the second component of `grad_log_expected_density(Fmu, Fvar, Y, alpha)`; the first one is
  `log_expected_density` for both classes -/
  grads : ℝ → ℝ → ℝ → ℝ → ℝ × ℝ

/-- `PEPScalarLikelihood` (likelihoods.py:149-220): `alpha` is not used by `log_expected_density` (l.184-194); first and
second derivative in the mean (l.196-212). -/
noncomputable def pepScalar (base : ScalarLikelihood) (predictLogDensity : ℝ → ℝ → ℝ → ℝ) : PEPLikelihood where
  base := base
  logExpectedDensity m v y _ := predictLogDensity m v y
  grads m v y _ := (deriv (fun m => predictLogDensity m v y) m, deriv (deriv fun m => predictLogDensity m v y) m)

/-- `gpflow.logdensities.gaussian(x, mu, var)` (contract) -/
noncomputable def gpflowGaussian (x mu var : ℝ) : ℝ :=
  -(1 / 2) * (Real.log (2 * Real.pi) + Real.log var + (mu - x) ^ 2 / var)

/-- `PEPGaussian` (likelihoods.py:223-273) -/
noncomputable def pepGaussian (variance : ℝ) : PEPLikelihood where
  base := gaussianLikelihood variance
  logExpectedDensity m v y alpha := alpha * gpflowGaussian y m (variance + v)
  grads m v y alpha := (alpha * (y - m) / (variance + v), -alpha * 1 / (variance + v))

/-- `gradient_correction` (pep.py:250-261), one datum: mean, variance and the two gradients. -/
noncomputable def gradientCorrection (m v : ℝ) (g : ℝ × ℝ) : ℝ × ℝ :=
  let L2 := (1 / 2) * (v + 1 / g.2)⁻¹
  let L1 := 2 * L2 * (1 * g.1 / g.2 - m)
  (L1, L2)

/-- The attributes of a `PowerExpectationPropagation` (pep.py:73-97; variational_cvi.py:69-102). -/
structure PEP (n d : ℕ) where
  /-- `time_points` -/
  times : Fin (n + 1) → ℝ
  /-- `observations` -/
  observations : Fin (n + 1) → Vec 1
  /-- `kernel` -/
  kernel : Stationary 1 d
  /-- `likelihood` -/
  likelihood : PEPLikelihood
  /-- `mean_function`, at one time point -/
  meanFunction : ℝ → Vec 1
  /-- `learning_rate` -/
  learningRate : ℝ
  /-- `alpha` -/
  alpha : ℝ
  /-- `sites.nat1`, `sites.nat2` -/
  sites : UnivariateSites (n + 1)
  /-- `sites.log_norm` -/
  logNorm : Fin (n + 1) → Vec 1

namespace PEP

/-- `__init__` (pep.py:73-97; variational_cvi.py:69-102) -/
noncomputable def init (times : Fin (n + 1) → ℝ) (observations : Fin (n + 1) → Vec 1) (kernel : Stationary 1 d)
    (likelihood : PEPLikelihood) (meanFunction : Option (ℝ → Vec 1)) (learningRate : ℝ := 1) (alpha : ℝ := 1) :
    PEP n d :=
  ⟨times, observations, kernel, likelihood, meanFunction.getD fun _ => 0, learningRate, alpha,
    ⟨fun _ => 0, fun _ => Matrix.of fun _ _ => -1e-10⟩, fun _ => 0⟩

variable (c : PEP n d)

/-- The inherited `GaussianProcessWithSitesBase` (variational_cvi.py:32-222), whose `dist_p`, `dist_q`,
`posterior_kalman`, `posterior` are modelled in `Model/CVI`. -/
def toBase : CVI n d :=
  ⟨c.times, c.observations, c.kernel, c.likelihood.base, c.meanFunction, c.learningRate, c.sites⟩

/-- `dist_q` (inherited, variational_cvi.py:105-136) -/
noncomputable def distQ : Except Err (SSM n d) := c.toBase.distQ

/-- `local_objective_gradients` (pep.py:103-109) -/
noncomputable def localObjectiveGradients (Fmu Fvar : Fin (n + 1) → Vec 1) :
    (Fin (n + 1) → ℝ) × (Fin (n + 1) → Fin 1 → ℝ × ℝ) :=
  (fun t => c.likelihood.logExpectedDensity (Fmu t 0) (Fvar t 0) (c.observations t 0) c.alpha,
   fun t a => gradientCorrection (Fmu t a) (Fvar t a)
    (c.likelihood.grads (Fmu t a) (Fvar t a) (c.observations t a) c.alpha))

/-- `mask_indices` (pep.py:111-118): zeros for `None`, otherwise the number of occurrences of each index. -/
def maskIndices (indices : Option (List (Fin (n + 1)))) : Fin (n + 1) → ℝ :=
  match indices with
  | none => fun _ => 0
  | some l => scatterNd (fun j : Fin l.length => l.get j) fun _ => 1

/-- `compute_cavity_from_marginals` (pep.py:120-148) -/
noncomputable def cavityFromMarginals (marginals : (Fin (n + 1) → Vec d) × (Fin (n + 1) → Mat d d)) :
    Except Err ((Fin (n + 1) → Vec 1) × (Fin (n + 1) → Vec 1)) := do
  let (means, covs) := marginals
  let cholCovs ← seqFin fun t => tfCholesky (covs t)
  let nat2 : Fin (n + 1) → Mat d d := fun t => (-(1 / 2) : ℝ) • cholSolve (cholCovs t) 1
  let nat1 : Fin (n + 1) → Vec d := fun t => (cholSolve (cholCovs t) (replicateCol Unit (means t))).col ()
  let H : Fin (n + 1) → Mat 1 d := fun t => c.kernel.emission (c.times t)
  let (bpNat1, bpNat2) := backProjectNats c.sites.nat1 (fun t a => c.sites.nat2 t a 0) H
  let cavNat2 : Fin (n + 1) → Mat d d := fun t => nat2 t - c.alpha • bpNat2 t
  let cavNat1 : Fin (n + 1) → Vec d := fun t => nat1 t - c.alpha • bpNat1 t
  let cavChol ← seqFin fun t => tfCholesky (-cavNat2 t)
  let cavMeans : Fin (n + 1) → Vec d := fun t =>
    (1 / 2 : ℝ) • (cholSolve (cavChol t) (replicateCol Unit (cavNat1 t))).col ()
  let cavCovs : Fin (n + 1) → Mat d d := fun t => (1 / 2 : ℝ) • cholSolve (cavChol t) 1
  return (projectStateToF H cavMeans, projectStateCovarianceToFDiag H cavCovs)

/-- `compute_cavity` (pep.py:150-157) -/
noncomputable def computeCavity : Except Err ((Fin (n + 1) → Vec 1) × (Fin (n + 1) → Vec 1)) := do
  let q ← c.distQ
  let marginals ← q.marginals
  c.cavityFromMarginals marginals

/-- `0.5 * (log var + mu² / var)` (pep.py:174-175, 195-196) -/
noncomputable def logNormaliser (mu var : ℝ) : ℝ := (1 / 2) * (Real.log var + mu ^ 2 / var)

/-- `compute_log_norm` (pep.py:159-177): the objective is evaluated at the posterior marginals. -/
noncomputable def computeLogNorm : Except Err (Fin (n + 1) → ℝ) := do
  let q ← c.distQ
  let marginals ← q.marginals
  let H : Fin (n + 1) → Mat 1 d := fun t => c.kernel.emission (c.times t)
  let fxMargMus := projectStateToF H marginals.1
  let fxMargCovs := projectStateCovarianceToFDiag H marginals.2
  let (fxMus, fxCovs) ← c.cavityFromMarginals marginals
  let (obj, _) := c.localObjectiveGradients fxMargMus fxMargCovs
  return fun t => obj t + logNormaliser (fxMus t 0) (fxCovs t 0) - logNormaliser (fxMargMus t 0) (fxMargCovs t 0)

/-- `update_sites` (pep.py:179-215): the new value of the object. -/
noncomputable def updateSites (indices : Option (List (Fin (n + 1)))) : Except Err (PEP n d) := do
  let q ← c.distQ
  let marginals ← q.marginals
  let H : Fin (n + 1) → Mat 1 d := fun t => c.kernel.emission (c.times t)
  let fxMargMus := projectStateToF H marginals.1
  let fxMargCovs := projectStateCovarianceToFDiag H marginals.2
  let (fxMus, fxCovs) ← c.cavityFromMarginals marginals
  let (obj, grads) := c.localObjectiveGradients fxMus fxCovs
  let logNorm : Fin (n + 1) → ℝ := fun t =>
    obj t + logNormaliser (fxMus t 0) (fxCovs t 0) - logNormaliser (fxMargMus t 0) (fxMargCovs t 0)
  let a := c.alpha
  let pepNat1 : Fin (n + 1) → Vec 1 := fun t i => (1 - a) * c.sites.nat1 t i + (grads t i).1
  let pepNat2 : Fin (n + 1) → Mat 1 1 := fun t => Matrix.of fun i _ => (1 - a) * c.sites.nat2 t i 0 + (grads t i).2
  let pepLogNorm : Fin (n + 1) → Vec 1 := fun t i => (1 - a) * c.logNorm t i + logNorm t
  let lr := c.learningRate
  let newNat1 : Fin (n + 1) → Vec 1 := fun t => (1 - lr) • c.sites.nat1 t + lr • pepNat1 t
  let newNat2 : Fin (n + 1) → Mat 1 1 := fun t => (1 - lr) • c.sites.nat2 t + lr • pepNat2 t
  let newLogNorm : Fin (n + 1) → Vec 1 := fun t => (1 - lr) • c.logNorm t + lr • pepLogNorm t
  let mask := maskIndices indices
  return { c with
    sites := ⟨fun t => (1 - mask t) • c.sites.nat1 t + mask t • newNat1 t,
      fun t => (1 - mask t) • c.sites.nat2 t + mask t • newNat2 t⟩
    logNorm := fun t => (1 - mask t) • c.logNorm t + mask t • newLogNorm t }

/-- `elbo` (pep.py:217-221) -/
noncomputable def elbo : Except Err ℝ := c.toBase.elbo

/-- `energy` (pep.py:223-230) -/
noncomputable def energy : Except Err ℝ := do
  let logNorm ← c.computeLogNorm
  let q ← c.distQ
  let p ← c.toBase.distP
  let zq ← q.normalizer
  let zp ← p.normalizer
  return zq - zp + 1 / c.alpha * ∑ t, logNorm t

/-- Successive calls of `update_sites` (pep.py:179-215) with the given indices. -/
noncomputable def updates : List (Option (List (Fin (n + 1)))) → PEP n d → Except Err (PEP n d)
  | [], c => pure c
  | i :: is, c => do
    let c' ← c.updateSites i
    updates is c'

end PEP
end MF
