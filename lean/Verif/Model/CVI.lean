import Verif.Model.Transformations
import Verif.Model.VGP

/-!
# Model of `markovflow/models/variational_cvi.py`

`GaussianProcessWithSitesBase` and `CVIGaussianProcess`, batch shape `()`, one output (asserted by
`back_project_nats`, l.439-440). `tf.GradientTape` gradients are derivatives (contract). The sites'
`log_norm` is not used by any method modelled here. `predict_log_density` is `Model/SVGP.lean`'s.
-/

namespace MF
open Matrix
variable {n d N : ℕ}

/-- `back_project_nats` (variational_cvi.py:423-445): `CT @ nat1`, `CT @ nat2 @ C` as broadcast
products summed over the output axis. -/
def backProjectNats {ι : Type*} (nat1 nat2 : Fin N → Vec 1) (C : Fin N → Matrix (Fin 1) ι ℝ) :
    (Fin N → ι → ℝ) × (Fin N → Matrix ι ι ℝ) :=
  (fun t j => ∑ a, C t a j * nat1 t a,
   fun t => Matrix.of fun i j => ∑ a, nat2 t a * C t a i * C t a j)

/-- `gradient_transformation_mean_var_to_expectation` (l.448-460), one datum. -/
def gradMeanVarToExpectation (mean : ℝ) (grads : ℝ × ℝ) : ℝ × ℝ :=
  (grads.1 - 2 * grads.2 * mean, grads.2)

/-- `local_objective_and_gradients` (l.332-349), the gradients: `tf.GradientTape` on the sum of the
variational expectations, then the change to expectation parameters. One datum. -/
noncomputable def localGradients (lik : ScalarLikelihood) (mean var y : ℝ) : ℝ × ℝ :=
  gradMeanVarToExpectation mean
    (deriv (fun m => lik.varExp m var y) mean, deriv (fun v => lik.varExp mean v y) var)

/-- The attributes of a `CVIGaussianProcess` (l.69-102, 297-319). -/
structure CVI (n d : ℕ) where
  /-- `time_points` -/
  times : Fin (n + 1) → ℝ
  /-- `observations` -/
  observations : Fin (n + 1) → Vec 1
  /-- `kernel` -/
  kernel : Stationary 1 d
  /-- `likelihood` -/
  likelihood : ScalarLikelihood
  /-- `mean_function`, at one time point -/
  meanFunction : ℝ → Vec 1
  /-- `learning_rate` -/
  learningRate : ℝ
  /-- `sites` -/
  sites : UnivariateSites (n + 1)

namespace CVI

/-- `__init__` (l.69-102, 297-319) -/
noncomputable def init (times : Fin (n + 1) → ℝ) (observations : Fin (n + 1) → Vec 1)
    (kernel : Stationary 1 d) (likelihood : ScalarLikelihood) (meanFunction : Option (ℝ → Vec 1))
    (learningRate : ℝ := 0.1) : CVI n d :=
  ⟨times, observations, kernel, likelihood, meanFunction.getD fun _ => 0, learningRate,
    ⟨fun _ => 0, fun _ => Matrix.of fun _ _ => -1e-10⟩⟩

variable (c : CVI n d)

/-- `dist_p` (l.211-216) -/
noncomputable def distP : Except Err (SSM n d) := c.kernel.stateSpaceModel c.times

/-- `dist_q` (l.105-136) -/
noncomputable def distQ : Except Err (SSM n d) := do
  let p ← c.distP
  let prec ← p.precision
  let precDiag := prec.diag
  -- `block_sub_diagonal` is never `None` for a `StateSpaceModel`
  let precSub : Fin n → Mat d d := prec.sub.getD 0
  let H : Fin (n + 1) → Mat 1 d := fun t => c.kernel.emission (c.times t)
  let (bpNat1, bpNat2) := backProjectNats c.sites.nat1 (fun t a => c.sites.nat2 t a 0) H
  naturalsToSSM bpNat1 (fun b => (-(1 / 2) : ℝ) • precDiag b + bpNat2 b) (fun k => -precSub k)

/-- `posterior_kalman` (l.137-144) -/
noncomputable def posteriorKalman : Except Err (KF n d 1) := do
  let p ← c.distP
  return kalmanFilterWithSites p (fun t => c.kernel.emission (c.times t)) c.sites.means
    c.sites.precisions

/-- `posterior` (l.146-153): the mean function is not passed on. -/
noncomputable def posterior : Except Err (CondProcess n 1 d) := do
  let q ← c.distQ
  return ⟨q, c.kernel, c.times, fun _ => 0⟩

/-- `log_likelihood` (l.155-161), and `elbo` (l.370-379). -/
noncomputable def elbo : Except Err ℝ := do
  let k ← c.posteriorKalman
  k.logLikelihood

/-- `loss` (l.218-222) -/
noncomputable def loss : Except Err ℝ := do
  let e ← c.elbo
  return -e

/-- `update_sites` (l.351-368): the new value of the object. -/
noncomputable def updateSites : Except Err (CVI n d) := do
  let post ← c.posterior
  let fx ← post.predictFDiag c.times
  let grads : Fin (n + 1) → Fin 1 → ℝ × ℝ := fun t a =>
    localGradients c.likelihood ((fx t).1 a) ((fx t).2 a) (c.observations t a)
  let lr := c.learningRate
  let newNat1 : Fin (n + 1) → Vec 1 := fun t a => (1 - lr) * c.sites.nat1 t a + lr * (grads t a).1
  let newNat2 : Fin (n + 1) → Mat 1 1 := fun t =>
    Matrix.of fun a b => (1 - lr) * c.sites.nat2 t a b + lr * (grads t a).2
  return { c with sites := ⟨newNat1, newNat2⟩ }

/-- `classic_elbo` (l.381-404) -/
noncomputable def classicElbo : Except Err ℝ := do
  let post ← c.posterior
  let fx ← post.predictFDiag c.times
  let ve : ℝ := ∑ i, c.likelihood.varExps (fx i).1 (fx i).2 (c.observations i)
  let q ← c.distQ
  let p ← c.distP
  let kl ← q.klDivergence p
  return ve - kl

/-- `k` successive calls of `update_sites` (variational_cvi.py:351-368). -/
noncomputable def updates : ℕ → CVI n d → Except Err (CVI n d)
  | 0, c => pure c
  | k + 1, c => do
    let c' ← c.updateSites
    updates k c'

end CVI
end MF
