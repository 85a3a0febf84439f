import Verif.Model.PiecewiseModels
import Verif.Model.VGP
import Verif.Model.CVI

/-!
# `variational.py` and `variational_cvi.py` over a `PiecewiseKernel`

The code of `Model/VGP.lean` and `Model/CVI.lean` again, with the list-valued kernel methods of `Model/Piecewise.lean`.
Batch shape `()`; for CVI one output, as there.
-/

namespace MF
open Matrix
variable {n d o : ℕ}

/-- The attributes of a `VariationalGaussianProcess` (variational.py:80-127) over a piecewise kernel. -/
structure PWVGP (n o d : ℕ) where
  /-- `time_points` -/
  times : Fin (n + 1) → ℝ
  /-- `observations` -/
  observations : Fin (n + 1) → Vec o
  /-- `kernel` -/
  kernel : Piecewise o d
  /-- `likelihood` -/
  likelihood : ScalarLikelihood
  /-- `mean_function`, at one time point -/
  meanFunction : ℝ → Vec o
  /-- `dist_q` -/
  q : SSM n d

namespace PWVGP

/-- `__init__` (variational.py:80-127) -/
noncomputable def init (times : Fin (n + 1) → ℝ) (observations : Fin (n + 1) → Vec o)
    (kernel : Piecewise o d) (likelihood : ScalarLikelihood) (meanFunction : Option (ℝ → Vec o))
    (initialDistribution : Option (SSM n d)) : Except Err (PWVGP n o d) := do
  let meanFunction := meanFunction.getD fun _ => 0
  let initial ← match initialDistribution with
    | none => kernel.stateSpaceModel approxInf times
    | some q => pure q
  return ⟨times, observations, kernel, likelihood, meanFunction, initial.createTrainableCopy⟩

variable (v : PWVGP n o d)

/-- `dist_p` (variational.py:193-198) -/
noncomputable def distP : Except Err (SSM n d) := v.kernel.stateSpaceModel approxInf v.times

/-- `posterior` (variational.py:207-216, built in `__init__` l.121-127) -/
def posterior : PWProcess n o d := ⟨v.q, v.kernel, v.times, v.meanFunction⟩

/-- `elbo` (variational.py:129-152) -/
noncomputable def elbo : Except Err ℝ := do
  let fx ← v.posterior.predictFDiag v.times
  let ve : ℝ := ∑ i, v.likelihood.varExps (fx i).1 (fx i).2 (v.observations i)
  let p ← v.distP
  let kl ← v.q.klDivergence p
  return ve - kl

/-- `loss` (variational.py:218-222) -/
noncomputable def loss : Except Err ℝ := do
  let e ← v.elbo
  return -e

end PWVGP

/-- The attributes of a `CVIGaussianProcess` (variational_cvi.py:69-102, 297-319) over a piecewise kernel. -/
structure PWCVI (n d : ℕ) where
  /-- `time_points` -/
  times : Fin (n + 1) → ℝ
  /-- `observations` -/
  observations : Fin (n + 1) → Vec 1
  /-- `kernel` -/
  kernel : Piecewise 1 d
  /-- `likelihood` -/
  likelihood : ScalarLikelihood
  /-- `mean_function`, at one time point -/
  meanFunction : ℝ → Vec 1
  /-- `learning_rate` -/
  learningRate : ℝ
  /-- `sites` -/
  sites : UnivariateSites (n + 1)

namespace PWCVI

/-- `__init__` (variational_cvi.py:69-102, 297-319) -/
noncomputable def init (times : Fin (n + 1) → ℝ) (observations : Fin (n + 1) → Vec 1)
    (kernel : Piecewise 1 d) (likelihood : ScalarLikelihood) (meanFunction : Option (ℝ → Vec 1))
    (learningRate : ℝ := 0.1) : PWCVI n d :=
  ⟨times, observations, kernel, likelihood, meanFunction.getD fun _ => 0, learningRate,
    ⟨fun _ => 0, fun _ => Matrix.of fun _ _ => -1e-10⟩⟩

variable (c : PWCVI n d)

/-- `dist_p` (variational_cvi.py:211-216) -/
noncomputable def distP : Except Err (SSM n d) := c.kernel.stateSpaceModel approxInf c.times

/-- `generate_emission_model(time_points)` (variational_cvi.py:119 and 142, piecewise_stationary.py:89-109): its matrices. -/
noncomputable def emissions : Except Err (Fin (n + 1) → Mat 1 d) := do
  let H ← c.kernel.emissions approxInf (List.ofFn c.times)
  Piecewise.toFin (n + 1) H

/-- `dist_q` (variational_cvi.py:105-136) -/
noncomputable def distQ : Except Err (SSM n d) := do
  let p ← c.distP
  let prec ← p.precision
  let precDiag := prec.diag
  let precSub : Fin n → Mat d d := prec.sub.getD 0
  let H ← c.emissions
  let (bpNat1, bpNat2) := backProjectNats c.sites.nat1 (fun t a => c.sites.nat2 t a 0) H
  naturalsToSSM bpNat1 (fun b => (-(1 / 2) : ℝ) • precDiag b + bpNat2 b) (fun k => -precSub k)

/-- `posterior_kalman` (variational_cvi.py:137-144) -/
noncomputable def posteriorKalman : Except Err (KF n d 1) := do
  let p ← c.distP
  let H ← c.emissions
  return kalmanFilterWithSites p H c.sites.means c.sites.precisions

/-- `posterior` (variational_cvi.py:146-153): the mean function is not passed on. -/
noncomputable def posterior : Except Err (PWProcess n 1 d) := do
  let q ← c.distQ
  return ⟨q, c.kernel, c.times, fun _ => 0⟩

/-- `log_likelihood` (variational_cvi.py:155-161), and `elbo` (l.370-379). -/
noncomputable def elbo : Except Err ℝ := do
  let k ← c.posteriorKalman
  k.logLikelihood

/-- `loss` (variational_cvi.py:218-222) -/
noncomputable def loss : Except Err ℝ := do
  let e ← c.elbo
  return -e

/-- `update_sites` (variational_cvi.py:351-368): the new value of the object. -/
noncomputable def updateSites : Except Err (PWCVI n d) := do
  let post ← c.posterior
  let fx ← post.predictFDiag c.times
  let grads : Fin (n + 1) → Fin 1 → ℝ × ℝ := fun t a =>
    localGradients c.likelihood ((fx t).1 a) ((fx t).2 a) (c.observations t a)
  let lr := c.learningRate
  let newNat1 : Fin (n + 1) → Vec 1 := fun t a => (1 - lr) * c.sites.nat1 t a + lr * (grads t a).1
  let newNat2 : Fin (n + 1) → Mat 1 1 := fun t =>
    Matrix.of fun a b => (1 - lr) * c.sites.nat2 t a b + lr * (grads t a).2
  return { c with sites := ⟨newNat1, newNat2⟩ }

/-- `classic_elbo` (variational_cvi.py:381-404) -/
noncomputable def classicElbo : Except Err ℝ := do
  let post ← c.posterior
  let fx ← post.predictFDiag c.times
  let ve : ℝ := ∑ i, c.likelihood.varExps (fx i).1 (fx i).2 (c.observations i)
  let q ← c.distQ
  let p ← c.distP
  let kl ← q.klDivergence p
  return ve - kl

/-- `k` successive calls of `update_sites` (variational_cvi.py:351-368). -/
noncomputable def updates : ℕ → PWCVI n d → Except Err (PWCVI n d)
  | 0, c => pure c
  | k + 1, c => do
    let c' ← c.updateSites
    updates k c'

end PWCVI
end MF
