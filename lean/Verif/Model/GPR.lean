import Verif.Model.Posterior
import Verif.Model.KalmanFilter

/-!
# Model of `markovflow/models/gaussian_process_regression.py`

The mean function is given by its value at each time point (what the `MeanFunction` classes compute is
modelled in `Model/MeanFunction.lean`). The default `chol_obs_covariance=None` (l.66-67) is not
modelled: the factor is always given. Batch shape `()`; the shape checks hold by typing.
-/

namespace MF
open Matrix
variable {n d o : ℕ}

/-- The attributes of a `GaussianProcessRegression` (gaussian_process_regression.py:44-84). -/
structure GPR (n o d : ℕ) where
  /-- `time_points` -/
  times : Fin (n + 1) → ℝ
  /-- `observations` -/
  observations : Fin (n + 1) → Vec o
  /-- `kernel` -/
  kernel : Stationary o d
  /-- `mean_function`, at one time point -/
  meanFunction : ℝ → Vec o
  /-- `chol_obs_covariance` -/
  cholObsCov : Mat o o

namespace GPR
variable (g : GPR n o d)

/-- `_kalman` (l.118-129) -/
noncomputable def kalman : Except Err (KF n d o) := do
  let residuals : Fin (n + 1) → Vec o := fun i => g.observations i - g.meanFunction (g.times i)
  let ssm ← g.kernel.stateSpaceModel g.times
  return kalmanFilter ssm (fun i => g.kernel.emission (g.times i)) residuals g.cholObsCov

/-- `log_likelihood` (l.152-160) -/
noncomputable def logLikelihood : Except Err ℝ := do
  let k ← g.kalman
  k.logLikelihood

/-- `loss` (l.131-135) -/
noncomputable def loss : Except Err ℝ := do
  let l ← g.logLikelihood
  return -l

/-- `posterior` (l.137-150) -/
noncomputable def posterior : Except Err (CondProcess n o d) := do
  let k ← g.kalman
  let s ← k.posteriorSSM
  return ⟨s, g.kernel, g.times, g.meanFunction⟩

end GPR
end MF
