import Verif.Model.Posterior
import Verif.Model.KalmanFilter
import Verif.Model.Likelihood

/-!
# Model of `markovflow/models/variational.py`

The mean function is given by its value at each time point. Batch shape `()`, so the outer
`reduce_sum` of the KL term (l.150) is the identity.
-/

namespace MF
open Matrix
variable {n d o : ℕ}

/-- The attributes of a `VariationalGaussianProcess` (variational.py:80-127). `q` is the current value
of the trainable distribution `_dist_q`. -/
structure VGP (n o d : ℕ) where
  /-- `time_points` -/
  times : Fin (n + 1) → ℝ
  /-- `observations` -/
  observations : Fin (n + 1) → Vec o
  /-- `kernel` -/
  kernel : Stationary o d
  /-- `likelihood` -/
  likelihood : ScalarLikelihood
  /-- `mean_function`, at one time point -/
  meanFunction : ℝ → Vec o
  /-- `dist_q` -/
  q : SSM n d

namespace VGP

/-- `__init__` (l.80-127) -/
noncomputable def init (times : Fin (n + 1) → ℝ) (observations : Fin (n + 1) → Vec o)
    (kernel : Stationary o d) (likelihood : ScalarLikelihood) (meanFunction : Option (ℝ → Vec o))
    (initialDistribution : Option (SSM n d)) : Except Err (VGP n o d) := do
  let meanFunction := meanFunction.getD fun _ => 0
  let initial ← match initialDistribution with
    | none => kernel.stateSpaceModel times
    | some q => pure q
  return ⟨times, observations, kernel, likelihood, meanFunction, initial.createTrainableCopy⟩

variable (v : VGP n o d)

/-- `dist_p` (l.193-198) -/
noncomputable def distP : Except Err (SSM n d) := v.kernel.stateSpaceModel v.times

/-- `posterior` (l.207-216, built in `__init__` l.121-127) -/
def posterior : CondProcess n o d := ⟨v.q, v.kernel, v.times, v.meanFunction⟩

/-- `elbo` (l.129-152) -/
noncomputable def elbo : Except Err ℝ := do
  let fx ← v.posterior.predictFDiag v.times
  let ve : ℝ := ∑ i, v.likelihood.varExps (fx i).1 (fx i).2 (v.observations i)
  let p ← v.distP
  let kl ← v.q.klDivergence p
  return ve - kl

/-- `loss` (l.218-222) -/
noncomputable def loss : Except Err ℝ := do
  let e ← v.elbo
  return -e

end VGP
end MF
