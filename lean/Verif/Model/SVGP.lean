import Verif.Model.VGP

/-!
# Model of `markovflow/models/sparse_variational.py`

The mean function is given by its value at each time point. Batch shape `()`, so the `reduce_sum` of the
KL term (l.180) is the identity. The `ordered` transform of the inducing inputs (l.130) keeps them strictly
increasing; here they are an arbitrary sequence, and the theorems assume the ordering.
-/

namespace MF
open Matrix
variable {n d o p : ℕ}

/-- The attributes of a `SparseVariationalGaussianProcess` (sparse_variational.py:97-147). `q` is the current
value of the trainable distribution `_dist_q`. -/
structure SVGP (n o d : ℕ) where
  /-- `kernel` -/
  kernel : Stationary o d
  /-- `likelihood` -/
  likelihood : ScalarLikelihood
  /-- `inducing_inputs` -/
  inducing : Fin (n + 1) → ℝ
  /-- `mean_function`, at one time point -/
  meanFunction : ℝ → Vec o
  /-- `num_data` -/
  numData : Option ℕ
  /-- `dist_q` -/
  q : SSM n d

namespace SVGP

/-- `__init__` (l.97-147) -/
noncomputable def init (kernel : Stationary o d) (likelihood : ScalarLikelihood)
    (inducing : Fin (n + 1) → ℝ) (meanFunction : Option (ℝ → Vec o)) (numData : Option ℕ)
    (initialDistribution : Option (SSM n d)) : Except Err (SVGP n o d) := do
  let meanFunction := meanFunction.getD fun _ => 0
  let initial ← match initialDistribution with
    | none => kernel.stateSpaceModel inducing
    | some q => pure q
  return ⟨kernel, likelihood, inducing, meanFunction, numData, initial.createTrainableCopy⟩

variable (v : SVGP n o d)

/-- `dist_p` (l.225-230) -/
noncomputable def distP : Except Err (SSM n d) := v.kernel.stateSpaceModel v.inducing

/-- `posterior` (l.239-248, built in `__init__` l.140-146) -/
def posterior : CondProcess n o d := ⟨v.q, v.kernel, v.inducing, v.meanFunction⟩

/-- `elbo` (l.149-192) on the minibatch `(X, Y)`. `0 / 0` for an empty minibatch is `0` here, not a number
in the code; the theorems are about non-empty minibatches. -/
noncomputable def elbo (X : Fin p → ℝ) (Y : Fin p → Vec o) : Except Err ℝ := do
  let fx ← v.posterior.predictFDiag X
  let ve : ℝ := ∑ i, v.likelihood.varExps (fx i).1 (fx i).2 (Y i)
  let prior ← v.distP
  let kl ← v.q.klDivergence prior
  let scale : ℝ := match v.numData with
    | some numData => (numData : ℝ) / (p : ℝ)
    | none => 1
  return ve * scale - kl

/-- `loss` (l.250-260) -/
noncomputable def loss (X : Fin p → ℝ) (Y : Fin p → Vec o) : Except Err ℝ := do
  let e ← v.elbo X Y
  return -e

/-- `predict_log_density` (l.262-270) for a GPflow `Gaussian` likelihood of variance `noise` (contract:
`Σ_a log N(Y_a; Fmu_a, Fvar_a + noise)`; `full_output_cov` is not used by the code). -/
noncomputable def predictLogDensityGaussian (noise : ℝ) (X : Fin p → ℝ) (Y : Fin p → Vec o) :
    Except Err (Fin p → ℝ) := do
  let f ← v.posterior.predictFDiag X
  return fun i => ∑ a, -(1 / 2) * (Real.log (2 * Real.pi) + Real.log ((f i).2 a + noise)
    + (Y i a - (f i).1 a) ^ 2 / ((f i).2 a + noise))

end SVGP
end MF
