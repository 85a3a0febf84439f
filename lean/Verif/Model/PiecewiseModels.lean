import Verif.Model.Piecewise
import Verif.Model.SVGP

/-!
# Models whose kernel is a `PiecewiseKernel`

`conditionals.py`, `posterior.py`, `gaussian_process_regression.py` and `sparse_variational.py` use the kernel through
its list-valued methods only. `Model/Conditionals.lean` and the others model them for a `StationaryKernel`, whose methods
act on each time separately; a `PiecewiseKernel` does not, so the same code is modelled again here, with the methods of
`Model/Piecewise.lean`. Batch shape `()`.
-/

namespace MF
open Matrix
variable {n d o p : ℕ}

namespace Piecewise

/-- `_conditional_statistics` (conditionals.py:206-254) with a piecewise kernel: `transition_statistics` is called with
all the left neighbours (l.248) and with all the new time points (l.249). -/
noncomputable def conditionalStatisticsAux (K : Piecewise o d) (inf : ℝ) (new : Fin p → ℝ)
    (training : Fin (n + 1) → ℝ) :
    Except Err ((Fin p → Matrix (Fin d) (Fin d ⊕ Fin d) ℝ) × (Fin p → Mat d d) × (Fin p → Fin (n + 2))) := do
  let indices : Fin p → Fin (n + 2) := fun q => searchsortedLeft training (new q)
  let augmented := augmentedTimes inf training
  let inducing_plus : Fin p → ℝ := fun q => augmented (indices q).succ
  let inducing_minus : Fin p → ℝ := fun q => augmented (indices q).castSucc
  let dX_mt : Fin p → ℝ := fun q => new q - inducing_minus q
  let dX_tp : Fin p → ℝ := fun q => inducing_plus q - new q
  let (A_mt, Q_mt) ← K.transitionStatistics inf (List.ofFn inducing_minus) (List.ofFn dX_mt)
  let (A_tp, Q_tp) ← K.transitionStatistics inf (List.ofFn new) (List.ofFn dX_tp)
  let A_mt ← toFin p A_mt
  let Q_mt ← toFin p Q_mt
  let A_tp ← toFin p A_tp
  let Q_tp ← toFin p Q_tp
  let FGT ← seqFin fun q => condStatsFromTransitions (A_mt q) (Q_mt q) (A_tp q) (Q_tp q)
  return (fun q => fromCols (FGT q).D (FGT q).E, fun q => (FGT q).T, indices)

/-- `conditional_statistics` (conditionals.py:86-118) with a piecewise kernel -/
noncomputable def conditionalStatistics (K : Piecewise o d) (inf : ℝ) (new : Fin p → ℝ) (training : Fin (n + 1) → ℝ) :
    Except Err ((Fin p → Matrix (Fin d) (Fin d ⊕ Fin d) ℝ) × (Fin p → Mat d d)) := do
  let r ← K.conditionalStatisticsAux inf new training
  return (r.1, r.2.1)

/-- `conditional_predict` (conditionals.py:28-83) with a piecewise kernel -/
noncomputable def conditionalPredict (K : Piecewise o d) (inf : ℝ) (new : Fin p → ℝ) (training : Fin (n + 1) → ℝ)
    (pairMeans : Fin (n + 2) → Fin d ⊕ Fin d → ℝ)
    (pairCovs : Option (Fin (n + 2) → Matrix (Fin d ⊕ Fin d) (Fin d ⊕ Fin d) ℝ)) :
    Except Err (Fin p → Vec d × Mat d d) := do
  let (P, T, indices) ← K.conditionalStatisticsAux inf new training
  return fun q =>
    baseConditionalPredict (P q) (T q) (pairMeans (indices q)) (pairCovs.map fun S => S (indices q))

/-- `kernel.initial_covariance(time_points[..., :1])` (posterior.py:221, piecewise_stationary.py:111-124): index `0` of
the covariances at the first time point; there is none if there are no time points. -/
noncomputable def initialCovarianceAtFirst (K : Piecewise o d) (inf : ℝ) (ts : Fin p → ℝ) : Except Err (Mat d d) := do
  let Ps ← K.steadyStateCovariances inf ((List.ofFn ts).take 1)
  (Ps.head?).elim (.error .index) .ok

end Piecewise

/-- The attributes of a `ConditionalProcess` (posterior.py:177-206) over a piecewise kernel. -/
structure PWProcess (n o d : ℕ) where
  /-- `gauss_markov_model` -/
  q : SSM n d
  /-- `kernel` -/
  kernel : Piecewise o d
  /-- `conditioning_time_points` -/
  times : Fin (n + 1) → ℝ
  /-- `mean_function`, at one time point -/
  meanFunction : ℝ → Vec o

namespace PWProcess
variable (c : PWProcess n o d)

/-- `predict_state` (posterior.py:207-229). The kernel's `initial_mean` is the zero of sde_kernel.py:213-225. -/
noncomputable def predictState (new : Fin p → ℝ) : Except Err (Fin p → Vec d × Mat d d) := do
  let P0 ← c.kernel.initialCovarianceAtFirst approxInf new
  let (pwMu, pwCov) ← pairwiseMarginals c.q 0 P0
  c.kernel.conditionalPredict approxInf new c.times pwMu (some pwCov)

/-- `predict_f` (posterior.py:231-258) with `full_output_cov=True`. -/
noncomputable def predictF (new : Fin p → ℝ) : Except Err (Fin p → Vec o × Mat o o) := do
  let H ← c.kernel.emissions approxInf (List.ofFn new)
  let s ← c.predictState new
  let H ← Piecewise.toFin p H
  return fun q => (projectStateToF H (fun q => (s q).1) q + c.meanFunction (new q),
    projectStateCovarianceToFFull H (fun q => (s q).2) q)

/-- `predict_f` (posterior.py:231-258) with `full_output_cov=False`. -/
noncomputable def predictFDiag (new : Fin p → ℝ) : Except Err (Fin p → Vec o × Vec o) := do
  let H ← c.kernel.emissions approxInf (List.ofFn new)
  let s ← c.predictState new
  let H ← Piecewise.toFin p H
  return fun q => (projectStateToF H (fun q => (s q).1) q + c.meanFunction (new q),
    projectStateCovarianceToFDiag H (fun q => (s q).2) q)

end PWProcess

/-- The attributes of a `GaussianProcessRegression` (gaussian_process_regression.py:44-84) over a piecewise kernel. -/
structure PWGPR (n o d : ℕ) where
  /-- `time_points` -/
  times : Fin (n + 1) → ℝ
  /-- `observations` -/
  observations : Fin (n + 1) → Vec o
  /-- `kernel` -/
  kernel : Piecewise o d
  /-- `mean_function`, at one time point -/
  meanFunction : ℝ → Vec o
  /-- `chol_obs_covariance` -/
  cholObsCov : Mat o o

namespace PWGPR
variable (g : PWGPR n o d)

/-- `_kalman` (gaussian_process_regression.py:118-129) -/
noncomputable def kalman : Except Err (KF n d o) := do
  let residuals : Fin (n + 1) → Vec o := fun i => g.observations i - g.meanFunction (g.times i)
  let ssm ← g.kernel.stateSpaceModel approxInf g.times
  let H ← g.kernel.emissions approxInf (List.ofFn g.times)
  let H ← Piecewise.toFin (n + 1) H
  return kalmanFilter ssm H residuals g.cholObsCov

/-- `log_likelihood` (gaussian_process_regression.py:152-160) -/
noncomputable def logLikelihood : Except Err ℝ := do
  let k ← g.kalman
  k.logLikelihood

/-- `loss` (gaussian_process_regression.py:131-135) -/
noncomputable def loss : Except Err ℝ := do
  let l ← g.logLikelihood
  return -l

/-- `posterior` (gaussian_process_regression.py:137-150) -/
noncomputable def posterior : Except Err (PWProcess n o d) := do
  let k ← g.kalman
  let s ← k.posteriorSSM
  return ⟨s, g.kernel, g.times, g.meanFunction⟩

end PWGPR

/-- The attributes of a `SparseVariationalGaussianProcess` (sparse_variational.py:97-147) over a piecewise kernel. -/
structure PWSVGP (n o d : ℕ) where
  /-- `kernel` -/
  kernel : Piecewise o d
  /-- `likelihood` -/
  likelihood : ScalarLikelihood
  /-- `inducing_inputs` -/
  inducing : Fin (n + 1) → ℝ
  /-- `mean_function`, at one time point -/
  meanFunction : ℝ → Vec o
  /-- `num_data` -/
  numData : Option ℕ
  /-- `dist_q` -/
  q : SSM n d

namespace PWSVGP

/-- `__init__` (sparse_variational.py:97-147) -/
noncomputable def init (kernel : Piecewise o d) (likelihood : ScalarLikelihood)
    (inducing : Fin (n + 1) → ℝ) (meanFunction : Option (ℝ → Vec o)) (numData : Option ℕ)
    (initialDistribution : Option (SSM n d)) : Except Err (PWSVGP n o d) := do
  let meanFunction := meanFunction.getD fun _ => 0
  let initial ← match initialDistribution with
    | none => kernel.stateSpaceModel approxInf inducing
    | some q => pure q
  return ⟨kernel, likelihood, inducing, meanFunction, numData, initial.createTrainableCopy⟩

variable (v : PWSVGP n o d)

/-- `dist_p` (sparse_variational.py:225-230) -/
noncomputable def distP : Except Err (SSM n d) := v.kernel.stateSpaceModel approxInf v.inducing

/-- `posterior` (sparse_variational.py:239-248) -/
def posterior : PWProcess n o d := ⟨v.q, v.kernel, v.inducing, v.meanFunction⟩

/-- `elbo` (sparse_variational.py:149-192), see `SVGP.elbo`. -/
noncomputable def elbo (X : Fin p → ℝ) (Y : Fin p → Vec o) : Except Err ℝ := do
  let fx ← v.posterior.predictFDiag X
  let ve : ℝ := ∑ i, v.likelihood.varExps (fx i).1 (fx i).2 (Y i)
  let prior ← v.distP
  let kl ← v.q.klDivergence prior
  let scale : ℝ := match v.numData with
    | some numData => (numData : ℝ) / (p : ℝ)
    | none => 1
  return ve * scale - kl

/-- `loss` (sparse_variational.py:250-260) -/
noncomputable def loss (X : Fin p → ℝ) (Y : Fin p → Vec o) : Except Err ℝ := do
  let e ← v.elbo X Y
  return -e

end PWSVGP
end MF
