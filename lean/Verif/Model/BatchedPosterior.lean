import Verif.Model.BatchedKernels
import Verif.Model.GPR

/-!
# Conditionals, posterior processes and GP regression on tensors of any batch shape

`conditionals.py`, `posterior.py` (`ConditionalProcess`), `mean_function.py` (zero and linear) and `models/gaussian_process_regression.py` once
more, on raw tensors. Shapes are innermost first (see `Verif/Model/Tensor.lean`).
-/

namespace MF
open Tensor

/-- A `tf.Tensor` of integers (contract), as `Tensor`. -/
structure ITensor where
  /-- the dimensions, innermost first -/
  shape : List ℕ
  /-- the entries -/
  val : List ℕ → ℕ

namespace ITensor

/-- `x + k` (contract, conditionals.py:243) -/
def add (x : ITensor) (k : ℕ) : ITensor := ⟨x.shape, fun i => x.val i + k⟩

end ITensor

namespace Tensor

/-- `tf.searchsorted(x, v)` (contract): along the innermost axis, the batch shapes must agree. (TensorFlow only compares the number of rows of the
flattened batch; different batch shapes of one size are treated as an error here.) -/
noncomputable def searchsortedT (x v : Tensor) : Except Err ITensor :=
  match x.shape, v.shape with
  | n :: s, p :: t =>
    if s = t then
      .ok ⟨p :: t, fun i => match i with
        | q :: b => (searchsortedLeft (fun k : Fin n => x.val ((k : ℕ) :: b)) (v.val (q :: b)) : ℕ)
        | [] => 0⟩
    else .error .invalidArgument
  | _, _ => .error .invalidArgument

open Classical in
/-- `tf.gather(x, indices, batch_dims=batchDims)` (contract) for indices with exactly one axis besides the batch axes: the gathered axis is the one
after the batch axes, the axes inside it are kept. Raises for an index that is out of range (TensorFlow on a CPU). -/
noncomputable def gather (batchDims : ℕ) (x : Tensor) (indices : ITensor) : Except Err Tensor :=
  let k := x.shape.length - 1 - batchDims
  match x.shape.drop k, indices.shape with
  | N :: s, p :: t =>
    if s = t ∧ t.length = batchDims ∧ ∀ i, InRange i (p :: t) → indices.val i < N then
      .ok ⟨x.shape.take k ++ p :: t, fun i => x.val (i.take k ++ indices.val (i.drop k) :: i.drop (k + 1))⟩
    else .error .invalidArgument
  | _, _ => .error .invalidArgument

end Tensor

/-- `_conditional_statistics_from_transitions` (conditionals.py:122-203) with `return_precision=False` -/
noncomputable def tensorCondStatsFromTransitions (A_mt Q_mt A_tp Q_tp : Tensor) : Except Err (Tensor × Tensor × Tensor) := do
  let A_tp_Q_mt ← matmul A_tp Q_mt
  let AAQ ← matmul A_tp A_tp_Q_mt.matT
  let S ← plus Q_tp AAQ
  let L ← choleskyT S
  let AQ ← matmul A_tp Q_mt
  let V ← triSolveT L AQ
  let LV ← triSolveT L V true
  let E := LV.matT
  let EA ← matmul E A_tp
  let EAA ← matmul EA A_mt
  let D ← minus A_mt EAA
  let VV ← matmul V.matT V
  let T ← minus Q_mt VV
  return (D, E, T)

/-- `_conditional_statistics` (conditionals.py:206-254); `inf` is `APPROX_INF` -/
noncomputable def tensorConditionalStatisticsAux (inf : ℝ) (new training : Tensor) (K : TKernel) : Except Err (Tensor × Tensor × ITensor) := do
  let batchDims := (new.shape.drop 1).length
  let indices ← searchsortedT training new
  let infs := (ones (sliceFrom 0 (training.dim 0 - 1) training).shape).map (inf * ·)
  let tail ← concat 0 training infs
  let augmented ← concat 0 (infs.map (-·)) tail
  let plus ← gather batchDims augmented (indices.add 1)
  let minus' ← gather batchDims augmented indices
  let dX_mt ← minus new minus'
  let dX_tp ← minus plus new
  let (A_mt, Q_mt) ← K.transitionStatistics minus' dX_mt
  let (A_tp, Q_tp) ← K.transitionStatistics new dX_tp
  let (F, G, T) ← tensorCondStatsFromTransitions A_mt Q_mt A_tp Q_tp
  let P ← concat 0 F G
  return (P, T, indices)

/-- `conditional_statistics` (conditionals.py:86-118) -/
noncomputable def tensorConditionalStatistics (inf : ℝ) (new training : Tensor) (K : TKernel) : Except Err (Tensor × Tensor) := do
  let r ← tensorConditionalStatisticsAux inf new training K
  return (r.1, r.2.1)

/-- `base_conditional_predict` (conditionals.py:379-420) -/
def tensorBaseConditionalPredict (P T adjacent : Tensor) (pairCov : Option Tensor) : Except Err (Tensor × Tensor) := do
  let m ← matmul P (expand 0 adjacent)
  let covs ← match pairCov with
    | none => pure T
    | some S => do
      let PS ← matmul P S
      let PSP ← matmul PS P.matT
      plus T PSP
  return (index 0 0 m, covs)

/-- `conditional_predict` (conditionals.py:28-83) -/
noncomputable def tensorConditionalPredict (inf : ℝ) (new training : Tensor) (K : TKernel) (pairMeans : Tensor) (pairCovs : Option Tensor) :
    Except Err (Tensor × Tensor) := do
  let (P, T, indices) ← tensorConditionalStatisticsAux inf new training K
  let batchDims := (new.shape.drop 1).length
  let means ← gather batchDims pairMeans indices
  let covs ← match pairCovs with
    | none => pure none
    | some S => do
      let c ← gather batchDims S indices
      pure (some c)
  tensorBaseConditionalPredict P T means covs

/-- `pairwise_marginals` (conditionals.py:423-485) -/
noncomputable def tensorPairwiseMarginals (dist : TSSM) (initialMean initialCov : Tensor) : Except Err (Tensor × Tensor) := do
  let (means, _) ← dist.marginals
  let (covariances, subsequent) ← dist.covarianceBlocks
  let m0 := expand 1 initialMean
  let mt ← concat 1 means m0
  let extendedMeans ← concat 1 m0 mt
  let jointMean ← concat 0 (sliceDrop 1 1 extendedMeans) (sliceFrom 1 1 extendedMeans)
  let P0 := expand 2 initialCov
  let ct ← concat 2 covariances P0
  let extendedCov ← concat 2 P0 ct
  let st ← concat 2 subsequent (zeros P0.shape)
  let extendedSub ← concat 2 (zeros P0.shape) st
  let joint0 ← concat 0 (sliceDrop 2 1 extendedCov) extendedSub.matT
  let joint1 ← concat 0 extendedSub (sliceFrom 2 1 extendedCov)
  let jointCov ← concat 1 joint0 joint1
  let shape := dist.batch.reverse ++ [dist.numTransitions + 2, 2 * dist.stateDim]
  Shapes.assertEqual jointMean.tfShape shape
  Shapes.assertEqual jointCov.tfShape (shape ++ [2 * dist.stateDim])
  return (jointMean, jointCov)

/-- `ZeroMeanFunction.__call__` (mean_function.py:78-87) with `obs_dim = k` -/
def tensorZeroMean (k : ℕ) (t : Tensor) : Except Err Tensor := .ok (zeros (k :: t.shape))

/-- `LinearMeanFunction.__call__` (mean_function.py:105-114) -/
def tensorLinearMean (coefficient : ℝ) (k : ℕ) (t : Tensor) : Except Err Tensor := broadcastTo (k :: t.shape) ((expand 0 t).map (coefficient * ·))

/-- The attributes of a `ConditionalProcess` (posterior.py:177-206). -/
structure TCondProcess where
  /-- `gauss_markov_model` -/
  q : TSSM
  /-- `kernel` -/
  kernel : TKernel
  /-- `conditioning_time_points` -/
  times : Tensor
  /-- `mean_function` -/
  meanFunction : Tensor → Except Err Tensor

/-- `StackEmissionModel.project_state_to_f` (emission_model.py:325-344) -/
def tensorStackProjectState (H state : Tensor) : Except Err Tensor := do
  Shapes.projectStateCheck H.tfShape state.tfShape
  let f ← matmul H (expand 0 state)
  return matT (index 0 0 (index 0 0 f))

/-- `StackEmissionModel.project_state_covariance_to_f` (emission_model.py:346-378): element-wise products with broadcasting. -/
def tensorStackProjectCovariance (H covariance : Tensor) (fullOutputCov : Bool) : Except Err Tensor := do
  Shapes.assertEqual covariance.tfShape ((H.shape.drop 3).reverse ++ [H.dim 2, H.dim 0, H.dim 0])
  let hc ← times H covariance
  let hch ← times hc H.matT
  let diagHcovHT := matT (sum1 (sum1 hch))
  return if fullOutputCov then diag diagHcovHT else diagHcovHT

/-- `project_state_to_f` of the emission model that the kernel generates: a `StackEmissionModel` for a stack (sde_kernel.py:1254), an `EmissionModel`
otherwise -/
def TKernel.projectState (K : TKernel) (H state : Tensor) : Except Err Tensor :=
  match K.numKernels with
  | none => tensorProjectState H state
  | some _ => tensorStackProjectState H state

/-- `project_state_covariance_to_f` of the emission model that the kernel generates (sde_kernel.py:1254) -/
def TKernel.projectCovariance (K : TKernel) (H covariance : Tensor) (fullOutputCov : Bool) : Except Err Tensor :=
  match K.numKernels with
  | none => tensorProjectCovariance H covariance fullOutputCov
  | some _ => tensorStackProjectCovariance H covariance fullOutputCov

/-- `_correct_mean_shape` (posterior.py:790-813) -/
def TKernel.correctMeanShape (K : TKernel) (mean : Tensor) : Except Err Tensor :=
  match K.numKernels with
  | none => .ok mean
  | some _ => if mean.dim 0 ≠ 1 then .error .invalidArgument else .ok (matT (index 0 0 mean))

namespace TCondProcess
variable (c : TCondProcess)

/-- `predict_state` (posterior.py:207-229) -/
noncomputable def predictState (new : Tensor) : Except Err (Tensor × Tensor) := do
  let m0 ← c.kernel.initialMean c.q.batch
  let P0 ← c.kernel.initialCovariance (sliceTo 0 1 new)
  let (pwMu, pwCov) ← tensorPairwiseMarginals c.q m0 P0
  tensorConditionalPredict approxInf new c.times c.kernel pwMu (some pwCov)

/-- `predict_f` (posterior.py:231-258) -/
noncomputable def predictF (new : Tensor) (fullOutputCov : Bool) : Except Err (Tensor × Tensor) := do
  let H ← c.kernel.emission new
  let (sMean, sCov) ← c.predictState new
  let fRes ← c.kernel.projectState H sMean
  let fCovs ← c.kernel.projectCovariance H sCov fullOutputCov
  let mean ← c.meanFunction new
  let mean' ← c.kernel.correctMeanShape mean
  let m ← plus fRes mean'
  return (m, fCovs)

end TCondProcess

/-- The attributes of a `GaussianProcessRegression` (gaussian_process_regression.py:44-84). -/
structure TGPR where
  /-- `time_points` -/
  times : Tensor
  /-- `observations` -/
  observations : Tensor
  /-- `kernel` -/
  kernel : TKernel
  /-- `mean_function` -/
  meanFunction : Tensor → Except Err Tensor
  /-- `chol_obs_covariance` -/
  cholObsCov : Tensor

namespace TGPR

/-- `GaussianProcessRegression.__init__` (gaussian_process_regression.py:44-84): the two `tf.ensure_shape` checks and the defaults. Floating point types (the dtype of the default `tf.eye`) are not modelled. -/
noncomputable def init (times observations : Tensor) (kernel : TKernel) (meanFunction : Option (Tensor → Except Err Tensor) := none)
    (cholObsCov : Option Tensor := none) : Except Err TGPR := do
  let o := observations.dim 0
  let chol := cholObsCov.getD (eye o [])
  if chol.shape ≠ [o, o] then .error .value
  if times.shape ≠ observations.shape.drop 1 then .error .value
  return ⟨times, observations, kernel, meanFunction.getD (tensorZeroMean 1), chol⟩

variable (g : TGPR)

/-- `_kalman` (gaussian_process_regression.py:118-129) -/
noncomputable def kalman : Except Err TKF := do
  let m ← g.meanFunction g.times
  let residuals ← minus g.observations m
  let ssm ← g.kernel.stateSpaceModel g.times
  let H ← g.kernel.emission g.times
  tensorKalmanFilter ssm H residuals g.cholObsCov

/-- `log_likelihood` (gaussian_process_regression.py:152-160) -/
noncomputable def logLikelihood : Except Err ℝ := do
  let k ← g.kalman
  k.logLikelihood

/-- `loss` (gaussian_process_regression.py:131-135) -/
noncomputable def loss : Except Err ℝ := do
  let l ← g.logLikelihood
  return -l

/-- `posterior` (gaussian_process_regression.py:137-150) -/
noncomputable def posterior : Except Err TCondProcess := do
  let k ← g.kalman
  let s ← k.posteriorSSM
  return ⟨s, g.kernel, g.times, g.meanFunction⟩

end TGPR
end MF
