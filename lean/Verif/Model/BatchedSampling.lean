import Verif.Model.BatchedPosterior

/-!
# Sampling from posterior processes with batch and sample axes

`ConditionalProcess.sample_state_trajectories`, `sample_state`, `sample_f` (posterior.py:260-410) once more on raw tensors with run-time shapes
(see Model/Tensor.lean), for every `sample_shape` and batch shape, as functions of the standard normal draws made by the two calls to
`StateSpaceModel.sample`.
-/

namespace MF
open Tensor

namespace ITensor

/-- `tf.argsort(x)` of integers (contract; ascending, stable), along the innermost axis -/
def argsort (x : ITensor) : ITensor :=
  ⟨x.shape, fun i => match i with
    | q :: b => if h : q < x.shape.headD 0 then (Tuple.sort (fun k : Fin (x.shape.headD 0) => x.val ((k : ℕ) :: b)) ⟨q, h⟩ : ℕ) else 0
    | [] => 0⟩

/-- `tf.broadcast_to(x, s)` of integers (contract), as `Tensor.broadcastTo` -/
def broadcastTo (s : List ℕ) (x : ITensor) : Except Err ITensor := do
  let w ← bshape x.shape s
  if w = s then return ⟨s, fun i => x.val (bidx x.shape i)⟩ else .error .invalidArgument

end ITensor

namespace Tensor

/-- `tf.argsort(x)` (contract; ascending, stable), along the innermost axis -/
noncomputable def argsort (x : Tensor) : ITensor :=
  ⟨x.shape, fun i => match i with
    | q :: b => if h : q < x.shape.headD 0 then (Tuple.sort (fun k : Fin (x.shape.headD 0) => x.val ((k : ℕ) :: b)) ⟨q, h⟩ : ℕ) else 0
    | [] => 0⟩

end Tensor

namespace TCondProcess
variable (c : TCondProcess)

/-- `sample_state_trajectories` (posterior.py:260-377). `sampleShape` is innermost first. The three gathers with `axis=-2` and `axis` left out are
`Tensor.gather`: the gathered axis follows the batch and sample axes. -/
noncomputable def sampleStateTrajectories (new : Tensor) (sampleShape : List ℕ) (drawsPrior drawsPost : List ℕ → ℝ) :
    Except Err (Tensor × Tensor) := do
  let sampleDims := sampleShape.length
  let batchDims := c.q.batch.length
  -- l.324-327
  let joint ← concat 0 c.times new
  let sortInd := joint.argsort
  let sortedTimes ← gather batchDims joint sortInd
  -- l.329-332
  let prior ← c.kernel.stateSpaceModel sortedTimes
  let sortedSamples ← prior.sample sampleShape drawsPrior
  -- l.334-344
  let numConditioning := c.times.dim 0
  let unsortInd := sortInd.argsort
  let unsortInd' ← unsortInd.broadcastTo (unsortInd.shape ++ sampleShape)
  let jointSamples ← gather (batchDims + sampleDims) sortedSamples unsortInd'
  let priorConditioning := sliceTo 1 numConditioning jointSamples
  let priorNew := sliceFrom 1 numConditioning jointSamples
  -- l.346-349
  let posteriorConditioning ← c.q.sample sampleShape drawsPost
  let delta ← minus priorConditioning posteriorConditioning
  -- l.351-367
  let zeroPad := zeros (sliceTo 1 1 delta).shape
  let tail ← concat 1 delta zeroPad
  let deltaAugmented ← concat 1 zeroPad tail
  let indices ← searchsortedT c.times new
  let indices' ← indices.broadcastTo (indices.shape ++ sampleShape)
  let uMinus ← gather (batchDims + sampleDims) deltaAugmented indices'
  let uPlus ← gather (batchDims + sampleDims) deltaAugmented (indices'.add 1)
  let v ← concat 0 uMinus uPlus
  -- l.369-374
  let (P, _) ← tensorConditionalStatistics approxInf new c.times c.kernel
  let Pv ← matmul P (expand 0 v)
  let newSamples ← minus priorNew (index 0 0 Pv)
  return (newSamples, posteriorConditioning)

/-- `sample_state` (posterior.py:46-77): the samples at the new time points -/
noncomputable def sampleState (new : Tensor) (sampleShape : List ℕ) (drawsPrior drawsPost : List ℕ → ℝ) : Except Err Tensor := do
  let r ← c.sampleStateTrajectories new sampleShape drawsPrior drawsPost
  return r.1

/-- `sample_f` (posterior.py:379-410) -/
noncomputable def sampleF (new : Tensor) (sampleShape : List ℕ) (drawsPrior drawsPost : List ℕ → ℝ) : Except Err Tensor := do
  let stateSamples ← c.sampleState new sampleShape drawsPrior drawsPost
  let H ← c.kernel.emission new
  let centered ← c.kernel.projectState H stateSamples
  let mean ← c.meanFunction new
  let mean' ← c.kernel.correctMeanShape mean
  plus mean' centered

end TCondProcess

end MF
