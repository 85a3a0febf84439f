import Verif.Model.BatchedPosterior
import Verif.Model.BatchedVariational
import Verif.Model.MeanFunction

/-!
# The impulse and step mean functions on tensors of any batch shape

`mean_function.py` (`ImpulseMeanFunction`, `StepMeanFunction`) once more, on raw tensors. Shapes are innermost first (see
`Verif/Model/Tensor.lean`).
-/

namespace MF
open Tensor

/-- The attributes of an `ImpulseMeanFunction` or a `StepMeanFunction` (mean_function.py:167-193, 309-332). -/
structure TActionMean where
  /-- `_action_times_without_initial`, `[... num_actions]` -/
  times : Tensor
  /-- `_state_perturbations`, `[... num_actions, state_dim]` -/
  perturbations : Tensor
  /-- `_kernel` -/
  kernel : TKernel
  /-- `_action_times`, `[... num_actions + 1]` -/
  extended : Tensor

namespace TActionMean

/-- The common part of the two constructors (mean_function.py:167-193, 309-332); `shift` is what is subtracted from the first action time:
`1e-6` in `ImpulseMeanFunction` (l.193), nothing in `StepMeanFunction` (l.332). -/
noncomputable def init (shift : ℝ) (times perturbations : Tensor) (K : TKernel) : Except Err TActionMean := do
  Shapes.assertEqual times.tfShape (perturbations.shape.drop 1).reverse
  let extended ← concat 0 ((sliceTo 0 1 times).map (· - shift)) times
  return ⟨times, perturbations, K, extended⟩

variable (m : TActionMean)

/-- `_batch_shape` (l.178, 317) -/
def batch : List ℕ := m.perturbations.shape.drop 2
/-- `_num_actions` (l.180, 319) -/
def numActions : ℕ := m.perturbations.dim 1
/-- `_state_dim` (l.181, 320) -/
def stateDim : ℕ := m.perturbations.dim 0

/-- The common part of `ImpulseMeanFunction._a_k` (l.195-223) and `StepMeanFunction._b_k` (l.347-375): the block bidiagonal system and the zero in
front. -/
noncomputable def actionSolve (rhs : Tensor) : Except Err Tensor := do
  let identities := eye m.stateDim (m.numActions :: m.batch)
  let As ←
    if m.numActions = 1 then pure none
    else do
      let delta ← tensorToDeltaTime m.times
      let A ← m.kernel.stateTransitions (sliceDrop 0 1 m.times) delta
      pure (some (A.map (-·)))
  let M ← TBTD.init false identities As
  let x ← M.solve rhs
  concat 1 (zeros (sliceTo 1 1 rhs).shape) x

/-- `ImpulseMeanFunction.__call__` up to `state_mean` (l.225-257). The transition times are `time_points[..., :-1]`, one fewer than there are time
differences. -/
noncomputable def impulseState (timePoints : Tensor) : Except Err Tensor := do
  let numBatch := timePoints.shape.length - 1
  let indices ← searchsortedT (sliceFrom 0 1 m.extended) timePoints
  let start ← gather numBatch m.extended indices
  let deltaTimes ← minus timePoints start
  let aAll ← m.actionSolve m.perturbations
  let a ← gather numBatch aAll indices
  let A ← m.kernel.stateTransitions (sliceDrop 0 1 timePoints) deltaTimes
  let stateMean ← matmul A (expand 0 a)
  return index 0 0 stateMean

/-- `ImpulseMeanFunction.__call__` (l.225-258) -/
noncomputable def impulse (timePoints : Tensor) : Except Err Tensor := do
  let stateMean ← m.impulseState timePoints
  let H ← m.kernel.emission timePoints
  m.kernel.projectState H stateMean

/-- `StepMeanFunction._a_k` (l.334-345) -/
noncomputable def stepA : Except Err Tensor := do
  let F ← m.kernel.feedback
  let F' ← broadcastTo (m.stateDim :: m.stateDim :: m.numActions :: m.batch) F
  let solved ← solveT F' (expand 0 m.perturbations)
  let fInvPerturb := index 0 0 solved
  concat 1 (zeros (sliceTo 1 1 fInvPerturb).shape) (fInvPerturb.map (-·))

/-- `StepMeanFunction.__call__` up to `state_mean` (l.377-411), with `_b_k` (l.347-375) -/
noncomputable def stepState (timePoints : Tensor) : Except Err Tensor := do
  let numBatch := timePoints.shape.length - 1
  let indices ← searchsortedT (sliceFrom 0 1 m.extended) timePoints
  let start ← gather numBatch m.extended indices
  let deltaTimes ← minus timePoints start
  let aAll ← m.stepA
  let a ← gather numBatch aAll indices
  let aDiff ← minus (sliceDrop 1 1 aAll) (sliceFrom 1 1 aAll)
  let bAll ← m.actionSolve aDiff
  let b ← gather numBatch bAll indices
  let A ← m.kernel.stateTransitions timePoints deltaTimes
  let Ab ← matmul A (expand 0 b)
  plus a (index 0 0 Ab)

/-- `StepMeanFunction.__call__` (l.377-412) -/
noncomputable def step (timePoints : Tensor) : Except Err Tensor := do
  let stateMean ← m.stepState timePoints
  let H ← m.kernel.emission timePoints
  m.kernel.projectState H stateMean

end TActionMean

/-- `ImpulseMeanFunction(action_times, state_perturbations, kernel)` as a mean function (mean_function.py:117-258) -/
noncomputable def tensorImpulseMean (times perturbations : Tensor) (K : TKernel) : Except Err (Tensor → Except Err Tensor) := do
  let m ← TActionMean.init 1e-6 times perturbations K
  return m.impulse

/-- `StepMeanFunction(action_times, state_perturbations, kernel)` as a mean function (mean_function.py:261-412) -/
noncomputable def tensorStepMean (times perturbations : Tensor) (K : TKernel) : Except Err (Tensor → Except Err Tensor) := do
  let m ← TActionMean.init 0 times perturbations K
  return m.step

end MF
