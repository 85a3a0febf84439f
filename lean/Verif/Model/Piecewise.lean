import Verif.Model.Conditionals

/-!
# Model of `markovflow/kernels/piecewise_stationary.py`

Batch shape `()`; a tensor whose first axis is "time" is a list.
-/

namespace MF
open Matrix
variable {o d : ℕ}

/-- `tf.dynamic_partition(data, partitions, num_partitions)` for a rank-1 `partitions` (contract):
one output per partition, each keeping the order of `data`; raises for an index out of range. -/
def dynamicPartition {α : Type*} (data : List α) (partitions : List ℤ) (num : ℕ) :
    Except Err (List (List α)) :=
  if data.length = partitions.length ∧ ∀ p ∈ partitions, 0 ≤ p ∧ p < num then
    .ok ((List.range num).map fun i : ℕ =>
      ((data.zip partitions).filter fun x => x.2 = (i : ℤ)).map Prod.fst)
  else .error .invalidArgument

/-- `tf.gather(xs, indices)` along the first axis (contract; out of range indices raise on CPU). -/
def tfGather {α : Type*} (xs : List α) : List ℤ → Except Err (List α)
  | [] => .ok []
  | i :: is => do
    let x ← if 0 ≤ i then (xs[i.toNat]?).elim (.error .invalidArgument) .ok
      else .error .invalidArgument
    let rest ← tfGather xs is
    return x :: rest

/-- A `PiecewiseKernel` (piecewise_stationary.py:28-79): attributes `kernels`, `change_points`,
`jitter`. All kernels have the same state and output dimension (asserted by the constructor; here by
typing); that they are of the same class is not modelled. -/
structure Piecewise (o d : ℕ) where
  kernels : List (Stationary o d)
  changePoints : List ℝ
  jitter : ℝ

namespace Piecewise
variable (K : Piecewise o d)

/-- `PiecewiseKernel.__init__` (l.49-79, sde_kernel.py:129): at least one kernel, jitter
non-negative. Note that the number of kernels is not compared with the number of change points. -/
noncomputable def init (kernels : List (Stationary o d)) (changePoints : List ℝ) (jitter : ℝ) :
    Except Err (Piecewise o d) :=
  open Classical in
  if kernels = [] then .error .assertion
  else if ¬ 0 ≤ jitter then .error .assertion
  else .ok ⟨kernels, changePoints, jitter⟩

/-- `split_time_indices` (l.126-143): `tf.searchsorted(_, "right") - 1` in the change points
augmented with `±inf`. Without change points the slice `change_points[..., -1:]` is empty and so is
the augmented tensor. `tf.searchsorted(_, v, "right")` is the number of entries `≤ v` (contract for
sorted input). -/
noncomputable def splitTimeIndices (inf : ℝ) (times : List ℝ) : List ℤ :=
  let ends := K.changePoints.drop (K.changePoints.length - 1)
  let augmented := ends.map (fun _ => -inf) ++ K.changePoints ++ ends.map (fun _ => inf)
  times.map fun t => ((augmented.countP fun c => decide (c ≤ t) : ℕ) : ℤ) - 1

/-- `split_input` (l.145-160) -/
def splitInput {α : Type*} (input : List α) (indices : List ℤ) : Except Err (List (List α)) :=
  dynamicPartition input indices (K.changePoints.length + 1)

/-- The comprehension `[self.kernels[i].method(*args) for i, args in enumerate(...)]` followed by
`tf.concat` along the time axis (l.198-204, 265-271); starting at index `i`. -/
def applyKernels {α β : Type} (f : Stationary o d → α → β) : ℕ → List (List α) →
    Except Err (List β)
  | _, [] => .ok []
  | i, part :: parts => do
    let k ← (K.kernels[i]?).elim (.error .index) .ok
    let rest ← applyKernels f (i + 1) parts
    return part.map (f k) ++ rest

/-- `tf.unique_with_counts` followed by the two gathers (l.171-178, 239-246, 282-289): select, for
each index, an attribute of the kernel with that index. `y` lists the distinct indices in order of
first occurrence, `idx` the position of every index in `y`. -/
def gatherKernels {β : Type} (f : Stationary o d → β) (indices : List ℤ) : Except Err (List β) := do
  let y := indices.eraseDups
  let idx : List ℤ := indices.map fun i => ((y.idxOf i : ℕ) : ℤ)
  let selected ← tfGather (K.kernels.map f) y
  tfGather selected idx

/-- `steady_state_covariances` (l.162-178) -/
noncomputable def steadyStateCovariances (inf : ℝ) (times : List ℝ) : Except Err (List (Mat d d)) :=
  K.gatherKernels (·.Pinf) (K.splitTimeIndices inf times)

/-- `feedback_matrices` (l.230-246) -/
noncomputable def feedbackMatrices (inf : ℝ) (times : List ℝ) : Except Err (List (Mat d d)) :=
  K.gatherKernels (·.feedback) (K.splitTimeIndices inf times)

/-- `state_means` (l.273-289) -/
noncomputable def stateMeans (inf : ℝ) (times : List ℝ) : Except Err (List (Vec d)) :=
  K.gatherKernels (·.stateMean) (K.splitTimeIndices inf times)

/-- `state_transitions` (l.180-204): transition times and time deltas are split with the same
indices and zipped. -/
noncomputable def stateTransitions (inf : ℝ) (times deltas : List ℝ) :
    Except Err (List (Mat d d)) := do
  let indices := K.splitTimeIndices inf times
  let splitTimes ← K.splitInput times indices
  let splitDeltas ← K.splitInput deltas indices
  K.applyKernels (fun k (a : ℝ × ℝ) => k.stateTransitions a.1 a.2) 0
    (List.zipWith List.zip splitTimes splitDeltas)

/-- `state_offsets` (l.248-271) -/
noncomputable def stateOffsets (inf : ℝ) (times deltas : List ℝ) : Except Err (List (Vec d)) := do
  let indices := K.splitTimeIndices inf times
  let splitTimes ← K.splitInput times indices
  let splitDeltas ← K.splitInput deltas indices
  K.applyKernels (fun k (a : ℝ × ℝ) => k.stateOffsets a.1 a.2) 0
    (List.zipWith List.zip splitTimes splitDeltas)

/-- `generate_emission_model` (l.89-109): the emission matrices. -/
noncomputable def emissions (inf : ℝ) (times : List ℝ) : Except Err (List (Mat o d)) := do
  let indices := K.splitTimeIndices inf times
  let splitTimes ← K.splitInput times indices
  K.applyKernels (fun k t => k.emission t) 0 splitTimes

/-- `transition_statistics` (l.206-228) -/
noncomputable def transitionStatistics (inf : ℝ) (times deltas : List ℝ) :
    Except Err (List (Mat d d) × List (Mat d d)) := do
  let As ← K.stateTransitions inf times deltas
  let Ps ← K.steadyStateCovariances inf times
  return (As, List.zipWith (fun P A => P - A * P * Aᵀ + jitterMatrix d K.jitter) Ps As)

/-- `initial_covariance` (l.111-124): no jitter is added. -/
noncomputable def initialCovariance (inf : ℝ) (t : ℝ) : Except Err (Mat d d) := do
  let Ps ← K.steadyStateCovariances inf [t]
  (Ps.head?).elim (.error .index) .ok

/-- A list as a tensor with `n` entries along the first axis; the shape assertions of the
`StateSpaceModel` constructor (state_space_model.py:101-116) reject other lengths. -/
def toFin {α : Type*} (n : ℕ) (xs : List α) : Except Err (Fin n → α) :=
  if h : xs.length = n then .ok fun i => xs.get (i.cast h.symm) else .error .invalidArgument

/-- `SDEKernel.state_space_model` (sde_kernel.py:153-171) for a piecewise kernel: `initial_mean` is
the zero of l.213-225 (not overridden by `PiecewiseKernel`). -/
noncomputable def stateSpaceModel {n : ℕ} (inf : ℝ) (ts : Fin (n + 1) → ℝ) : Except Err (SSM n d) := do
  let δ ← toDeltaTime ts
  let times : List ℝ := List.ofFn fun k : Fin n => ts k.castSucc
  let (As, Qs) ← K.transitionStatistics inf times (List.ofFn δ)
  let P0 ← K.initialCovariance inf (ts 0)
  let δ' ← toDeltaTime ts
  let bs ← K.stateOffsets inf times (List.ofFn δ')
  let As ← toFin n As
  let Qs ← toFin n Qs
  let bs ← toFin n bs
  ssmFromCovariances 0 P0 As bs Qs

end Piecewise
end MF
