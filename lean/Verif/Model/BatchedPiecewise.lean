import Verif.Model.BatchedPosterior
import Verif.Model.Piecewise

/-!
# `PiecewiseKernel` on tensors of any batch shape

`piecewise_stationary.py` once more, on raw tensors. Shapes are innermost first (see `Verif/Model/Tensor.lean`). The three TensorFlow ops the class relies
on treat batch axes in their own ways: `tf.searchsorted` compares numbers of rows, `tf.dynamic_partition` flattens, `tf.unique_with_counts` wants a vector.
-/

namespace MF
open Tensor

/-- A tensor of integers (the result of `tf.searchsorted(...) - 1`); shape innermost first. -/
structure ZTensor where
  /-- the dimensions, innermost first -/
  shape : List ℕ
  /-- the entries -/
  val : List ℕ → ℤ

namespace Tensor

/-- All indices of an array, in row-major order (contract of the memory layout). -/
def allIdx : List ℕ → List (List ℕ)
  | [] => [[]]
  | n :: s => (allIdx s).flatMap fun b => (List.range n).map (· :: b)

/-- The number of rows of `tf.reshape(x, [-1, x.shape[-1]])` (contract; for an empty innermost axis TensorFlow leaves out the axes of size zero). -/
def rowCount : List ℕ → ℕ
  | [] => 0
  | p :: s => if p = 0 then (s.filter (· ≠ 0)).prod else s.prod

/-- `tf.searchsorted(x, v, "right")` of a vector `x` (contract): both are reshaped to matrices, which must have the same number of rows, here one;
the result has the shape of `v` and counts the entries of `x` that are at most `v`. -/
noncomputable def searchsortedRightT (x v : Tensor) : Except Err ZTensor :=
  match x.shape with
  | [n] =>
    if rowCount v.shape = 1 then
      .ok ⟨v.shape, fun i => (((List.ofFn fun k : Fin n => x.val [(k : ℕ)]).countP fun c => decide (c ≤ v.val i) : ℕ) : ℤ)⟩
    else .error .invalidArgument
  | _ => .error .invalidArgument

/-- One output of `tf.dynamic_partition` (contract): the entries of `x` at the listed indices of its outer axes, along one new outer axis; `k` inner axes
are kept. -/
def pick (k : ℕ) (x : Tensor) (l : List (List ℕ)) : Tensor :=
  ⟨x.shape.take k ++ [l.length], fun i => x.val (i.take k ++ l.getD (i.getD k 0) [])⟩

/-- `tf.dynamic_partition(x, partitions, num_partitions)` (contract): the shape of `partitions` is the outer part of that of `x`; these axes are flattened. Raises
for an index out of range. -/
def dynamicPartitionT (x : Tensor) (partitions : ZTensor) (num : ℕ) : Except Err (List Tensor) :=
  let k := x.shape.length - partitions.shape.length
  if x.shape.drop k = partitions.shape ∧ ∀ i ∈ allIdx partitions.shape, 0 ≤ partitions.val i ∧ partitions.val i < num then
    .ok ((List.range num).map fun j : ℕ => pick k x ((allIdx partitions.shape).filter fun i => partitions.val i = (j : ℤ)))
  else .error .invalidArgument

/-- `tf.unique_with_counts(x)` (contract): raises unless `x` is a vector; the distinct entries in the order of their first occurrence, and the position of
every entry among them. -/
def uniqueT (x : ZTensor) : Except Err (List ℤ × List ℤ) :=
  match x.shape with
  | [_] =>
    let l := (allIdx x.shape).map x.val
    .ok (l.eraseDups, l.map fun i => ((l.eraseDups.idxOf i : ℕ) : ℤ))
  | _ => .error .invalidArgument

/-- `tf.convert_to_tensor(xs)` of a list of tensors (contract): packed along a new outer axis, the shapes must agree. -/
def packT (xs : List Tensor) : Except Err Tensor :=
  match xs with
  | [] => .ok ⟨[0], fun _ => 0⟩
  | x :: rest =>
    if ∀ y ∈ rest, y.shape = x.shape then
      .ok ⟨x.shape ++ [xs.length], fun i => (xs.getD (i.getD x.shape.length 0) x).val (i.take x.shape.length)⟩
    else .error .invalidArgument

/-- `tf.gather(x, indices)` for a vector of indices along the outer axis (contract; out of range indices raise on a CPU). -/
def gatherOuter (x : Tensor) (indices : List ℤ) : Except Err Tensor :=
  let k := x.shape.length - 1
  if ∀ i ∈ indices, 0 ≤ i ∧ i < x.dim k then
    .ok ⟨x.shape.take k ++ [indices.length], fun i => x.val (i.take k ++ [(indices.getD (i.getD k 0) 0).toNat])⟩
  else .error .invalidArgument

end Tensor

/-- A `PiecewiseKernel` object on tensors (piecewise_stationary.py:28-79): `kernels`, the vector `change_points`, `state_dim`, `jitter` -/
structure TPiecewise where
  /-- `kernels` -/
  kernels : List TKernel
  /-- `change_points`, a vector -/
  changePoints : Tensor
  /-- `state_dim` -/
  stateDim : ℕ
  /-- `jitter` -/
  jitter : ℝ

namespace TPiecewise
variable (K : TPiecewise)

/-- `PiecewiseKernel.__init__` (l.49-79, sde_kernel.py:129). That the kernels are of the same class is not modelled. -/
noncomputable def init (kernels : List TKernel) (changePoints : Tensor) (jitter : ℝ) : Except Err TPiecewise :=
  open Classical in
  match kernels with
  | [] => .error .assertion
  | k :: rest =>
    if ¬ ∀ k' ∈ rest, k'.outputDim = k.outputDim then .error .assertion
    else if ¬ ∀ k' ∈ rest, k'.stateDim = k.stateDim then .error .assertion
    else if ¬ 0 ≤ jitter then .error .assertion
    else .ok ⟨kernels, changePoints, k.stateDim, jitter⟩

/-- `split_time_indices` (l.126-143) -/
noncomputable def splitTimeIndices (inf : ℝ) (timePoints : Tensor) : Except Err ZTensor := do
  let infs := (ones (sliceFrom 0 (K.changePoints.dim 0 - 1) K.changePoints).shape).map (inf * ·)
  let tail ← concat 0 K.changePoints infs
  let augmented ← concat 0 (infs.map (-·)) tail
  let s ← searchsortedRightT augmented timePoints
  return ⟨s.shape, fun i => s.val i - 1⟩

/-- `split_input` (l.145-160); `num_change_points` is `change_points.shape[0]` (l.75), the outer axis -/
def splitInput (x : Tensor) (indices : ZTensor) : Except Err (List Tensor) :=
  dynamicPartitionT x indices (K.changePoints.dim (K.changePoints.shape.length - 1) + 1)

/-- The comprehensions `[self.kernels[i].method(*args) for i, args in enumerate(...)]` (l.102-108, 199-202, 266-269), starting at `i` -/
def collect {α : Type} (f : TKernel → α → Except Err Tensor) : ℕ → List α → Except Err (List Tensor)
  | _, [] => .ok []
  | i, a :: rest => do
    let k ← (K.kernels[i]?).elim (.error .index) .ok
    let x ← f k a
    let xs ← collect f (i + 1) rest
    return x :: xs

/-- `tf.gather(tf.gather([k.attribute for k in kernels], y), idx)` with `y, idx, _ = tf.unique_with_counts(indices)` (l.171-178, 239-246, 282-289) -/
noncomputable def gatherKernels (f : TKernel → Except Err Tensor) (inf : ℝ) (timePoints : Tensor) : Except Err Tensor := do
  let attributes ← K.kernels.mapM f
  let indices ← K.splitTimeIndices inf timePoints
  let (y, idx) ← uniqueT indices
  let packed ← packT attributes
  let selected ← gatherOuter packed y
  gatherOuter selected idx

/-- `steady_state_covariances` (l.162-178) -/
noncomputable def steadyStateCovariances (inf : ℝ) (timePoints : Tensor) : Except Err Tensor := K.gatherKernels (·.Pinf) inf timePoints

/-- `feedback_matrices` (l.230-246) -/
noncomputable def feedbackMatrices (inf : ℝ) (timePoints : Tensor) : Except Err Tensor := K.gatherKernels (·.feedback) inf timePoints

/-- `state_means` (l.273-289) -/
noncomputable def stateMeans (inf : ℝ) (timePoints : Tensor) : Except Err Tensor := K.gatherKernels (fun k => .ok k.stateMean) inf timePoints

/-- `state_transitions` (l.180-204) -/
noncomputable def stateTransitions (inf : ℝ) (transitionTimes timeDeltas : Tensor) : Except Err Tensor := do
  let indices ← K.splitTimeIndices inf transitionTimes
  let splitTimes ← K.splitInput transitionTimes indices
  let splitDeltas ← K.splitInput timeDeltas indices
  let l ← K.collect (fun k (a : Tensor × Tensor) => k.stateTransitions a.1 a.2) 0 (splitTimes.zip splitDeltas)
  concatList 2 l

/-- `state_offsets` (l.248-271) -/
noncomputable def stateOffsets (inf : ℝ) (transitionTimes timeDeltas : Tensor) : Except Err Tensor := do
  let indices ← K.splitTimeIndices inf transitionTimes
  let splitTimes ← K.splitInput transitionTimes indices
  let splitDeltas ← K.splitInput timeDeltas indices
  let l ← K.collect (fun k (a : Tensor × Tensor) => k.stateOffsets a.1 a.2) 0 (splitTimes.zip splitDeltas)
  concatList 1 l

/-- `generate_emission_model` (l.89-109): the emission matrix -/
noncomputable def emission (inf : ℝ) (timePoints : Tensor) : Except Err Tensor := do
  let indices ← K.splitTimeIndices inf timePoints
  let splitTimes ← K.splitInput timePoints indices
  let l ← K.collect (fun k (t : Tensor) => k.emission t) 0 splitTimes
  let H ← concatList 2 l
  tensorEmission H

/-- `transition_statistics` (l.206-228) -/
noncomputable def transitionStatistics (inf : ℝ) (transitionTimes timeDeltas : Tensor) : Except Err (Tensor × Tensor) := do
  let A ← K.stateTransitions inf transitionTimes timeDeltas
  let P ← K.steadyStateCovariances inf transitionTimes
  let AP ← matmul A P
  let APA ← matmul AP A.matT
  let D ← minus P APA
  let Q ← plus D (tensorJitterMatrix K.stateDim K.jitter)
  return (A, Q)

/-- `initial_covariance` (l.111-124): the first entry along the outer axis; no jitter -/
noncomputable def initialCovariance (inf : ℝ) (initialTimePoint : Tensor) : Except Err Tensor := do
  let P ← K.steadyStateCovariances inf initialTimePoint
  let k := P.shape.length - 1
  if 0 < P.dim k then return index k 0 P else .error .index

/-- `SDEKernel.state_space_model` (sde_kernel.py:153-171), with the zero `initial_mean` of l.213-225 -/
noncomputable def stateSpaceModel (inf : ℝ) (timePoints : Tensor) : Except Err TSSM := do
  let batch := timePoints.shape.drop 1
  let δ ← tensorToDeltaTime timePoints
  let (As, Qs) ← K.transitionStatistics inf (sliceDrop 0 1 timePoints) δ
  let m0 := zeros (K.stateDim :: batch)
  let P0 ← K.initialCovariance inf (sliceTo 0 1 timePoints)
  let δ' ← tensorToDeltaTime timePoints
  let b ← K.stateOffsets inf (sliceDrop 0 1 timePoints) δ'
  tensorSSMFromCovariances m0 P0 As b Qs

end TPiecewise
end MF
