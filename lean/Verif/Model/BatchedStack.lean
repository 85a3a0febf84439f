import Verif.Model.BatchedSampling
import Verif.Model.Stack

/-!
# `IndependentMultiOutputStack` on tensors of any batch shape

`sde_kernel.py:945-1276` once more, on raw tensors: the kernel index is the last axis of the batch shape, the children work on the slices
`[..., i, :]` of the times, and their results are padded and stacked along a new axis. Shapes are innermost first (see `Verif/Model/Tensor.lean`).
The predictions of a posterior process over a stack are in `Verif/Model/BatchedPosterior.lean` and `Verif/Model/BatchedSampling.lean`, the objectives
in `Verif/Model/BatchedVariational.lean`: the same code as for the other kernels.
-/

namespace MF
open Tensor

namespace Tensor

/-- `tf.stack(xs, axis=-(k+1))` (contract): the shapes must agree, and the axis must exist in the result. -/
def stackT (k : ℕ) {R : ℕ} (xs : Fin R → Tensor) : Except Err Tensor :=
  if h : 0 < R then
    let s := (xs ⟨0, h⟩).shape
    if (∀ r, (xs r).shape = s) ∧ k ≤ s.length then
      .ok ⟨insertAt R k s, fun i => if h : i.getD k 0 < R then (xs ⟨i.getD k 0, h⟩).val (removeAt k i) else 0⟩
    else .error .invalidArgument
  else .error .value

end Tensor

/-- `augment_square_matrix` (utils.py:115-136): the `block_diag` of two operators -/
def tensorAugmentSquare (x : Tensor) (extra : ℕ) (fillZeros : Bool := false) : Except Err Tensor :=
  let scalar : ℝ := if fillZeros then 0 else 1
  blockDiag2 x ((eye extra (x.shape.drop 2)).map (scalar * ·))

/-- `augment_matrix` (utils.py:139-156) -/
def tensorAugmentMatrix (x : Tensor) (extra : ℕ) : Except Err Tensor := concat 0 x (zeros (extra :: x.shape.drop 1))

section
variable {R : ℕ} (ks : Fin R → TKernel)

/-- `StackKernel.state_dim` (sde_kernel.py:991, 999-1005) -/
def stackStateDim : ℕ := Finset.univ.sup fun r => (ks r).stateDim

/-- `StackKernel.state_transitions` (sde_kernel.py:1036-1078) -/
def stackTransitions (t δ : Tensor) : Except Err Tensor := do
  checkBatchShape (some R) (δ.shape.drop 1)
  let l ← seqFin fun r : Fin R => do
    let a ← (ks r).stateTransitions (index 1 r t) (index 1 r δ)
    tensorAugmentSquare a (stackStateDim ks - (ks r).stateDim) true
  let z ← stackT 3 l
  Shapes.assertEqual z.tfShape ((δ.shape.drop 2).reverse ++ [R, δ.dim 0, stackStateDim ks, stackStateDim ks])
  return z

/-- `StackKernel.state_offsets` (sde_kernel.py:1100-1137) -/
def stackOffsets (t δ : Tensor) : Except Err Tensor := do
  checkBatchShape (some R) (δ.shape.drop 1)
  let l ← seqFin fun r : Fin R => do
    let a ← (ks r).stateOffsets (index 1 r t) (index 1 r δ)
    tensorAugmentMatrix a (stackStateDim ks - (ks r).stateDim)
  let z ← stackT 2 l
  Shapes.assertEqual z.tfShape ((δ.shape.drop 2).reverse ++ [R, δ.dim 0, stackStateDim ks])
  return z

/-- `StackKernel.feedback_matrix` (sde_kernel.py:1139-1157) -/
def stackFeedback : Except Err Tensor := do
  let l ← seqFin fun r : Fin R => do
    let a ← (ks r).feedback
    tensorAugmentSquare a (stackStateDim ks - (ks r).stateDim)
  let z ← stackT 2 l
  Shapes.assertEqual z.tfShape [R, stackStateDim ks, stackStateDim ks]
  return z

/-- `StackKernel.steady_state_covariance` (sde_kernel.py:1159-1182) -/
def stackPinf : Except Err Tensor := do
  let l ← seqFin fun r : Fin R => do
    let a ← (ks r).Pinf
    tensorAugmentSquare a (stackStateDim ks - (ks r).stateDim)
  let z ← stackT 2 l
  let z' := expand 2 z
  Shapes.assertEqual z'.tfShape [R, 1, stackStateDim ks, stackStateDim ks]
  return z'

/-- `IndependentMultiOutputStack.generate_emission_model` (sde_kernel.py:1225-1254) -/
def stackEmission (t : Tensor) : Except Err Tensor := do
  checkBatchShape (some R) (t.shape.drop 1)
  let l ← seqFin fun r : Fin R => do
    let a ← (ks r).emission (index 1 r t)
    tensorAugmentMatrix a (stackStateDim ks - (ks r).stateDim)
  let z ← stackT 3 l
  Shapes.stackEmissionInit z.tfShape
  return z

/-- The kernel object: the methods of `IndependentMultiOutputStack` and those inherited from `StationaryKernel` (sde_kernel.py:945-1254) -/
def stackTKernel (jitter : ℝ) : TKernel where
  outputDim := R
  stateDim := stackStateDim ks
  jitter := jitter
  stateMean := zeros [stackStateDim ks]
  stateTransitions := stackTransitions ks
  feedback := stackFeedback ks
  Pinf := stackPinf ks
  initialMean := fun batch => do
    checkBatchShape (some R) batch
    tensorInitialMean (zeros [stackStateDim ks]) batch
  emission := stackEmission ks
  transitionStatistics := tensorTransitionStatistics (stackTransitions ks) (stackPinf ks) (stackStateDim ks) jitter
  processCov := fun t δ => do
    let r ← tensorTransitionStatistics (stackTransitions ks) (stackPinf ks) (stackStateDim ks) jitter t δ
    return r.2
  stateOffsets := stackOffsets ks
  numKernels := some R

/-- `IndependentMultiOutputStack.__init__` (sde_kernel.py:979-997, 1214-1223): at least one child, equal output dimensions, output dimension one,
non-negative jitter (l.129). -/
noncomputable def tensorStack (jitter : ℝ) : Except Err TKernel :=
  open Classical in
  if R = 0 then .error .assertion
  else if ¬ ∀ r r', (ks r).outputDim = (ks r').outputDim then .error .assertion
  else if ¬ ∀ r, (ks r).outputDim = 1 then .error .assertion
  else if ¬ 0 ≤ jitter then .error .assertion
  else .ok (stackTKernel ks jitter)

end
end MF
