import Verif.Model.Batched
import Verif.Model.Kernels

/-!
# Kernels on tensors of any batch shape

`sde_kernel.py`, `matern.py`, `periodic.py`, `constant.py`, `latent_exp_generated.py` and `utils.py` once more, on raw tensors: the methods take
tensors of times of shape `batch_shape + [num_data]`. Shapes are innermost first (see `Verif/Model/Tensor.lean`). Hyperparameters are real numbers;
`state_mean`, `N` and `R` are tensors. The check `assert_rank_at_least(time_deltas, 1)` of the leaf kernels is kept.
-/

namespace MF
open Tensor

namespace Tensor

/-- `tf.ones(shape)` (contract) -/
def ones (s : List ℕ) : Tensor := ⟨s, fun _ => 1⟩

/-- `tf.tile(x, repetitions)` (contract): the rank of the two must agree. -/
def tile (reps : List ℕ) (x : Tensor) : Except Err Tensor :=
  if reps.length = x.shape.length then
    .ok ⟨List.zipWith (· * ·) x.shape reps, fun i => x.val (List.zipWith (fun k n => k % n) i x.shape)⟩
  else .error .invalidArgument

/-- `tf.broadcast_to(x, s)` (contract): raises unless the broadcast shape of the two is `s`. -/
def broadcastTo (s : List ℕ) (x : Tensor) : Except Err Tensor := do
  let w ← bshape x.shape s
  if w = s then return ⟨s, fun i => x.val (bidx x.shape i)⟩ else .error .invalidArgument

/-- `tf.pad(x, [[0, 0], …, [pre, post]])` on the innermost axis (contract), with zeros -/
def padLast (pre post : ℕ) (x : Tensor) : Tensor :=
  ⟨(pre + x.dim 0 + post) :: x.shape.drop 1, fun i => match i with
    | j :: b => if pre ≤ j ∧ j < pre + x.dim 0 then x.val ((j - pre) :: b) else 0
    | [] => 0⟩

/-- `tf.concat(xs, axis=-(k+1))` of a list (contract), see `concat` -/
def concatList (k : ℕ) : List Tensor → Except Err Tensor
  | [] => .error .value
  | [x] => .ok x
  | x :: xs => do
    let y ← concatList k xs
    concat k x y

/-- `LinearOperatorBlockDiag([x, y]).to_dense()` (contract): the batch axes broadcast. -/
def blockDiag2 (x y : Tensor) : Except Err Tensor :=
  match x.shape, y.shape with
  | c :: r :: s, c' :: r' :: t => do
    let w ← bshape s t
    return ⟨(c + c') :: (r + r') :: w, fun i => match i with
      | j :: i :: b =>
        if i < r ∧ j < c then x.val (j :: i :: bidx s b)
        else if r ≤ i ∧ c ≤ j then y.val ((j - c) :: (i - r) :: bidx t b) else 0
      | _ => 0⟩
  | _, _ => .error .invalidArgument

/-- `block_diag` (utils.py:76-85; `LinearOperatorBlockDiag.to_dense`, contract). The empty list, for which TensorFlow raises, does not occur: the
constructors assert that there are children. -/
def blockDiagT : List Tensor → Except Err Tensor
  | [] => .ok ⟨[0, 0], fun _ => 0⟩
  | x :: xs => do
    let y ← blockDiagT xs
    blockDiag2 x y

/-- `LinearOperatorKronecker([x, y]).to_dense()` (contract): the batch axes broadcast. -/
def kron2 (x y : Tensor) : Except Err Tensor :=
  match x.shape, y.shape with
  | c :: r :: s, c' :: r' :: t => do
    let w ← bshape s t
    return ⟨(c * c') :: (r * r') :: w, fun i => match i with
      | j :: i :: b => x.val ((j / c') :: (i / r') :: bidx s b) * y.val ((j % c') :: (i % r') :: bidx t b)
      | _ => 0⟩
  | _, _ => .error .invalidArgument

/-- `kronecker_product` (utils.py:107-114; `LinearOperatorKronecker.to_dense`, contract). The empty list does not occur, as for `blockDiagT`. -/
def kronT : List Tensor → Except Err Tensor
  | [] => .ok ⟨[1, 1], fun _ => 1⟩
  | x :: xs => do
    let y ← kronT xs
    kron2 x y

/-- `tf.linalg.expm` (contract): on every innermost matrix. -/
noncomputable def expmT (x : Tensor) : Except Err Tensor :=
  match x.shape with
  | c :: r :: s => if c = r then .ok (ofMats s fun b => NormedSpace.exp (x.matAt r r b)) else .error .invalidArgument
  | _ => .error .invalidArgument

/-- A tensor of rank two from a nested Python list (contract of `tf.identity` / `tf.convert_to_tensor`). -/
def ofRows {r c : ℕ} (M : Mat r c) : Tensor := ofMats [] fun _ => M

/-- `x[..., None, None]` (contract) -/
def expand2 (x : Tensor) : Tensor := expand 0 (expand 0 x)

end Tensor

open Classical in
/-- `to_delta_time` (utils.py:88-104): the assertion ranges over the whole batch. -/
noncomputable def tensorToDeltaTime (timePoints : Tensor) : Except Err Tensor := do
  let delta ← minus (sliceFrom 0 1 timePoints) (sliceDrop 0 1 timePoints)
  if ∀ i, InRange i delta.shape → 0 ≤ delta.val i then return delta else .error .invalidArgument

/-- The methods of a `StationaryKernel` object (sde_kernel.py:43-496) on tensors. -/
structure TKernel where
  /-- `output_dim` -/
  outputDim : ℕ
  /-- `state_dim` -/
  stateDim : ℕ
  /-- `_jitter` -/
  jitter : ℝ
  /-- `_state_mean` -/
  stateMean : Tensor
  /-- `state_transitions(transition_times, time_deltas)` -/
  stateTransitions : Tensor → Tensor → Except Err Tensor
  /-- `feedback_matrix` -/
  feedback : Except Err Tensor
  /-- `steady_state_covariance` -/
  Pinf : Except Err Tensor
  /-- `initial_mean(batch_shape)`, batch shape innermost first -/
  initialMean : List ℕ → Except Err Tensor
  /-- `generate_emission_model(time_points).emission_matrix` -/
  emission : Tensor → Except Err Tensor
  /-- `transition_statistics(transition_times, time_deltas)` -/
  transitionStatistics : Tensor → Tensor → Except Err (Tensor × Tensor)
  /-- `process_covariances(transition_times, time_deltas)` -/
  processCov : Tensor → Tensor → Except Err Tensor
  /-- `state_offsets(transition_times, time_deltas)` -/
  stateOffsets : Tensor → Tensor → Except Err Tensor
  /-- `num_kernels` if the kernel is an `IndependentMultiOutputStack` (then `isinstance(kernel, StackKernel)` holds), `none` otherwise -/
  numKernels : Option ℕ := none

/-- `StackKernel._check_batch_shape_is_compatible` (sde_kernel.py:1014-1034); other kernels have no such check. Batch shape innermost first. -/
def checkBatchShape (numKernels : Option ℕ) (batch : List ℕ) : Except Err Unit :=
  match numKernels with
  | none => .ok ()
  | some R => if batch.head? = some R then .ok () else .error .invalidArgument

/-- `EmissionModel.__init__` (emission_model.py:40-51): the rank check. -/
def tensorEmission (H : Tensor) : Except Err Tensor := do
  Shapes.emissionInit H.tfShape
  return H

/-- `SDEKernel.generate_emission_model` (sde_kernel.py:173-211) -/
def tensorSdeEmission (o d : ℕ) (timePoints : Tensor) : Except Err Tensor := do
  let m ← concat 0 (ones [1, o]) (zeros [d - 1, o])
  let batch := timePoints.shape.drop 1
  let m' ← reshape (m.shape ++ List.replicate (batch.length + 1) 1) m
  let t ← tile (1 :: 1 :: timePoints.shape) m'
  tensorEmission t

/-- `jitter_matrix` (sde_kernel.py:332-340) -/
def tensorJitterMatrix (d : ℕ) (jitter : ℝ) : Tensor := (eye d []).map (· * jitter)

/-- `StationaryKernel.initial_mean` (sde_kernel.py:380-391) -/
def tensorInitialMean (stateMean : Tensor) (batch : List ℕ) : Except Err Tensor := broadcastTo (stateMean.shape ++ batch) stateMean

/-- `StationaryKernel.transition_statistics` (sde_kernel.py:421-446) -/
def tensorTransitionStatistics (stateTransitions : Tensor → Tensor → Except Err Tensor) (Pinf : Except Err Tensor) (d : ℕ) (jitter : ℝ)
    (transitionTimes timeDeltas : Tensor) : Except Err (Tensor × Tensor) := do
  let A ← stateTransitions transitionTimes timeDeltas
  let P ← Pinf
  let aP ← matmul A P
  let aPaT ← matmul aP A.matT
  let P' ← Pinf
  let Q ← minus P' aPaT
  let Q' ← plus Q (tensorJitterMatrix d jitter)
  return (A, Q')

/-- `StationaryKernel.state_offsets` (sde_kernel.py:460-475) -/
def tensorStateOffsets (stateTransitions : Tensor → Tensor → Except Err Tensor) (stateMean : Tensor) (d : ℕ)
    (transitionTimes timeDeltas : Tensor) : Except Err Tensor := do
  let A ← stateTransitions transitionTimes timeDeltas
  let m ← minus A (eye d [])
  -- "...ij,j->...i"
  einsum [(['j', 'i'], m.map (-·)), (['j'], stateMean)] ['i']

/-- A stationary kernel with all methods inherited from `StationaryKernel` (sde_kernel.py:353-496) -/
def TKernel.base (o d : ℕ) (A : Tensor → Tensor → Except Err Tensor) (F P : Except Err Tensor) (jitter : ℝ) (m : Tensor)
    (H : Tensor → Except Err Tensor) : TKernel where
  outputDim := o
  stateDim := d
  jitter := jitter
  stateMean := m
  stateTransitions := A
  feedback := F
  Pinf := P
  initialMean := tensorInitialMean m
  emission := H
  transitionStatistics := tensorTransitionStatistics A P d jitter
  processCov := fun t δ => do
    let r ← tensorTransitionStatistics A P d jitter t δ
    return r.2
  stateOffsets := tensorStateOffsets A m d

namespace TKernel
variable (K : TKernel)

/-- `set_state_mean` (sde_kernel.py:393-400) on a kernel that inherits `initial_mean` and `state_offsets` -/
def setStateMean (m : Tensor) : TKernel :=
  { K with stateMean := m, initialMean := tensorInitialMean m, stateOffsets := tensorStateOffsets K.stateTransitions m K.stateDim }

/-- `StationaryKernel.initial_covariance` (sde_kernel.py:402-419), with the check of `StackKernel.initial_covariance` (l.1184-1201) -/
def initialCovariance (initialTimePoint : Tensor) : Except Err Tensor := do
  checkBatchShape K.numKernels (initialTimePoint.shape.drop 1)
  if initialTimePoint.dim 0 ≠ 1 then .error .invalidArgument
  let P ← K.Pinf
  let c ← times P (ones (K.stateDim :: K.stateDim :: initialTimePoint.shape))
  plus (index 2 0 c) (tensorJitterMatrix K.stateDim K.jitter)

/-- `transition_statistics_from_time_points` (sde_kernel.py:253-264) -/
noncomputable def transitionStatisticsFromTimePoints (timePoints : Tensor) : Except Err (Tensor × Tensor) := do
  let δ ← tensorToDeltaTime timePoints
  K.transitionStatistics (sliceDrop 0 1 timePoints) δ

/-- `state_space_model` (sde_kernel.py:153-171) -/
noncomputable def stateSpaceModel (timePoints : Tensor) : Except Err TSSM := do
  let batch := timePoints.shape.drop 1
  let (As, Qs) ← K.transitionStatisticsFromTimePoints timePoints
  let m0 ← K.initialMean batch
  let P0 ← K.initialCovariance (sliceTo 0 1 timePoints)
  let δ ← tensorToDeltaTime timePoints
  let b ← K.stateOffsets (sliceDrop 0 1 timePoints) δ
  tensorSSMFromCovariances m0 P0 As b Qs

end TKernel

/-- Evaluation of the checks in a kernel constructor: `assert jitter >= 0` (sde_kernel.py:129), then the positivity checks (`ValueError`). -/
noncomputable def tensorKernelInit (jitter : ℝ) (positives : List ℝ) (K : TKernel) : Except Err TKernel :=
  open Classical in
  if ¬ 0 ≤ jitter then .error .assertion
  else if ∃ p ∈ positives, p ≤ 0 then .error .value
  else .ok K

/-- The checks at the beginning and the end of the `state_transitions` methods (e.g. matern.py:85, 88-89): rank at least one, and the shape of the
result. -/
def checkedTransitions (d : ℕ) (timeDeltas : Tensor) (result : Except Err Tensor) : Except Err Tensor := do
  if timeDeltas.shape.length < 1 then .error .value
  let r ← result
  Shapes.assertEqual r.tfShape (timeDeltas.tfShape ++ [d, d])
  return r

/-- `Matern12` (matern.py:27-126) -/
noncomputable def tensorMatern12 (o : ℕ) (lengthscale variance jitter : ℝ) : Except Err TKernel :=
  tensorKernelInit jitter [lengthscale, variance] <|
    .base o 1 (fun _ δ => checkedTransitions 1 δ (.ok (expand2 ((δ.map fun v => -v / lengthscale).map Real.exp))))
      (.ok (ofRows !![-1 / lengthscale])) (.ok (ofRows !![variance])) jitter (zeros [1]) (tensorSdeEmission o 1)

/-- `OrnsteinUhlenbeck` (matern.py:130-233) -/
noncomputable def tensorOrnsteinUhlenbeck (o : ℕ) (decay diffusion jitter : ℝ) : Except Err TKernel :=
  tensorKernelInit jitter [decay, diffusion] <|
    .base o 1 (fun _ δ => checkedTransitions 1 δ (.ok (expand2 ((δ.map fun v => -v * decay).map Real.exp))))
      (.ok (ofRows !![-decay])) (.ok (ofRows !![0.5 * diffusion / decay])) jitter (zeros [1]) (tensorSdeEmission o 1)

/-- `Matern32.state_transitions` (matern.py:299-324) with `_lambda = lam` -/
noncomputable def tensorTransitions32 (lam : ℝ) (δ : Tensor) : Except Err Tensor :=
  checkedTransitions 2 δ <| do
    let I := eye 2 []
    let ext := expand2 δ
    let f ← plus (ofRows (feedback32 lam)) (I.map (lam * ·))
    let fLambdaIt ← times f ext
    let s ← plus I fLambdaIt
    times ((ext.map (-lam * ·)).map Real.exp) s

/-- `Matern32` (matern.py:237-372) -/
noncomputable def tensorMatern32 (o : ℕ) (lengthscale variance jitter : ℝ) : Except Err TKernel :=
  let lam := Real.sqrt 3 / lengthscale
  tensorKernelInit jitter [lengthscale, variance] <|
    .base o 2 (fun _ δ => tensorTransitions32 lam δ) (.ok (ofRows (feedback32 lam)))
      (.ok ((ofRows !![1, 0; 0, lam ^ 2]).map (variance * ·))) jitter (zeros [2]) (tensorSdeEmission o 2)

/-- `Matern52.state_transitions` (matern.py:434-460) with `_lambda = lam` -/
noncomputable def tensorTransitions52 (lam : ℝ) (δ : Tensor) : Except Err Tensor :=
  checkedTransitions 3 δ <| do
    let I := eye 3 []
    let ext := expand2 δ
    let f ← plus (ofRows (feedback52 lam)) (I.map (lam * ·))
    let fLambdaIt ← times f ext
    let s ← plus I fLambdaIt
    let sq ← matmul fLambdaIt fLambdaIt
    let s' ← plus s (sq.map (· / 2))
    times ((ext.map (-lam * ·)).map Real.exp) s'

/-- `Matern52` (matern.py:376-517) -/
noncomputable def tensorMatern52 (o : ℕ) (lengthscale variance jitter : ℝ) : Except Err TKernel :=
  let lam := Real.sqrt 5 / lengthscale
  let lam23 := lam ^ 2 / 3
  tensorKernelInit jitter [lengthscale, variance] <|
    .base o 3 (fun _ δ => tensorTransitions52 lam δ) (.ok (ofRows (feedback52 lam)))
      (.ok ((ofRows !![1, 0, -lam23; 0, lam23, 0; -lam23, 0, lam ^ 4]).map (variance * ·))) jitter (zeros [3]) (tensorSdeEmission o 3)

/-- `HarmonicOscillator.state_transitions` (periodic.py:110-133) with `_lambda = lam` -/
noncomputable def tensorHarmonicTransitions (lam : ℝ) (δ : Tensor) : Except Err Tensor :=
  checkedTransitions 2 δ <| do
    let deltas := (expand2 δ).map (· * lam)
    let cos := deltas.map Real.cos
    let sin := deltas.map Real.sin
    let r1 ← concat 0 cos (sin.map (-·))
    let r2 ← concat 0 sin cos
    concat 1 r1 r2

/-- `HarmonicOscillator` (periodic.py:27-203): overrides `process_covariances` (l.135-154) but not `transition_statistics`. -/
noncomputable def tensorHarmonicOscillator (o : ℕ) (variance period jitter : ℝ) : Except Err TKernel :=
  let lam := 2 * Real.pi / period
  tensorKernelInit jitter [variance, period] <|
    { TKernel.base o 2 (fun _ δ => tensorHarmonicTransitions lam δ) (.ok (ofRows !![0, -lam; lam, 0]))
        (.ok ((eye 2 []).map (variance * ·))) jitter (zeros [2]) (tensorSdeEmission o 2) with
      processCov := fun _ δ => plus (zeros (2 :: 2 :: δ.shape)) (tensorJitterMatrix 2 jitter) }

/-- `Constant.state_transitions` (constant.py:66-84) -/
def tensorConstantTransitions (δ : Tensor) : Except Err Tensor := do
  if δ.shape.length < 1 then .error .value
  return ones (1 :: 1 :: δ.shape)

/-- `Constant.process_covariances` (constant.py:86-103) -/
def tensorConstantProcessCov (jitter : ℝ) (δ : Tensor) : Except Err Tensor :=
  plus (zeros (expand2 δ).shape) (tensorJitterMatrix 1 jitter)

/-- `Constant` (constant.py:28-153): overrides `process_covariances` and `transition_statistics`. -/
noncomputable def tensorConstant (o : ℕ) (variance jitter : ℝ) : Except Err TKernel :=
  tensorKernelInit jitter [variance] <|
    { TKernel.base o 1 (fun _ δ => tensorConstantTransitions δ) (.ok (zeros [1, 1])) (.ok (ofRows !![1 * variance])) jitter (zeros [1])
        (tensorSdeEmission o 1) with
      processCov := fun _ δ => tensorConstantProcessCov jitter δ
      transitionStatistics := fun _ δ => do
        let A ← tensorConstantTransitions δ
        let Q ← tensorConstantProcessCov jitter δ
        return (A, Q) }

/-- `LatentExponentiallyGenerated.feedback_matrix` (latent_exp_generated.py:101-115) -/
noncomputable def tensorLegFeedback (N R : Tensor) : Except Err Tensor := do
  let nn ← matmul N N.matT
  let s ← plus nn R
  let g ← minus s R.matT
  return (g.map (-·)).map (· / 2)

/-- `LatentExponentiallyGenerated.state_transitions` (latent_exp_generated.py:79-99) -/
noncomputable def tensorLegTransitions (d : ℕ) (N R : Tensor) (δ : Tensor) : Except Err Tensor :=
  checkedTransitions d δ <| do
    let F ← tensorLegFeedback N R
    let p ← times (expand2 δ) F
    expmT p

/-- `LatentExponentiallyGenerated` (latent_exp_generated.py:29-142): `process_covariances` is overridden without jitter. -/
noncomputable def tensorLeg (N R : Tensor) (jitter : ℝ) : Except Err TKernel := do
  let d ← Shapes.legInit N.tfShape R.tfShape
  tensorKernelInit jitter [] <|
    { TKernel.base d d (fun _ δ => tensorLegTransitions d N R δ) (tensorLegFeedback N R) (.ok (eye d [])) jitter (zeros [d])
        (tensorSdeEmission d d) with
      processCov := fun _ δ => do
        let A ← tensorLegTransitions d N R δ
        let aa ← matmul A A.matT
        minus (eye d []) aa }

/-! ### Combinations -/

/-- The checks of the combining constructors (sde_kernel.py:566-575, 743-751): `assert self._kernels`, equal output dimensions, non-negative
jitter. -/
noncomputable def tensorCombineInit (ks : List TKernel) (jitter : ℝ) (K : TKernel) : Except Err TKernel :=
  open Classical in
  if ks = [] then .error .assertion
  else if ¬ ∀ k ∈ ks, ∀ k' ∈ ks, k.outputDim = k'.outputDim then .error .assertion
  else if ¬ 0 ≤ jitter then .error .assertion else .ok K

/-- `block_diag` of a property of the children with the shape assertion (sde_kernel.py:631-655) -/
def concatProperty (d : ℕ) (xs : Except Err (List Tensor)) : Except Err Tensor := do
  let l ← xs
  let r ← blockDiagT l
  Shapes.assertEqual r.tfShape [d, d]
  return r

/-- `ConcatKernel.state_transitions` (sde_kernel.py:591-610). The final `assert_shapes` is modelled by the test for equality of the shapes. -/
def concatTransitions (ks : List TKernel) (d : ℕ) (t δ : Tensor) : Except Err Tensor := do
  let l ← ks.mapM fun k => k.stateTransitions t δ
  let r ← blockDiagT l
  if r.tfShape = δ.tfShape ++ [d, d] then return r else .error .value

/-- `ConcatKernel.initial_mean` (sde_kernel.py:612-629) -/
def concatInitialMean (ks : List TKernel) (d : ℕ) (batch : List ℕ) : Except Err Tensor := do
  let l ← ks.mapM fun k => k.initialMean batch
  let r ← concatList 0 l
  Shapes.assertEqual r.tfShape (batch.reverse ++ [d])
  return r

/-- `ConcatKernel` (sde_kernel.py:540-656) -/
def tensorConcatKernel (ks : List TKernel) (jitter : ℝ) (o : ℕ) (H : Tensor → Except Err Tensor) : TKernel :=
  let d := (ks.map (·.stateDim)).sum
  { TKernel.base o d (concatTransitions ks d) (concatProperty d (ks.mapM (·.feedback))) (concatProperty d (ks.mapM (·.Pinf))) jitter (zeros [d]) H with
    initialMean := concatInitialMean ks d }

/-- The output dimension of the children (sde_kernel.py:568, 575): the first one, they are asserted to be equal. -/
def childOutputDim (ks : List TKernel) : ℕ := (ks.map (·.outputDim)).headD 0

/-- `Sum` (sde_kernel.py:660-687) -/
noncomputable def tensorSum (ks : List TKernel) (jitter : ℝ) : Except Err TKernel :=
  tensorCombineInit ks jitter <| tensorConcatKernel ks jitter (childOutputDim ks) fun t => do
    let l ← ks.mapM fun k => k.emission t
    let H ← concatList 0 l
    tensorEmission H

/-- The loop of `IndependentMultiOutput.generate_emission_model` (sde_kernel.py:863-874): `pre_pad` and `post_pad` before the iteration -/
def padLoop (pre post : ℕ) : List Tensor → List Tensor
  | [] => []
  | x :: xs =>
    let d := x.dim 0
    let post' := post - d
    padLast pre post' x :: padLoop (pre + d) post' xs

/-- `IndependentMultiOutput.generate_emission_model` (sde_kernel.py:847-877) -/
def tensorMultiOutputEmission (ks : List TKernel) (t : Tensor) : Except Err Tensor := do
  let l ← ks.mapM fun k => k.emission t
  let H ← concatList 1 (padLoop 0 (ks.map (·.stateDim)).sum l)
  tensorEmission H

/-- `IndependentMultiOutput` (sde_kernel.py:826-877) -/
noncomputable def tensorIndependentMultiOutput (ks : List TKernel) (jitter : ℝ) : Except Err TKernel :=
  tensorCombineInit ks jitter <| tensorConcatKernel ks jitter (childOutputDim ks * ks.length) (tensorMultiOutputEmission ks)

/-- `FactorAnalysisKernel` (sde_kernel.py:881-941), with the weight function `weight`, the loading matrix `B` and `output_dim = o`; the composed
emission matrix is that of `ComposedPairEmissionModel` (emission_model.py:177-193) -/
noncomputable def tensorFactorAnalysis (ks : List TKernel) (weight : Tensor → Except Err Tensor) (B : Tensor) (o : ℕ) (jitter : ℝ) :
    Except Err TKernel :=
  tensorCombineInit ks jitter <| tensorConcatKernel ks jitter o fun t => do
    let A ← weight t
    let W ← matmul A B
    let outer ← tensorEmission W
    let inner ← tensorMultiOutputEmission ks t
    -- "...ij,...jk->...ik"
    let H ← einsum [(['j', 'i'], outer), (['k', 'j'], inner)] ['k', 'i']
    tensorEmission H

/-- `kronecker_product` of tensors of the children with the shape assertion (sde_kernel.py:768-822); `s` is the expected shape -/
def productProperty (s : List ℕ) (xs : Except Err (List Tensor)) : Except Err Tensor := do
  let l ← xs
  let r ← kronT l
  Shapes.assertEqual r.tfShape s
  return r

/-- `Product` (sde_kernel.py:691-822) -/
noncomputable def tensorProduct (ks : List TKernel) (jitter : ℝ) : Except Err TKernel :=
  let d := (ks.map (·.stateDim)).prod
  let o := childOutputDim ks
  tensorCombineInit ks jitter <|
    .base o d (fun t δ => productProperty (δ.tfShape ++ [d, d]) (ks.mapM fun k => k.stateTransitions t δ))
      (productProperty [d, d] (ks.mapM (·.feedback))) (productProperty [d, d] (ks.mapM (·.Pinf))) jitter (zeros [d]) fun t => do
        let r ← productProperty (t.tfShape ++ [o, d]) (ks.mapM fun k => k.emission t)
        tensorEmission r

end MF
