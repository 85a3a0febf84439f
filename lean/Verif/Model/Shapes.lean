import Verif.Model.TF
import Mathlib.Data.List.Basic

/-!
# Model of the shape checks

A shape is the list of the (static) dimensions of a tensor, `List ℕ`; a scalar has shape `[]`.
The TensorFlow primitives used by the checks are modelled by their documented behaviour in eager
mode:

* `tf.debugging.assert_equal` compares *element-wise with broadcasting*, so two shape vectors
  (1-D integer tensors) are compared after broadcasting a vector of length one against the other;
* `tf.debugging.assert_shapes` first checks ranks, then matches sizes, binding every symbol at its
  first occurrence; a scalar is treated as a vector of size one.
-/

namespace MF.Shapes

open MF

/-- `shape[:-k]` for a Python list / 1-D tensor (Python slicing, contract). -/
def dropLast (k : ℕ) (s : List ℕ) : List ℕ := s.take (s.length - k)

/-- `shape[-k:]`, `k > 0`, for a Python list / 1-D tensor (contract). -/
def takeLast (k : ℕ) (s : List ℕ) : List ℕ := s.drop (s.length - k)

/-- `shape[-k]`, `k > 0`: raises when the rank is too small (contract). -/
def dimFromEnd (k : ℕ) (s : List ℕ) : Except Err ℕ :=
  if k ≤ s.length then
    match s[s.length - k]? with
    | some v => .ok v
    | none => .error .index
  else .error .index

/-- A Boolean condition checked by a `tf.debugging` assertion op (contract). -/
def check (e : Err) (b : Bool) : Except Err Unit := if b then .ok () else .error e

/-- `tf.equal`/`tf.reduce_all`: element-wise comparison of two 1-D tensors with broadcasting, reduced by "all";
`none` when the lengths cannot be broadcast. -/
def allBroadcast (p : ℕ → ℕ → Bool) (x y : List ℕ) : Option Bool :=
  if x.length = y.length then some ((x.zip y).all fun q => p q.1 q.2)
  else
    match x, y with
    | [a], y => some (y.all fun b => p a b)
    | x, [b] => some (x.all fun a => p a b)
    | _, _ => none

/-- `tf.debugging.assert_equal(x, y)` for 1-D integer tensors. -/
def assertEqual (x y : List ℕ) : Except Err Unit :=
  match allBroadcast (· == ·) x y with
  | some b => check .invalidArgument b
  | none => .error .invalidArgument

/-! ### `tf.debugging.assert_shapes` -/

/-- One entry of a shape specification of `tf.debugging.assert_shapes`: a symbol or a literal size. -/
inductive Dim where
  | sym (s : String)
  | lit (n : ℕ)
  deriving DecidableEq

/-- A pair `(tensor, specification)` of `tf.debugging.assert_shapes`; `ellipsis` says that the specification starts with `...`. -/
structure Constraint where
  shape : List ℕ
  ellipsis : Bool
  dims : List Dim

/-- `_dimension_sizes` of `tf.debugging.assert_shapes` (contract): a scalar is treated as having rank one and size one. -/
def dimensionSizes (s : List ℕ) : List ℕ := if s = [] then [1] else s

/-- The rank assertions made by `tf.debugging.assert_shapes` (contract). -/
def rankOk (c : Constraint) : Bool :=
  if c.ellipsis then decide (c.dims.length ≤ (dimensionSizes c.shape).length)
  else decide (c.dims.length = (dimensionSizes c.shape).length)

/-- `tf.debugging.assert_shapes` (contract): match the sizes of one tensor, binding a symbol at its first occurrence. -/
def matchDims : List (String × ℕ) → List (Dim × ℕ) → Except Err (List (String × ℕ))
  | env, [] => .ok env
  | env, (.lit n, v) :: rest => if n = v then matchDims env rest else .error .value
  | env, (.sym s, v) :: rest =>
    match env.lookup s with
    | none => matchDims ((s, v) :: env) rest
    | some w => if w = v then matchDims env rest else .error .value

/-- `tf.debugging.assert_shapes` (contract): match the sizes of all tensors in order. -/
def matchAll : List (String × ℕ) → List Constraint → Except Err Unit
  | _, [] => .ok ()
  | env, c :: cs => do
    let env' ← matchDims env (c.dims.zip (takeLast c.dims.length (dimensionSizes c.shape)))
    matchAll env' cs

/-- `tf.debugging.assert_shapes(constraints)`. -/
def assertShapes (cs : List Constraint) : Except Err Unit := do
  check .value (cs.all rankOk)
  matchAll [] cs

/-! ### `StateSpaceModel` -/

/-- `StateSpaceModel.__init__` (state_space_model.py:74-120): only the shape checks; the arguments
are the shapes of `initial_mean`, `chol_initial_covariance`, `state_transitions`, `state_offsets`
and `chol_process_covariances`. -/
def ssmInit (mu0 cholP0 A b cholQ : List ℕ) : Except Err Unit := do
  assertShapes
    [⟨mu0, true, [.sym "state_dim"]⟩,
     ⟨cholP0, true, [.sym "state_dim", .sym "state_dim"]⟩,
     ⟨A, true, [.sym "num_transitions", .sym "state_dim", .sym "state_dim"]⟩,
     ⟨b, true, [.sym "num_transitions", .sym "state_dim"]⟩,
     ⟨cholQ, true, [.sym "num_transitions", .sym "state_dim", .sym "state_dim"]⟩]
  let shape := dropLast 1 mu0
  assertEqual shape (dropLast 2 cholP0)
  assertEqual shape (dropLast 3 A)
  assertEqual shape (dropLast 2 b)
  assertEqual shape (dropLast 3 cholQ)

/-- `StateSpaceModel.batch_shape` (state_space_model.py:136-140). -/
def ssmBatchShape (A : List ℕ) : List ℕ := dropLast 3 A

/-- `StateSpaceModel.state_dim` (state_space_model.py:143-147). -/
def ssmStateDim (A : List ℕ) : Except Err ℕ := dimFromEnd 2 A

/-- `StateSpaceModel.num_transitions` (state_space_model.py:150-154). -/
def ssmNumTransitions (A : List ℕ) : Except Err ℕ := dimFromEnd 3 A

/-- The shape of `tf.concat([x, y], axis=-2)`: the ranks and all the other dimensions must be
equal. -/
def concatAxis2 (x y : List ℕ) : Except Err (List ℕ) := do
  let nx ← dimFromEnd 2 x
  let dx ← dimFromEnd 1 x
  let ny ← dimFromEnd 2 y
  let dy ← dimFromEnd 1 y
  if dropLast 2 x = dropLast 2 y ∧ dx = dy then .ok (dropLast 2 x ++ [nx + ny, dx])
  else .error .invalidArgument

/-- `StateSpaceModel.concatenated_state_offsets` (state_space_model.py:212-219): shape of
`tf.concat([self.initial_mean[..., None, :], self.state_offsets], axis=-2)`. -/
def ssmConcatenatedOffsets (mu0 b : List ℕ) : Except Err (List ℕ) := do
  let d ← dimFromEnd 1 mu0
  concatAxis2 (dropLast 1 mu0 ++ [1, d]) b

/-- `StateSpaceModel.event_shape` (state_space_model.py:127-133). -/
def ssmEventShape (mu0 b : List ℕ) : Except Err (List ℕ) := do
  let s ← ssmConcatenatedOffsets mu0 b
  pure (takeLast 2 s)

/-- `check_compatible` (gauss_markov.py:204-217) for two state space models, given the shapes of
their `state_transitions`. -/
def checkCompatible (A₁ A₂ : List ℕ) : Except Err Unit := do
  let d₁ ← ssmStateDim A₁
  let d₂ ← ssmStateDim A₂
  check .invalidArgument (d₁ == d₂)
  assertEqual (ssmBatchShape A₁) (ssmBatchShape A₂)
  let n₁ ← ssmNumTransitions A₁
  let n₂ ← ssmNumTransitions A₂
  check .invalidArgument (n₁ == n₂)

/-- The shape test of `StateSpaceModel._log_pdf_factors` (state_space_model.py:499). -/
def logPdfStatesCheck (mu0 b states : List ℕ) : Except Err Unit := do
  let e ← ssmEventShape mu0 b
  assertEqual (takeLast 2 states) e

/-! ### `BlockTriDiagonal` -/

/-- `BlockTriDiagonal.__init__` (block_tri_diag.py:45-87). -/
def blockTriInit (diag : List ℕ) (sub : Option (List ℕ)) : Except Err Unit := do
  let inner ← dimFromEnd 2 diag
  let last ← dimFromEnd 1 diag
  check .invalidArgument (inner == last)
  let outer ← dimFromEnd 3 diag
  check .invalidArgument (decide (outer ≥ 0))
  match sub with
  | none => pure ()
  | some s => do
    check .invalidArgument (decide (outer > 1))
    assertEqual s (dropLast 3 diag ++ [outer - 1, inner, inner])

/-- `BlockTriDiagonal._assert_compatible_right_shape` (block_tri_diag.py:261-287); `diag` is the
shape of the (accepted) diagonal, `right` the shape of the argument. -/
def assertCompatibleRight (diag right : List ℕ) : Except Err Unit := do
  let outerR ← dimFromEnd 2 right
  let innerR ← dimFromEnd 1 right
  let outer ← dimFromEnd 3 diag
  let inner ← dimFromEnd 2 diag
  assertEqual [outerR, innerR] [outer, inner]
  let batch := dropLast 3 diag
  if right.length > 2 then
    let rb := if right.length ≥ 2 + batch.length then
        dropLast 2 (takeLast (2 + batch.length) right)
      else dropLast 2 right
    match allBroadcast (fun r s => r == s || (r == 1 || s == 1)) rb batch with
    | some b => check .invalidArgument b
    | none => .error .invalidArgument
  else pure ()

/-- `_flatten_right` (block_tri_diag.py:239-248): the shape after the reshape (which keeps the
number of elements). -/
def flattenRight (diag right : List ℕ) : Except Err (List ℕ) := do
  let outer ← dimFromEnd 3 diag
  let inner ← dimFromEnd 2 diag
  let s := dropLast 2 right ++ [outer * inner, 1]
  if s.prod = right.prod then .ok s else .error .invalidArgument

/-- `_unflatten_right` (block_tri_diag.py:250-258). -/
def unflattenRight (diag flat : List ℕ) : Except Err (List ℕ) := do
  let outer ← dimFromEnd 3 diag
  let inner ← dimFromEnd 2 diag
  let s := dropLast 2 flat ++ [outer, inner]
  if s.prod = flat.prod then .ok s else .error .invalidArgument

/-! ### Emission models -/

/-- `EmissionModel.__init__` (emission_model.py:40-51). -/
def emissionInit (H : List ℕ) : Except Err Unit :=
  if H.length < 3 then .error .value else .ok ()

/-- `EmissionModel.output_dim` (emission_model.py:68-73). -/
def emissionOutputDim (H : List ℕ) : Except Err ℕ := dimFromEnd 2 H

/-- The shape test of `EmissionModel.project_state_to_f` (emission_model.py:122-127). -/
def projectStateCheck (H state : List ℕ) : Except Err Unit :=
  assertShapes
    [⟨state, true, [.sym "num_data", .sym "state_dim"]⟩,
     ⟨H, true, [.sym "num_data", .sym "num_outputs", .sym "state_dim"]⟩]

/-- `StackEmissionModel.__init__` (emission_model.py:300-316). -/
def stackEmissionInit (H : List ℕ) : Except Err Unit := do
  if H.length < 4 then .error .value
  let o ← dimFromEnd 2 H
  check .invalidArgument (o == 1)
  emissionInit H

/-- `StackEmissionModel.output_dim` (emission_model.py:318-323). -/
def stackOutputDim (H : List ℕ) : Except Err ℕ := dimFromEnd 1 (dropLast 3 H)

/-! ### Kalman filters -/

/-- `KalmanFilter.__init__` (kalman_filter.py:301-339), given the shapes of the state
transitions of the state space model, the emission matrix, the observations and the Cholesky
factor of the observation covariance. -/
def kalmanInit (A H observations cholR : List ℕ) : Except Err Unit := do
  let o ← emissionOutputDim H
  assertEqual cholR [o, o]
  let n ← ssmNumTransitions A
  assertEqual observations (ssmBatchShape A ++ [n + 1, o])

/-- `KalmanFilter.__init__` (kalman_filter.py:301-339) with a `StackEmissionModel`, whose `output_dim` is the number of kernels
(emission_model.py:318-323). -/
def kalmanStackInit (A H observations cholR : List ℕ) : Except Err Unit := do
  let o ← stackOutputDim H
  assertEqual cholR [o, o]
  let n ← ssmNumTransitions A
  assertEqual observations (ssmBatchShape A ++ [n + 1, o])

/-- The einsum `"...ji,...jk,...kl->...il"` of the emission matrix, the precision `_r_inv` (which has the shape of the Cholesky
factor) and the emission matrix (kalman_filter.py:82-93): the labels `j` and `k` must name equal dimensions
(contract of `tf.einsum`: named dimensions do not broadcast; the ellipses, which do, are not modelled). -/
def kalmanEinsum (H cholR : List ℕ) : Except Err Unit := do
  let o ← dimFromEnd 2 H
  let j ← dimFromEnd 2 cholR
  let k ← dimFromEnd 1 cholR
  check .invalidArgument (o == j && o == k)

/-- `UnivariateGaussianSitesNat.__init__` (kalman_filter.py:396-414). Returns
`(num_data, output_dim)`. -/
def sitesInit (nat1 nat2 : List ℕ) (logNorm : Option (List ℕ)) : Except Err (ℕ × ℕ) := do
  let cs : List Constraint := [⟨nat1, false, [.sym "N", .lit 1]⟩, ⟨nat2, false, [.sym "N", .lit 1, .lit 1]⟩]
  let cs := match logNorm with
    | none => cs
    | some l => cs ++ [⟨l, false, [.sym "N", .lit 1]⟩]
  assertShapes cs
  match nat1 with
  | [n, o] => .ok (n, o)
  | _ => .error .value

/-- `KalmanFilterWithSites.__init__` (kalman_filter.py:465-483), for Gaussian sites whose
constructor was given `nat1`, `nat2`, `logNorm`. -/
def kalmanSitesInit (_A H nat1 nat2 : List ℕ) (logNorm : Option (List ℕ)) : Except Err Unit := do
  let (_, o) ← sitesInit nat1 nat2 logNorm
  let oH ← emissionOutputDim H
  check .invalidArgument (o == oH)

/-- `KalmanFilterWithSparseSites._drop_batch_shape` (kalman_filter.py:533-541). -/
def dropBatchShape (s : List ℕ) : Except Err (List ℕ) :=
  if s.length < 3 then .ok s
  else
    match s with
    | 1 :: rest => .ok rest
    | _ => .error .exception

/-! ### Other shape checks -/

/-- `LatentExponentiallyGenerated.__init__` (latent_exp_generated.py:64-67). Returns the state
dimension. -/
def legInit (N R : List ℕ) : Except Err ℕ := do
  assertShapes [⟨N, false, [.sym "state_dim", .sym "state_dim"]⟩,
    ⟨R, false, [.sym "state_dim", .sym "state_dim"]⟩]
  dimFromEnd 1 N

/-- `MultivariateGaussian.__init__` (multivariate_gaussian.py:41-54), shape check only. -/
def multivariateGaussianInit (chol : List ℕ) : Except Err ℕ := do
  let o ← dimFromEnd 1 chol
  assertShapes [⟨chol, true, [.lit o, .lit o]⟩]
  pure o

/-- `check_input_shapes` (likelihoods.py:275-298). -/
def checkInputShapes (fMeans observations : List ℕ) (o : ℕ) (fCov : Option (List ℕ)) :
    Except Err Unit := do
  assertShapes [⟨observations, true, [.sym "num_data", .lit o]⟩,
    ⟨fMeans, true, [.sym "num_data", .lit o]⟩]
  match fCov with
  | none => pure ()
  | some c => assertShapes [⟨c, true, [.sym "num_data", .lit o, .lit o]⟩]

/-- `ImpulseMeanFunction.__init__` and `StepMeanFunction.__init__` (mean_function.py:167-193,
307-335), shape checks only. -/
def actionsInit (actionTimes perturbations : List ℕ) : Except Err Unit := do
  let _ ← dimFromEnd 2 perturbations
  let _ ← dimFromEnd 1 perturbations
  assertEqual actionTimes (dropLast 1 perturbations)

/-- The argument checks of `back_project_nats` (variational_cvi.py:439-440). -/
def backProjectNatsCheck (nat1 nat2 C : List ℕ) : Except Err Unit :=
  assertShapes [⟨nat1, false, [.sym "N", .lit 1]⟩, ⟨nat2, false, [.sym "N", .lit 1]⟩,
    ⟨C, false, [.sym "N", .lit 1, .sym "D"]⟩]

/-- The argument checks of `batch_base_conditional` (utils.py:202-219), after `Kmn` has been
transposed to `[..., M, N]`. -/
def baseConditionalCheck (Kmn Kmm Knn f : List ℕ) (qSqrt : Option (List ℕ)) : Except Err Unit :=
  let cs : List Constraint :=
    [⟨Kmn, true, [.sym "M", .sym "N"]⟩, ⟨Kmm, false, [.sym "M", .sym "M"]⟩,
     ⟨Knn, true, [.sym "N"]⟩, ⟨f, false, [.sym "M", .sym "N"]⟩]
  assertShapes (match qSqrt with
    | none => cs
    | some q => cs ++ [⟨q, false, if q.length = 2 then [.sym "M", .sym "N"]
        else [.sym "N", .sym "M", .sym "M"]⟩])

end MF.Shapes
