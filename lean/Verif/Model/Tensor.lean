import Verif.Model.Conditionals
import Verif.Model.KalmanFilter
import Verif.Model.Shapes

/-!
# Raw tensors of any rank

The other modules model the code for batch shape `()`. Here tensors carry their shape at run time, as in TensorFlow, so that the axis
arithmetic of the code (negative axes, `...` slices, reshapes, broadcasting) is part of the model.

Convention: shapes and indices are written **innermost axis first**. `Tensor.shape = [c, r, n]` is the TensorFlow shape `[n, r, c]`
(`tfShape` gives that order), axis `-1` of the code is position `0`, axis `-3` is position `2`. Entries outside the shape are not part of the
tensor: no operation reads them.
-/

namespace MF
open Matrix

/-- A `tf.Tensor` of floats (contract): shape (innermost axis first) and entries (indices innermost first). -/
structure Tensor where
  /-- the dimensions, innermost first -/
  shape : List ℕ
  /-- the entries -/
  val : List ℕ → ℝ

namespace Tensor

/-- The shape in the order TensorFlow prints it: `tf.shape(x)` / `x.shape` (contract). -/
def tfShape (x : Tensor) : List ℕ := x.shape.reverse

/-- `tf.shape(x)[-(k+1)]` (contract); zero if there is no such axis. -/
def dim (x : Tensor) (k : ℕ) : ℕ := x.shape.getD k 0

/-- An index within a shape (contract of tensor indexing). -/
def InRange : List ℕ → List ℕ → Prop
  | [], [] => True
  | i :: b, n :: s => i < n ∧ InRange b s
  | _, _ => False

/-! ### Broadcasting -/

/-- The broadcast shape of two shapes (contract; NumPy rules: shapes are aligned at the innermost axis and size one stretches). -/
def bshape : List ℕ → List ℕ → Except Err (List ℕ)
  | [], t => .ok t
  | s, [] => .ok s
  | a :: s, b :: t => do
    let w ← bshape s t
    if a = b ∨ b = 1 then .ok (a :: w) else if a = 1 then .ok (b :: w) else .error .invalidArgument

/-- The entry of a tensor of shape `s` that is read at index `i` of the broadcast shape (contract). -/
def bidx : List ℕ → List ℕ → List ℕ
  | [], _ => []
  | _ :: _, [] => []
  | a :: s, i :: b => (if a = 1 then 0 else i) :: bidx s b

/-- A binary element-wise op with broadcasting: `x + y`, `x - y`, `x * y` (contract). -/
def zipWith (f : ℝ → ℝ → ℝ) (x y : Tensor) : Except Err Tensor := do
  let s ← bshape x.shape y.shape
  return ⟨s, fun i => f (x.val (bidx x.shape i)) (y.val (bidx y.shape i))⟩

/-- `x + y` (contract, e.g. block_tri_diag.py:380) -/
def plus : Tensor → Tensor → Except Err Tensor := zipWith (· + ·)
/-- `x - y` (contract, e.g. kalman_filter.py:226) -/
def minus : Tensor → Tensor → Except Err Tensor := zipWith (· - ·)
/-- `x * y`, element-wise (contract, e.g. state_space_model.py:570) -/
def times : Tensor → Tensor → Except Err Tensor := zipWith (· * ·)

/-- A unary element-wise op: `-x`, `tf.square`, `tf.math.log`, multiplication by a Python float (contract). -/
def map (f : ℝ → ℝ) (x : Tensor) : Tensor := ⟨x.shape, fun i => f (x.val i)⟩

/-! ### Structure

The rank of the arguments of these ops is fixed by the shape checks of the constructors; for a smaller rank TensorFlow raises and the model
returns a meaningless tensor. -/

/-- `tf.linalg.matrix_transpose` (contract) -/
def matT (x : Tensor) : Tensor :=
  ⟨match x.shape with
    | c :: r :: s => r :: c :: s
    | s => s,
   fun i => match i with
    | j :: i :: b => x.val (i :: j :: b)
    | b => x.val b⟩

/-- `tf.linalg.diag_part` of square matrices (contract) -/
def diagPart (x : Tensor) : Tensor :=
  ⟨x.shape.tail, fun i => match i with
    | j :: b => x.val (j :: j :: b)
    | [] => 0⟩

/-- `tf.linalg.diag` (contract) -/
def diag (x : Tensor) : Tensor :=
  ⟨match x.shape with
    | n :: s => n :: n :: s
    | [] => [],
   fun i => match i with
    | j :: i :: b => if i = j then x.val (j :: b) else 0
    | _ => 0⟩

/-- `tf.reduce_sum(x, axis=-1)` (contract). Several trailing axes are summed one after the other. -/
def sum1 (x : Tensor) : Tensor :=
  match x.shape with
  | n :: s => ⟨s, fun b => ∑ i : Fin n, x.val ((i : ℕ) :: b)⟩
  | [] => x

/-- The sum of all entries of an array of a given shape, see `sumAll` (contract of `tf.reduce_sum`). -/
def sumShape : List ℕ → (List ℕ → ℝ) → ℝ
  | [], f => f []
  | n :: s, f => ∑ i : Fin n, sumShape s fun b => f ((i : ℕ) :: b)

/-- `tf.reduce_sum(x)` over all axes (contract) -/
def sumAll (x : Tensor) : ℝ := sumShape x.shape x.val

/-- Insert an entry at a position of a list (helper of the contracts of the indexing ops). -/
def insertAt (a : ℕ) : ℕ → List ℕ → List ℕ
  | 0, l => a :: l
  | k + 1, b :: l => b :: insertAt a k l
  | _ + 1, [] => [a]

/-- Remove an entry of a list (helper of the contracts of the indexing ops). -/
def removeAt : ℕ → List ℕ → List ℕ
  | _, [] => []
  | 0, _ :: l => l
  | k + 1, b :: l => b :: removeAt k l

/-- Change an entry of a list (helper of the contracts of the indexing ops). -/
def modifyAt (f : ℕ → ℕ) : ℕ → List ℕ → List ℕ
  | _, [] => []
  | 0, b :: l => f b :: l
  | k + 1, b :: l => b :: modifyAt f k l

/-- `x[..., None, :, …]` with `k` colons: a new axis of size one (contract). -/
def expand (k : ℕ) (x : Tensor) : Tensor := ⟨insertAt 1 k x.shape, fun i => x.val (removeAt k i)⟩

/-- `x[..., i, :, …]` with `k` colons: one entry of an axis (contract). -/
def index (k i : ℕ) (x : Tensor) : Tensor := ⟨removeAt k x.shape, fun b => x.val (insertAt i k b)⟩

/-- `x[..., lo:, :, …]` with `k` colons (contract). -/
def sliceFrom (k lo : ℕ) (x : Tensor) : Tensor := ⟨modifyAt (· - lo) k x.shape, fun i => x.val (modifyAt (· + lo) k i)⟩

/-- `x[..., :-m, :, …]` with `k` colons (contract). -/
def sliceDrop (k m : ℕ) (x : Tensor) : Tensor := ⟨modifyAt (· - m) k x.shape, x.val⟩

/-- `x[..., :m, :, …]` with `k` colons (contract). -/
def sliceTo (k m : ℕ) (x : Tensor) : Tensor := ⟨modifyAt (min m) k x.shape, x.val⟩

/-- `tf.concat([x, y], axis=-(k+1))` (contract): the other dimensions must agree (no broadcasting). -/
def concat (k : ℕ) (x y : Tensor) : Except Err Tensor :=
  if k < x.shape.length ∧ k < y.shape.length ∧ removeAt k x.shape = removeAt k y.shape then
    .ok ⟨modifyAt (· + y.dim k) k x.shape, fun i =>
      if i.getD k 0 < x.dim k then x.val i else y.val (modifyAt (· - x.dim k) k i)⟩
  else .error .invalidArgument

/-- The row-major position of an index (contract of the memory layout). -/
def flat : List ℕ → List ℕ → ℕ
  | n :: s, i :: b => i + n * flat s b
  | _, _ => 0

/-- The index at a row-major position (contract of the memory layout). -/
def unflat : List ℕ → ℕ → List ℕ
  | [], _ => []
  | n :: s, f => f % n :: unflat s (f / n)

/-- `tf.reshape(x, s)` (contract): the number of elements must agree and the row-major order is kept. -/
def reshape (s : List ℕ) (x : Tensor) : Except Err Tensor :=
  if s.prod = x.shape.prod then .ok ⟨s, fun i => x.val (unflat x.shape (flat s i))⟩ else .error .invalidArgument

/-- `tf.zeros(shape)` (contract) -/
def zeros (s : List ℕ) : Tensor := ⟨s, fun _ => 0⟩

/-- `tf.eye(d, batch_shape=s)` (contract) -/
def eye (d : ℕ) (s : List ℕ) : Tensor :=
  ⟨d :: d :: s, fun i => match i with
    | j :: i :: _ => if i = j then 1 else 0
    | _ => 0⟩

/-! ### Linear algebra on the two innermost axes -/

/-- `tf.matmul(x, y)` / `x @ y` (contract): the batch axes broadcast. -/
def matmul (x y : Tensor) : Except Err Tensor :=
  match x.shape, y.shape with
  | k :: r :: s, c :: k' :: t =>
    if k = k' then do
      let w ← bshape s t
      return ⟨c :: r :: w, fun i => match i with
        | j :: i :: b => ∑ l : Fin k, x.val ((l : ℕ) :: i :: bidx s b) * y.val (j :: (l : ℕ) :: bidx t b)
        | _ => 0⟩
    else .error .invalidArgument
  | _, _ => .error .invalidArgument

/-- The matrix at a batch index (contract of batched `tf.linalg` ops). -/
def matAt (x : Tensor) (r c : ℕ) (b : List ℕ) : Mat r c := Matrix.of fun i j => x.val ((j : ℕ) :: (i : ℕ) :: b)

/-- The rank-2 array at a batch index, for the `banded_matrices` ops (contract). -/
def arrayAt (x : Tensor) (b : List ℕ) : T2 := fun i j => x.val (j :: i :: b)

/-- The entry of a matrix at natural-number indices (contract of tensor indexing). -/
def entry {r c : ℕ} (M : Mat r c) (i j : ℕ) : ℝ := if h : i < r ∧ j < c then M ⟨i, h.1⟩ ⟨j, h.2⟩ else 0

/-- A tensor with a given matrix at every batch index (contract of batched ops). -/
def ofMats {r c : ℕ} (s : List ℕ) (M : List ℕ → Mat r c) : Tensor :=
  ⟨c :: r :: s, fun i => match i with
    | j :: i :: b => entry (M b) i j
    | _ => 0⟩

open Classical in
/-- A batched op that may fail (contract of batched `tf.linalg` and `banded_matrices` ops): it raises as soon as one batch element fails. -/
noncomputable def batched {r c : ℕ} (s : List ℕ) (op : List ℕ → Except Err (Mat r c)) : Except Err Tensor :=
  if ∀ b, InRange b s → ∃ M, op b = .ok M then
    .ok (ofMats s fun b => match op b with
      | .ok M => M
      | .error _ => 0)
  else .error .invalidArgument

/-- `tf.linalg.cholesky` (contract): on every innermost matrix. -/
noncomputable def choleskyT (x : Tensor) : Except Err Tensor :=
  match x.shape with
  | c :: r :: s => if c = r then batched s fun b => tfCholesky (x.matAt r r b) else .error .invalidArgument
  | _ => .error .invalidArgument

/-- A batched binary matrix op with broadcasting batch axes (contract of `tf.linalg.cholesky_solve`, `tf.linalg.triangular_solve`). -/
def solveWith (op : {d c : ℕ} → Mat d d → Mat d c → Mat d c) (x y : Tensor) : Except Err Tensor :=
  match x.shape, y.shape with
  | k :: r :: s, c :: k' :: t =>
    if k = r ∧ k = k' then do
      let w ← bshape s t
      return ofMats w fun b => op (x.matAt k k (bidx s b)) (y.matAt k c (bidx t b))
    else .error .invalidArgument
  | _, _ => .error .invalidArgument

/-- `tf.linalg.cholesky_solve(chol, rhs)` (contract) -/
noncomputable def cholSolveT (chol rhs : Tensor) : Except Err Tensor := solveWith (fun C R => MF.cholSolve C R) chol rhs

/-- `tf.linalg.triangular_solve(L, rhs, adjoint)` (contract) -/
noncomputable def triSolveT (L rhs : Tensor) (adjoint : Bool := false) : Except Err Tensor :=
  solveWith (fun L R => MF.triSolve L R adjoint) L rhs

/-- `tf.linalg.logdet` (contract): on every innermost matrix. -/
noncomputable def logdet (x : Tensor) : Except Err Tensor :=
  match x.shape with
  | c :: r :: s =>
    if c = r then do
      let t ← batched (r := 1) (c := 1) s fun b => do
        let l ← tfLogdet (x.matAt r r b)
        return fun _ _ => l
      return index 0 0 (index 0 0 t)
    else .error .invalidArgument
  | _ => .error .invalidArgument

/-- `tfd.MultivariateNormalTriL(loc, scale_tril).log_prob(x)` (contract): the batch axes of the three arguments broadcast. -/
noncomputable def mvnLogProb (loc scale x : Tensor) : Except Err Tensor :=
  match loc.shape, scale.shape, x.shape with
  | d :: s, d₁ :: d₂ :: t, d' :: u =>
    if d = d₁ ∧ d = d₂ ∧ d = d' then do
      let w₁ ← bshape s t
      let w ← bshape w₁ u
      return ⟨w, fun b => mvnTriLLogProb (d := d) (fun i => loc.val ((i : ℕ) :: bidx s b)) (scale.matAt d d (bidx t b))
        (fun i => x.val ((i : ℕ) :: bidx u b))⟩
    else .error .invalidArgument
  | _, _, _ => .error .invalidArgument

/-! ### `tf.einsum`

`einsum ins out` is `tf.einsum("...ab,...bc->...ac", x, y)`: the labels of every argument are listed innermost first, the ellipses broadcast,
labels that do not occur in the output are summed, and a label must name axes of one size. -/

/-- The size of every label; raises if a label names axes of different sizes or the rank is too small (contract of `tf.einsum`). -/
def labelDims : List (List Char × List ℕ) → Except Err (Char → Option ℕ)
  | [] => .ok fun _ => none
  | ([], _) :: rest => labelDims rest
  | (_ :: _, []) :: _ => .error .invalidArgument
  | (a :: l, n :: s) :: rest => do
    let f ← labelDims ((l, s) :: rest)
    match f a with
    | none => .ok (Function.update f a (some n))
    | some m => if m = n then .ok f else .error .invalidArgument
termination_by l => (l.map fun p => p.1.length + 1).sum
decreasing_by all_goals simp_all

/-- The broadcast shape of the ellipses (contract of `tf.einsum`). -/
def ellipsis : List (List Char × List ℕ) → Except Err (List ℕ)
  | [] => .ok []
  | (l, s) :: rest => do
    let w ← ellipsis rest
    bshape (s.drop l.length) w

/-- Sum a function of a label assignment over the values of the listed labels (contract of `tf.einsum`). -/
def sumLabels (dims : Char → Option ℕ) : List Char → (Char → ℕ) → ((Char → ℕ) → ℝ) → ℝ
  | [], env, f => f env
  | a :: l, env, f => ∑ v : Fin ((dims a).getD 0), sumLabels dims l (Function.update env a v) f

/-- The product of the entries of the arguments at a label assignment and an ellipsis index (contract of `tf.einsum`). -/
def einsumTerm (ins : List (List Char × Tensor)) (b : List ℕ) (env : Char → ℕ) : ℝ :=
  (ins.map fun p => p.2.val (p.1.map env ++ bidx (p.2.shape.drop p.1.length) b)).prod

/-- The assignment of the output labels at an output index (contract of `tf.einsum`). -/
def assign : List Char → List ℕ → (Char → ℕ)
  | a :: l, i :: b => Function.update (assign l b) a i
  | _, _ => fun _ => 0

/-- `tf.einsum` (contract), see above. -/
def einsum (ins : List (List Char × Tensor)) (out : List Char) : Except Err Tensor := do
  let dims ← labelDims (ins.map fun p => (p.1, p.2.shape))
  let w ← ellipsis (ins.map fun p => (p.1, p.2.shape))
  let contracted := ((ins.flatMap (·.1)).dedup).filter fun a => a ∉ out
  return ⟨out.map (fun a => (dims a).getD 0) ++ w, fun i =>
    sumLabels dims contracted (assign out i) (einsumTerm ins (i.drop out.length))⟩

/-! ### `banded_matrices`, batched (contracts: each op acts on the two innermost axes, batch axes of two arguments broadcast) -/

/-- `block_to_band` (contract; block_tri_diag.py:233) -/
def blockToBandT (blockSize : ℕ) (x : Tensor) : Tensor :=
  ⟨x.shape, fun i => match i with
    | j :: k :: b => MF.blockToBand blockSize (x.dim 1) (x.arrayAt b) k j
    | _ => 0⟩

/-- `band_to_block` of a band of `rows` rows (contract; block_tri_diag.py:330, 558) -/
def bandToBlockT (blockSize : ℕ) (symmetric : Bool) (x : Tensor) : Tensor :=
  ⟨x.shape, fun i => match i with
    | j :: r :: b => MF.bandToBlock blockSize symmetric (x.arrayAt b) r j
    | _ => 0⟩

/-- `unpack_banded_matrix_to_dense(x, w, 0)` (contract; block_tri_diag.py:158) -/
def unpackBandT (w : ℕ) (x : Tensor) : Tensor :=
  match x.shape with
  | N :: _ :: s => ofMats s fun b => MF.unpackBand N w (x.arrayAt b)
  | _ => x

/-- `product_band_mat` (contract; block_tri_diag.py:189) with a right-hand side of shape `[..., N, 1]` -/
def productBandMatT (w : ℕ) (x right : Tensor) (transposeLeft symmetriseLeft : Bool) : Except Err Tensor :=
  match x.shape, right.shape with
  | N :: _ :: s, 1 :: N' :: t =>
    if N = N' then do
      let u ← bshape s t
      return ofMats (r := N) (c := 1) u fun b i _ => MF.productBandMat w (x.arrayAt (bidx s b))
        (fun i => right.val (0 :: (i : ℕ) :: bidx t b)) transposeLeft symmetriseLeft i
    else .error .invalidArgument
  | _, _ => .error .invalidArgument

/-- `solve_triang_mat` (contract; block_tri_diag.py:350) with a right-hand side of shape `[..., N, 1]`; the bandwidth is the number of rows minus one -/
noncomputable def solveTriangMatT (x right : Tensor) (transposeLeft : Bool) : Except Err Tensor :=
  match x.shape, right.shape with
  | N :: rows :: s, 1 :: N' :: t =>
    if N = N' then do
      let u ← bshape s t
      return ofMats (r := N) (c := 1) u fun b i _ => MF.solveTriangMat (rows - 1) (x.arrayAt (bidx s b))
        (fun i => right.val (0 :: (i : ℕ) :: bidx t b)) transposeLeft i
    else .error .invalidArgument
  | _, _ => .error .invalidArgument

/-- `cholesky_band` (contract; block_tri_diag.py:436) -/
noncomputable def choleskyBandT (x : Tensor) : Except Err Tensor :=
  match x.shape with
  | N :: rows :: s => batched (r := rows) (c := N) s fun b => do
    let t ← MF.choleskyBand N (rows - 1) (x.arrayAt b)
    return fun i j => t i j
  | _ => .error .invalidArgument

/-- `inverse_from_cholesky_band` (contract; block_tri_diag.py:331) -/
noncomputable def inverseFromCholeskyBandT (x : Tensor) : Tensor :=
  match x.shape with
  | N :: rows :: s => ofMats (r := rows) (c := N) s fun b i j => MF.inverseFromCholeskyBand N (rows - 1) (x.arrayAt b) i j
  | _ => x

end Tensor
end MF
