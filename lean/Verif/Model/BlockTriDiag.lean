import Verif.Model.TF
import Mathlib.Logic.Equiv.Fin.Basic
import Mathlib.Analysis.SpecialFunctions.Log.Basic

/-!
# Model of `markovflow/block_tri_diag.py`

Batch shape `()`.  `outer_dim = n + 1 ≥ 1`, `inner_dim = d`.  Tensors that are only passed between
reshapes are modelled as functions of natural-number indices together with their (explicit)
dimensions, so that every `tf.reshape` is the row-major re-indexing that TensorFlow performs.
-/

namespace MF
open Matrix

/-- A rank-2 `tf.Tensor` as a function of its indices (dimensions are carried separately). -/
abbrev T2 := ℕ → ℕ → ℝ
/-- A rank-3 `tf.Tensor` as a function of its indices. -/
abbrev T3 := ℕ → ℕ → ℕ → ℝ
/-- A rank-4 `tf.Tensor` as a function of its indices. -/
abbrev T4 := ℕ → ℕ → ℕ → ℕ → ℝ

/-- `tf.reshape(T, [_, c'])` of a tensor of shape `[_, s1, s2]` (row-major). -/
def reshape32 (s1 s2 c' : ℕ) (T : T3) : T2 := fun r c =>
  let f := r * c' + c
  T (f / s2 / s1) (f / s2 % s1) (f % s2)

/-- `tf.reshape(T, [_, s1', s2'])` of a tensor of shape `[_, c]` (row-major). -/
def reshape23 (c s1' s2' : ℕ) (T : T2) : T3 := fun a b e =>
  let f := (a * s1' + b) * s2' + e
  T (f / c) (f % c)

/-- `tf.reshape(T, [_, t1, t2, t3])` of a tensor of shape `[_, s1, s2]` (row-major). -/
def reshape34 (s1 s2 t1 t2 t3 : ℕ) (T : T3) : T4 := fun q a b e =>
  let f := ((q * t1 + a) * t2 + b) * t3 + e
  T (f / s2 / s1) (f / s2 % s1) (f % s2)

/-- `tf.linalg.matrix_transpose` -/
def transpose2 (T : T2) : T2 := fun i j => T j i
/-- `tf.linalg.matrix_transpose`, rank 3 -/
def transpose3 (T : T3) : T3 := fun b i j => T b j i
/-- `tf.linalg.matrix_transpose`, rank 4 -/
def transpose4 (T : T4) : T4 := fun q b i j => T q b j i

/-- A block sequence (`_diag`, `_sub_diag`; block_tri_diag.py:52, 86) seen as an index-level tensor. -/
def toT3 {k d : ℕ} (x : Fin k → Mat d d) : T3 := fun b i j =>
  if h : b < k ∧ i < d ∧ j < d then x ⟨b, h.1⟩ ⟨i, h.2.1⟩ ⟨j, h.2.2⟩ else 0

/-! ### Contracts of the `banded_matrices` package

A lower-banded square matrix `M` of size `N` and lower bandwidth `w` is stored as the `[w+1, N]`
array `band[k, j] = M[j + k, j]` (zero where `j + k ≥ N`). Its block form for block size `m` is
`block[r, b*m + c] = M[b*m + r, b*m + c]`. -/

/-- `banded_matrices.banded.block_to_band`: contract, only the lower part of the blocks is read
(whatever `symmetric` is). `rows` is the number of rows of `block`. -/
def blockToBand (blockSize rows : ℕ) (block : T2) : T2 := fun k j =>
  if j % blockSize + k < rows then block (j % blockSize + k) j else 0

/-- `banded_matrices.banded.band_to_block`: contract; for `symmetric=True` the strictly upper part
of each diagonal block is filled by symmetry, otherwise with zeros. -/
def bandToBlock (blockSize : ℕ) (symmetric : Bool) (band : T2) : T2 := fun r j =>
  let c := j % blockSize
  if c ≤ r then band (r - c) j
  else if symmetric then band (c - r) (j / blockSize * blockSize + r) else 0

/-- `unpack_banded_matrix_to_dense(band, lower_bandwidth=w, upper_bandwidth=0)`: contract (block_tri_diag.py:158-160). -/
def unpackBand (N w : ℕ) (band : T2) : Mat N N :=
  Matrix.of fun i j =>
    if (j : ℕ) ≤ i ∧ (i : ℕ) - j ≤ w then band (i - j) j else 0

/-- Contract of the band format of `banded_matrices`, the inverse of `unpackBand`: the `[w+1, N]` band of a dense lower matrix. -/
def packBand (N : ℕ) (M : Mat N N) : T2 := fun k j =>
  if h : j + k < N then M ⟨j + k, h⟩ ⟨j, by omega⟩ else 0

/-- `lower + lowerᵀ - diag(diag_part(lower))` (block_tri_diag.py:167-173). -/
def symmetrise {ι : Type*} [DecidableEq ι] (lower : Matrix ι ι ℝ) : Matrix ι ι ℝ :=
  lower + lowerᵀ - Matrix.diagonal fun i => lower i i

/-- `product_band_mat(band, right, w, 0, transpose_left, symmetrise_left)`: contract (block_tri_diag.py:187-197). -/
def productBandMat {N : ℕ} (w : ℕ) (band : T2) (right : Vec N)
    (transposeLeft symmetriseLeft : Bool) : Vec N :=
  let lower := unpackBand N w band
  let left := if symmetriseLeft then symmetrise lower else lower
  (if transposeLeft then leftᵀ else left) *ᵥ right

/-- `solve_triang_mat(band, right, transpose_left)`: contract (block_tri_diag.py:350); back substitution; equals multiplication with
the inverse when the diagonal is non-zero (the only case the theorems use). -/
noncomputable def solveTriangMat {N : ℕ} (w : ℕ) (band : T2) (right : Vec N)
    (transposeLeft : Bool) : Vec N :=
  let lower := unpackBand N w band
  (if transposeLeft then lowerᵀ else lower)⁻¹ *ᵥ right

/-- `cholesky_band(band)`: contract; the band (same bandwidth) of the Cholesky factor of the symmetric matrix
whose lower half is stored in `band`; raises when it is not positive definite. -/
noncomputable def choleskyBand (N w : ℕ) (band : T2) : Except Err T2 := do
  let L ← tfCholesky (symmetrise (unpackBand N w band))
  return packBand N L

/-- `inverse_from_cholesky_band(band)`: contract; the lower band of `(L Lᵀ)⁻¹`. -/
noncomputable def inverseFromCholeskyBand (N w : ℕ) (band : T2) : T2 :=
  let L := unpackBand N w band
  packBand N (L * Lᵀ)⁻¹

/-! ### The classes -/

/-- An instance of `BlockTriDiagonal` (block_tri_diag.py:36-287): attributes `_diag`, `_sub_diag`;
`_symmetric` is the type parameter: `BTD true` is `SymmetricBlockTriDiagonal` (l.384-410), `BTD
false` is `LowerTriangularBlockTriDiagonal` (l.291-316). -/
structure BTD (sym : Bool) (n d : ℕ) where
  /-- `_diag`, shape `[outer_dim, inner_dim, inner_dim]` -/
  diag : Fin (n + 1) → Mat d d
  /-- `_sub_diag` (optional), shape `[outer_dim - 1, inner_dim, inner_dim]` -/
  sub : Option (Fin n → Mat d d)

/-- `SymmetricBlockTriDiagonal` (block_tri_diag.py:384-546) -/
abbrev SymBTD := BTD true
/-- `LowerTriangularBlockTriDiagonal` (block_tri_diag.py:291-380) -/
abbrev LowerBTD := BTD false

namespace BTD
variable {sym : Bool} {n d : ℕ}

/-- `BlockTriDiagonal.__init__` (block_tri_diag.py:45-88). The shape assertions on the trailing
dimensions hold by typing; what remains is the assertion that there is no sub-diagonal when
`outer_dim` is one (l.69-74). -/
def init (sym : Bool) (diag : Fin (n + 1) → Mat d d) (sub : Option (Fin n → Mat d d)) :
    Except Err (BTD sym n d) :=
  if sub.isSome ∧ ¬ (1 < n + 1) then .error .invalidArgument else .ok ⟨diag, sub⟩

/-- `bandwidth` (l.101-108) -/
def bandwidth (M : BTD sym n d) : ℕ :=
  (d - 1) + (if M.sub.isSome then d else 0)

/-- `_convert_to_band` / `as_band` (l.91-98, 206-237). -/
def asBand (M : BTD sym n d) : T2 :=
  match M.sub with
  | none =>
    let concatted := reshape32 d d d (transpose3 (toT3 M.diag))
    blockToBand d d (transpose2 concatted)
  | some sub =>
    let padded : T3 := fun b i j => if b < n then toT3 sub b i j else 0
    let td := transpose3 (toT3 M.diag)
    let ts := transpose3 padded
    let cat : T3 := fun b i j => if j < d then td b i j else ts b i (j - d)
    let concatted := reshape32 d (2 * d) (2 * d) cat
    blockToBand d (2 * d) (transpose2 concatted)

/-- `to_dense` (l.150-173), shape `[outer_dim * inner_dim, outer_dim * inner_dim]`. -/
def toDense (M : BTD sym n d) : Mat ((n + 1) * d) ((n + 1) * d) :=
  let lower := unpackBand ((n + 1) * d) M.bandwidth M.asBand
  if sym then symmetrise lower else lower

/-- `_flatten_right` (l.239-249): row-major reshape `[outer, inner] → [outer * inner]`. -/
def flattenRight (right : Fin (n + 1) → Vec d) : Vec ((n + 1) * d) := fun f =>
  right f.divNat f.modNat

/-- `_unflatten_right` (l.251-259): row-major reshape `[outer * inner] → [outer, inner]`. -/
def unflattenRight (flat : Vec ((n + 1) * d)) : Fin (n + 1) → Vec d := fun b i =>
  flat (finProdFinEquiv (b, i))

/-- `dense_mult` (l.175-199). -/
def denseMult (M : BTD sym n d) (right : Fin (n + 1) → Vec d) (transposeLeft : Bool := false) :
    Fin (n + 1) → Vec d :=
  unflattenRight (productBandMat M.bandwidth M.asBand (flattenRight right) transposeLeft sym)

/-- `LowerTriangularBlockTriDiagonal.solve` (l.339-351). -/
noncomputable def solve (M : LowerBTD n d) (right : Fin (n + 1) → Vec d)
    (transposeLeft : Bool := false) : Fin (n + 1) → Vec d :=
  unflattenRight (solveTriangMat M.bandwidth M.asBand (flattenRight right) transposeLeft)

/-- `LowerTriangularBlockTriDiagonal.block_diagonal_of_inverse` (l.318-337).  The `[: inner_dim]`
slice keeps the first `inner_dim` rows of the band; `band_to_block` is called with its default
`symmetric=True`; then transpose and reshape `[outer*inner, inner] → [outer, inner, inner]`. -/
noncomputable def blockDiagonalOfInverse (M : LowerBTD n d) : Fin (n + 1) → Mat d d :=
  let inv := inverseFromCholeskyBand ((n + 1) * d) M.bandwidth M.asBand
  let sliced : T2 := fun k j => if k < d then inv k j else 0
  let band := bandToBlock d true sliced
  let reshaped := reshape23 d d d (transpose2 band)
  fun b => Matrix.of fun i j => reshaped b i j

/-- `LowerTriangularBlockTriDiagonal.abs_log_det` (l.353-366). -/
noncomputable def absLogDet (M : LowerBTD n d) : ℝ :=
  (1 / 2) * ∑ j : Fin ((n + 1) * d), Real.log ((M.asBand 0 j) ^ 2)

/-- `LowerTriangularBlockTriDiagonal.__add__` (l.368-380) and
`SymmetricBlockTriDiagonal.__add__` (l.412-421): the two bodies coincide.  The Python `+=` rebinds a
fresh tensor (tensors are immutable). -/
def add (a b : BTD sym n d) : Except Err (BTD sym n d) :=
  let sub := match a.sub with
    | some s => match b.sub with
      | some s' => some (fun k => s k + s' k)
      | none => some s
    | none => b.sub
  init sym (fun k => a.diag k + b.diag k) sub

/-- `_banded_to_block_tri` (l.548-592) for a band with `rows` rows and `outer * block_size`
columns; `num_diags` other than 1 or 2 is an assertion failure. -/
def bandedToBlockTri (n d rows : ℕ) (banded : T2) : Except Err (LowerBTD n d) :=
  let block := bandToBlock d false banded
  let outerInner := (n + 1) * d
  let outer := outerInner / d
  let numDiags := rows / d
  if numDiags = 1 ∨ numDiags = 2 then
    let diags := transpose4 (reshape34 outerInner d outer d d
      (transpose3 (reshape23 outerInner d outerInner block)))
    let sub : Option (Fin n → Mat d d) :=
      if numDiags = 2 then some (fun b => Matrix.of fun i j => diags 1 b i j) else none
    init false (fun b => Matrix.of fun i j => diags 0 b i j) sub
  else .error .assertion

/-- `SymmetricBlockTriDiagonal.cholesky` (l.423-436). The band has `bandwidth + 1` rows, as
`_convert_to_band` produces `inner_dim` or `2 * inner_dim` rows. -/
noncomputable def cholesky (M : SymBTD n d) : Except Err (LowerBTD n d) := do
  let band ← choleskyBand ((n + 1) * d) M.bandwidth M.asBand
  bandedToBlockTri n d (M.bandwidth + 1) band

/-- One iteration of the `step` closure of `upper_diagonal_lower` (l.488-510). -/
noncomputable def udlStep (diag_k sub_k cholNext : Mat d d) : Except Err (Mat d d) :=
  let dInv := cholSolve cholNext sub_k
  tfCholesky (diag_k - sub_kᵀ * dInv)

/-- The `tf.while_loop` of `upper_diagonal_lower` (l.512-530): starting from
`[chol K_nn]`, `counter` goes `outer_dim-2, …, 0`, each step prepending `chol D_counter`. Recursion
on the remaining block indices (`Fin.tail` removes block 0, which is processed last). -/
noncomputable def udlLoop : {n : ℕ} → (Fin (n + 1) → Mat d d) → (Fin n → Mat d d) →
    Except Err (Fin (n + 1) → Mat d d)
  | 0, diag, _ => do
    let c ← tfCholesky (diag (Fin.last 0))
    return fun _ => c
  | _ + 1, diag, sub => do
    let cs ← udlLoop (Fin.tail diag) (Fin.tail sub)
    let c ← udlStep (diag 0) (sub 0) (cs 0)
    return Fin.cons c cs

/-- `SymmetricBlockTriDiagonal.upper_diagonal_lower` (l.438-545): returns `(Uᵀ, chol_D)`. -/
noncomputable def upperDiagonalLower (M : SymBTD n d) :
    Except Err (LowerBTD n d × LowerBTD n d) :=
  match M.sub with
  | none => .error .assertion
  | some sub => do
    let chols ← udlLoop M.diag sub
    let us : Fin n → Mat d d := fun k => cholSolve (chols k.succ) (sub k)
    let U ← init false (fun _ => (1 : Mat d d)) (some us)
    let D ← init false chols none
    return (U, D)

end BTD
end MF
