import Verif.Model.TF
import Mathlib.LinearAlgebra.Matrix.Kronecker
import Mathlib.Logic.Equiv.Fin.Basic
import Mathlib.Data.Fintype.Card
import Mathlib.LinearAlgebra.Matrix.RowCol
import Mathlib.Data.Matrix.ColumnRowPartitioned

/-!
# Model of `markovflow/utils.py` and of the TensorFlow indexing ops used by kernels
-/

namespace MF
open Matrix

/-- `to_delta_time` (utils.py:88-104): consecutive differences, all asserted non-negative. -/
noncomputable def toDeltaTime {n : ℕ} (ts : Fin (n + 1) → ℝ) : Except Err (Fin n → ℝ) :=
  let delta : Fin n → ℝ := fun k => ts k.succ - ts k.castSucc
  open Classical in
  if ∀ k, 0 ≤ delta k then .ok delta else .error .invalidArgument

section lists
variable {α : ℕ → Type*}

/-- Total size of a list of things that each carry a dimension (size of the result of `block_diag`, utils.py:76-85). -/
def sumDim : List (Σ d, α d) → ℕ
  | [] => 0
  | k :: ks => k.1 + sumDim ks

/-- Product of the dimensions (size of the result of `kronecker_product`, utils.py:107-114). -/
def prodDim : List (Σ d, α d) → ℕ
  | [] => 1
  | k :: ks => k.1 * prodDim ks

/-- The first `k.1` coordinates of a concatenation, and the others (index bookkeeping for `block_diag`, utils.py:76-85). -/
def splitSum (k : Σ d, α d) (ks : List (Σ d, α d)) :
    Fin (sumDim (k :: ks)) ≃ Fin k.1 ⊕ Fin (sumDim ks) := finSumFinEquiv.symm

/-- Row-major index pairs (index bookkeeping for `kronecker_product`, utils.py:107-114). -/
def splitProd (k : Σ d, α d) (ks : List (Σ d, α d)) :
    Fin (prodDim (k :: ks)) ≃ Fin k.1 × Fin (prodDim ks) := finProdFinEquiv.symm

/-- Rows of the first child, and of the others (index bookkeeping for sde_kernel.py:847-877). -/
def splitRows (o : ℕ) (k : Σ d, α d) (ks : List (Σ d, α d)) :
    Fin ((k :: ks).length * o) ≃ Fin o ⊕ Fin (ks.length * o) :=
  (finCongr (by rw [List.length_cons, Nat.succ_mul, Nat.add_comm])).trans finSumFinEquiv.symm

/-- `block_diag` (utils.py:76-85; `LinearOperatorBlockDiag.to_dense`, contract) of the square matrices
`f k`, `k ∈ ks`. -/
def blockDiag (f : (d : ℕ) → α d → Mat d d) :
    (ks : List (Σ d, α d)) → Mat (sumDim ks) (sumDim ks)
  | [] => 0
  | k :: ks => (fromBlocks (f k.1 k.2) 0 0 (blockDiag f ks)).submatrix
      (splitSum k ks) (splitSum k ks)

/-- `kronecker_product` (utils.py:107-114; `LinearOperatorKronecker.to_dense`, contract): entry
`(i₁ d₂ + i₂, j₁ d₂ + j₂)` is `M₁ i₁ j₁ * M₂ i₂ j₂`. -/
def kron (f : (d : ℕ) → α d → Mat d d) :
    (ks : List (Σ d, α d)) → Mat (prodDim ks) (prodDim ks)
  | [] => 1
  | k :: ks => (kroneckerMap (· * ·) (f k.1 k.2) (kron f ks)).submatrix
      (splitProd k ks) (splitProd k ks)

/-- `kronecker_product` (utils.py:107-114) of row matrices `[1, d]`. -/
def kronRow (f : (d : ℕ) → α d → Mat 1 d) : (ks : List (Σ d, α d)) → Mat 1 (prodDim ks)
  | [] => Matrix.of fun _ _ => 1
  | k :: ks => Matrix.of fun _ j =>
      f k.1 k.2 0 (splitProd k ks j).1 * kronRow f ks 0 (splitProd k ks j).2

/-- `tf.concat(_, axis=-1)` of vectors. -/
def concatVec (f : (d : ℕ) → α d → Vec d) : (ks : List (Σ d, α d)) → Vec (sumDim ks)
  | [] => Fin.elim0
  | k :: ks => Sum.elim (f k.1 k.2) (concatVec f ks) ∘ (splitSum k ks)

/-- `tf.concat(_, axis=-1)` of matrices with the same number of rows. -/
def concatCols {o : ℕ} (f : (d : ℕ) → α d → Mat o d) : (ks : List (Σ d, α d)) → Mat o (sumDim ks)
  | [] => Matrix.of fun _ => Fin.elim0
  | k :: ks => (fromCols (f k.1 k.2) (concatCols f ks)).submatrix id (splitSum k ks)

/-- The padded and row-concatenated emission matrices of `IndependentMultiOutput` (sde_kernel.py:847-877; see
`Model/Kernels.lean`): the rows of each matrix are padded with zeros on the columns of the others. -/
def padConcatRows (o : ℕ) (f : (d : ℕ) → α d → Mat o d) :
    (ks : List (Σ d, α d)) → Mat (ks.length * o) (sumDim ks)
  | [] => Matrix.of fun i => Fin.elim0 (i.cast (Nat.zero_mul o))
  | k :: ks => (fromBlocks (f k.1 k.2) 0 0 (padConcatRows o f ks)).submatrix (splitRows o k ks) (splitSum k ks)

end lists

/-- `augment_square_matrix` (utils.py:117-136). -/
def augmentSquareMatrix {d : ℕ} (M : Mat d d) (extra : ℕ) (fillZeros : Bool := false) :
    Mat (d + extra) (d + extra) :=
  let scalar : ℝ := if fillZeros then 0 else 1
  (fromBlocks M 0 0 (scalar • (1 : Mat extra extra))).submatrix finSumFinEquiv.symm finSumFinEquiv.symm

/-- `augment_matrix` (utils.py:139-156) on matrices. -/
def augmentMatrix {o d : ℕ} (M : Mat o d) (extra : ℕ) : Mat o (d + extra) :=
  (fromCols M (0 : Mat o extra)).submatrix id finSumFinEquiv.symm

/-- `augment_matrix` (utils.py:139-156) on vectors. -/
def augmentVec {d : ℕ} (v : Vec d) (extra : ℕ) : Vec (d + extra) :=
  Sum.elim v (0 : Vec extra) ∘ finSumFinEquiv.symm

/-- `tf.searchsorted(sorted, v)` (side `left`; contract, for sorted input): the number of entries
strictly below `v`. -/
noncomputable def searchsortedLeft {n : ℕ} (sorted : Fin n → ℝ) (v : ℝ) : Fin (n + 1) :=
  open Classical in
  ⟨(Finset.univ.filter fun j => sorted j < v).card,
    Nat.lt_succ_of_le ((Finset.card_filter_le _ _).trans (by simp))⟩

end MF
