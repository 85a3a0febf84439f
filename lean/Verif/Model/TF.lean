import Mathlib.LinearAlgebra.Matrix.PosDef
import Mathlib.LinearAlgebra.Matrix.NonsingularInverse
import Mathlib.Data.Real.Basic
import Mathlib.Algebra.Order.Star.Real

/-!
# Model of the TensorFlow / banded_matrices primitives used by markovflow

Everything here is an *external contract*: the mathematical function that the primitive computes,
over exact reals.  Exceptions are values of type `Err`.
-/

namespace MF

/-- The exceptions raised by the modelled code (Python and TensorFlow exception classes; contract). -/
inductive Err where
  /-- `tf.errors.InvalidArgumentError` (e.g. `tf.debugging.assert_*`, failed Cholesky). -/
  | invalidArgument
  /-- Python `AssertionError` (the `assert` statement). -/
  | assertion
  /-- Python `ValueError`. -/
  | value
  /-- Python `TypeError`. -/
  | type
  /-- Python `AttributeError` -/
  | attribute
  /-- Python `IndexError` -/
  | index
  /-- Python `Exception` -/
  | exception
  deriving DecidableEq, Repr

/-- A matrix of shape `[m, n]`: the `tf.Tensor` of that shape, over exact reals. -/
abbrev Mat (m n : ℕ) := Matrix (Fin m) (Fin n) ℝ
/-- A vector of shape `[n]`: the `tf.Tensor` of that shape, over exact reals. -/
abbrev Vec (n : ℕ) := Fin n → ℝ

open Matrix

variable {ι : Type*}

/-- Strictly-upper part is zero: what `tf.linalg.cholesky` returns (contract). -/
def LowerTri [LinearOrder ι] (M : Matrix ι ι ℝ) : Prop := ∀ i j, i < j → M i j = 0

/-- Contract of `tf.linalg.cholesky`: `L` is *the* Cholesky factor of `S`: lower triangular, positive diagonal, `L Lᵀ = S`. -/
structure IsCholesky [LinearOrder ι] [Fintype ι] (S L : Matrix ι ι ℝ) : Prop where
  lower : LowerTri L
  diag_pos : ∀ i, 0 < L i i
  mul_transpose : L * Lᵀ = S

/-- Lower triangular part (`tf.linalg.band_part(_, -1, 0)`): the part of a matrix that triangular
solvers and `MultivariateNormalTriL` read. -/
def tril [LinearOrder ι] (M : Matrix ι ι ℝ) : Matrix ι ι ℝ :=
  Matrix.of fun i j => if j ≤ i then M i j else 0

/-- The symmetric matrix with the same lower triangle: `tf.linalg.cholesky` only reads the lower
triangle of its input. -/
def symLower [LinearOrder ι] (M : Matrix ι ι ℝ) : Matrix ι ι ℝ :=
  Matrix.of fun i j => if j ≤ i then M i j else M j i

open Classical in
/-- `tf.linalg.cholesky`: raises `InvalidArgumentError` unless the (symmetrised lower triangle of
the) input is positive definite, otherwise returns the Cholesky factor.  That the factor exists and
is unique is proved in `Verif/Lemmas/Cholesky.lean`. -/
noncomputable def tfCholesky [LinearOrder ι] [Fintype ι] (M : Matrix ι ι ℝ) :
    Except Err (Matrix ι ι ℝ) :=
  if h : ∃ L, IsCholesky (symLower M) L then .ok h.choose else .error .invalidArgument

/-- `tf.linalg.cholesky_solve(chol, rhs)`: solves `(C Cᵀ) X = rhs` where `C` is the lower triangle
of `chol`.  (For a zero on the diagonal TensorFlow produces inf/nan; the theorems only use it for a
non-zero diagonal.) -/
noncomputable def cholSolve [LinearOrder ι] [Fintype ι] {κ : Type*} (chol : Matrix ι ι ℝ)
    (rhs : Matrix ι κ ℝ) : Matrix ι κ ℝ :=
  (tril chol * (tril chol)ᵀ)⁻¹ * rhs

/-- `tf.linalg.triangular_solve(L, rhs, lower=True, adjoint)`: solves with the lower triangle of
`L` (or its transpose). -/
noncomputable def triSolve [LinearOrder ι] [Fintype ι] {κ : Type*} (L : Matrix ι ι ℝ)
    (rhs : Matrix ι κ ℝ) (adjoint : Bool := false) : Matrix ι κ ℝ :=
  if adjoint then ((tril L)ᵀ)⁻¹ * rhs else (tril L)⁻¹ * rhs

/-- A batched `tf.linalg` op (contract): fails as a whole as soon as one of its entries fails. -/
def seqFin {α : Type*} : {n : ℕ} → (Fin n → Except Err α) → Except Err (Fin n → α)
  | 0, _ => .ok Fin.elim0
  | _ + 1, f => do
    let x ← f 0
    let xs ← seqFin (Fin.tail f)
    return Fin.cons x xs

end MF
