import Verif.Model.Batched

/-!
# Specification of batching (C62)

What it means that a tensor of batch shape `bs` holds one value per batch element, and that a batched call is the family of the calls for the
single elements. Shapes and indices are innermost first, as in `Verif/Model/Tensor.lean`: the tensor of the Python shape
`batch_shape + [n, r, c]` has `shape = c :: r :: n :: bs`.
-/

namespace MF.Spec
open MF.Tensor

/-- `x` has shape `batch_shape` and holds the number `f b` at batch index `b`. -/
def HoldsReal (bs : List ℕ) (x : Tensor) (f : List ℕ → ℝ) : Prop :=
  x.shape = bs ∧ ∀ b, InRange b bs → x.val b = f b

/-- `x` has shape `batch_shape + [d]` and holds the vector `f b` at batch index `b`. -/
def HoldsVec {d : ℕ} (bs : List ℕ) (x : Tensor) (f : List ℕ → Vec d) : Prop :=
  x.shape = d :: bs ∧ ∀ b, InRange b bs → ∀ i : Fin d, x.val ((i : ℕ) :: b) = f b i

/-- `x` has shape `batch_shape + [r, c]` and holds the matrix `A b` at batch index `b`. -/
def HoldsMat {r c : ℕ} (bs : List ℕ) (x : Tensor) (A : List ℕ → Mat r c) : Prop :=
  x.shape = c :: r :: bs ∧ ∀ b, InRange b bs → ∀ (i : Fin r) (j : Fin c), x.val ((j : ℕ) :: (i : ℕ) :: b) = A b i j

/-- `x` has shape `batch_shape + [n, d]` and holds the sequence of vectors `f b` at batch index `b`. -/
def HoldsVecs {n d : ℕ} (bs : List ℕ) (x : Tensor) (f : List ℕ → Fin n → Vec d) : Prop :=
  x.shape = d :: n :: bs ∧ ∀ b, InRange b bs → ∀ (t : Fin n) (i : Fin d), x.val ((i : ℕ) :: (t : ℕ) :: b) = f b t i

/-- `x` has shape `batch_shape + [n, r, c]` and holds the sequence of matrices `A b` at batch index `b`. -/
def HoldsMats {n r c : ℕ} (bs : List ℕ) (x : Tensor) (A : List ℕ → Fin n → Mat r c) : Prop :=
  x.shape = c :: r :: n :: bs ∧
    ∀ b, InRange b bs → ∀ (t : Fin n) (i : Fin r) (j : Fin c), x.val ((j : ℕ) :: (i : ℕ) :: (t : ℕ) :: b) = A b t i j

/-- A batched state space model holds the model `s b` at batch index `b`. -/
structure HoldsSSM {n d : ℕ} (bs : List ℕ) (S : TSSM) (s : List ℕ → SSM n d) : Prop where
  mu0 : HoldsVec bs S.mu0 fun b => (s b).mu0
  cholP0 : HoldsMat bs S.cholP0 fun b => (s b).cholP0
  A : HoldsMats bs S.A fun b => (s b).A
  b : HoldsVecs bs S.b fun b => (s b).b
  cholQ : HoldsMats bs S.cholQ fun b => (s b).cholQ

/-- A batched block tri-diagonal matrix holds the matrix `m b` at batch index `b`. -/
def HoldsBTD {sym : Bool} {n d : ℕ} (bs : List ℕ) (M : TBTD sym) (m : List ℕ → BTD sym n d) : Prop :=
  HoldsMats bs M.diag (fun b => (m b).diag) ∧
    ((M.sub = none ∧ ∀ b, InRange b bs → (m b).sub = none) ∨
      ∃ (t : Tensor) (S : List ℕ → Fin n → Mat d d), M.sub = some t ∧ HoldsMats bs t S ∧ ∀ b, InRange b bs → (m b).sub = some (S b))

/-- A batched call `X` is the family of the calls `Y b`, one for every batch index `b`: either all of them succeed, then the batched call
succeeds and its result holds their results; or the batched call raises, and then some element raises the same exception. -/
def Elementwise {α β : Type*} (bs : List ℕ) (R : β → (List ℕ → α) → Prop) (X : Except Err β) (Y : List ℕ → Except Err α) : Prop :=
  (∃ x y, X = .ok x ∧ R x y ∧ ∀ b, InRange b bs → Y b = .ok (y b)) ∨
    ∃ e, X = .error e ∧ ∃ b, InRange b bs ∧ Y b = .error e

end MF.Spec
