import Mathlib.Data.List.Basic

/-!
# The documented shapes

Plain statements of what the docstrings say: every tensor is `batch_shape + [...]`.
-/

namespace MF.Spec

/-- Docstring of `StateSpaceModel`: initial mean `batch_shape + [state_dim]`, Cholesky factor of the
initial covariance `batch_shape + [state_dim, state_dim]`, transitions and Cholesky factors of the
process covariances `batch_shape + [num_transitions, state_dim, state_dim]`, offsets
`batch_shape + [num_transitions, state_dim]`. -/
def SSMShapes (batch : List ℕ) (n d : ℕ) (mu0 cholP0 A b cholQ : List ℕ) : Prop :=
  mu0 = batch ++ [d] ∧ cholP0 = batch ++ [d, d] ∧ A = batch ++ [n, d, d] ∧
    b = batch ++ [n, d] ∧ cholQ = batch ++ [n, d, d]

/-- Docstring of `BlockTriDiagonal`: the diagonal has shape `[..., outer_dim, inner_dim, inner_dim]`
and the sub-diagonal, if there is one, `[..., outer_dim - 1, inner_dim, inner_dim]`; there is no
sub-diagonal with an outer dimension of one. -/
def BlockTriShapes (batch : List ℕ) (n d : ℕ) (diag : List ℕ) (sub : Option (List ℕ)) : Prop :=
  diag = batch ++ [n, d, d] ∧ ∀ s, sub = some s → 1 < n ∧ s = batch ++ [n - 1, d, d]

/-- Two shapes can be broadcast (numpy rule, aligned at the end): with the last dimension first,
every pair of dimensions is equal or contains a one. -/
def BroadcastRev : List ℕ → List ℕ → Prop
  | [], _ => True
  | _ :: _, [] => True
  | x :: xs, y :: ys => (x = y ∨ x = 1 ∨ y = 1) ∧ BroadcastRev xs ys

/-- Numpy broadcasting of two shapes. -/
def Broadcastable (x y : List ℕ) : Prop := BroadcastRev x.reverse y.reverse

/-- All the entries are equal to `k`. -/
def Constant (k : ℕ) (l : List ℕ) : Prop := ∀ v ∈ l, v = k

/-- What the comparison of two shape vectors by a broadcasting element-wise equality accepts: equal
shapes, or one shape is `[k]` and the other consists of `k`s only (possibly none). -/
def LooselyEqual (x y : List ℕ) : Prop :=
  x = y ∨ (∃ k, x = [k] ∧ Constant k y) ∨ (∃ k, y = [k] ∧ Constant k x)

end MF.Spec
