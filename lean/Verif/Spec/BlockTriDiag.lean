import Verif.Model.TF

/-!
# Specification: dense block tri-diagonal matrices

Independent of the model: plain block formulas on the index set `Fin (n+1) × Fin d`
(block number, position inside the block).
-/

namespace MF.Spec
open Matrix

variable {n d : ℕ}

/-- Index set of the dense matrix: (block, offset). -/
abbrev Ix (n d : ℕ) := Fin (n + 1) × Fin d

/-- Block `(b, c)` of a lower block bi-diagonal matrix. -/
def lowBlk (D : Fin (n + 1) → Mat d d) (S : Fin n → Mat d d) (b c : Fin (n + 1)) : Mat d d :=
  if b = c then D b
  else if h : (b : ℕ) = c + 1 then S ⟨c, by omega⟩
  else 0

/-- Block `(b, c)` of a symmetric block tri-diagonal matrix. -/
def symBlk (D : Fin (n + 1) → Mat d d) (S : Fin n → Mat d d) (b c : Fin (n + 1)) : Mat d d :=
  if b = c then D b
  else if h : (b : ℕ) = c + 1 then S ⟨c, by omega⟩
  else if h : (c : ℕ) = b + 1 then (S ⟨b, by omega⟩)ᵀ
  else 0

/-- The dense matrix with the given blocks. -/
def ofBlk {N N' d d' : ℕ} (B : Fin N → Fin N' → Mat d d') :
    Matrix (Fin N × Fin d) (Fin N' × Fin d') ℝ :=
  Matrix.of fun p q => B p.1 q.1 p.2 q.2

/-- The `(b, c)` block of a dense matrix. -/
def blk {N N' d d' : ℕ} (M : Matrix (Fin N × Fin d) (Fin N' × Fin d') ℝ) (b : Fin N)
    (c : Fin N') : Mat d d' :=
  Matrix.of fun i j => M (b, i) (c, j)

/-- ```
D₀
S₀ D₁
   S₁ D₂ …
``` -/
def denseLow (D : Fin (n + 1) → Mat d d) (S : Fin n → Mat d d) :
    Matrix (Ix n d) (Ix n d) ℝ := ofBlk (lowBlk D S)

/-- ```
D₀ S₀ᵀ
S₀ D₁  S₁ᵀ
   S₁  D₂ …
``` -/
def denseSym (D : Fin (n + 1) → Mat d d) (S : Fin n → Mat d d) :
    Matrix (Ix n d) (Ix n d) ℝ := ofBlk (symBlk D S)

/-- Block-diagonal. -/
def denseDiag (D : Fin (n + 1) → Mat d d) : Matrix (Ix n d) (Ix n d) ℝ :=
  ofBlk fun b c => if b = c then D b else 0

/-- A block vector as one long vector. -/
def stk {N d : ℕ} (v : Fin N → Vec d) : Fin N × Fin d → ℝ := fun p => v p.1 p.2

/-- A flat `[N*d, N*d]` matrix as a matrix indexed by (block, offset): row `b*d + i` is `(b, i)`. -/
def unflat {N d : ℕ} (M : Mat (N * d) (N * d)) : Matrix (Fin N × Fin d) (Fin N × Fin d) ℝ :=
  Matrix.of fun p q =>
    M ⟨p.1 * d + p.2, by
        have h1 := p.1.2; have h2 := p.2.2
        calc (p.1 : ℕ) * d + p.2 < p.1 * d + d := by omega
          _ = (p.1 + 1) * d := by ring
          _ ≤ N * d := Nat.mul_le_mul_right d h1⟩
      ⟨q.1 * d + q.2, by
        have h1 := q.1.2; have h2 := q.2.2
        calc (q.1 : ℕ) * d + q.2 < q.1 * d + d := by omega
          _ = (q.1 + 1) * d := by ring
          _ ≤ N * d := Nat.mul_le_mul_right d h1⟩

end MF.Spec
