import Verif.Lemmas.BlockTriDiag

/-! Algebra of block matrices: blocks of products, bidiagonal and tridiagonal matrices. -/

namespace MF
open Matrix Spec

variable {n d : ℕ}

section blk
variable {N N' N'' e e' e'' : ℕ}

@[simp] theorem blk_ofBlk (B : Fin N → Fin N' → Mat e e') (b c) : blk (ofBlk B) b c = B b c := rfl
@[simp] theorem ofBlk_blk (M : Matrix (Fin N × Fin e) (Fin N' × Fin e') ℝ) : ofBlk (blk M) = M := rfl

theorem blk_ext {M M' : Matrix (Fin N × Fin e) (Fin N' × Fin e') ℝ}
    (h : ∀ b c, blk M b c = blk M' b c) : M = M' := by
  ext ⟨b, i⟩ ⟨c, j⟩
  exact congrFun (congrFun (h b c) i) j

theorem blk_mul (M : Matrix (Fin N × Fin e) (Fin N' × Fin e') ℝ)
    (M' : Matrix (Fin N' × Fin e') (Fin N'' × Fin e'') ℝ) (b c) :
    blk (M * M') b c = ∑ k, blk M b k * blk M' k c := by
  ext i j
  simp only [blk, of_apply, Matrix.mul_apply, Fintype.sum_prod_type, Matrix.sum_apply]

@[simp] theorem blk_transpose (M : Matrix (Fin N × Fin e) (Fin N' × Fin e') ℝ) (b c) :
    blk Mᵀ b c = (blk M c b)ᵀ := rfl

@[simp] theorem blk_add (M M' : Matrix (Fin N × Fin e) (Fin N' × Fin e') ℝ) (b c) :
    blk (M + M') b c = blk M b c + blk M' b c := rfl
@[simp] theorem blk_sub (M M' : Matrix (Fin N × Fin e) (Fin N' × Fin e') ℝ) (b c) :
    blk (M - M') b c = blk M b c - blk M' b c := rfl
@[simp] theorem blk_neg (M : Matrix (Fin N × Fin e) (Fin N' × Fin e') ℝ) (b c) :
    blk (-M) b c = - blk M b c := rfl
@[simp] theorem blk_smul (r : ℝ) (M : Matrix (Fin N × Fin e) (Fin N' × Fin e') ℝ) (b c) :
    blk (r • M) b c = r • blk M b c := rfl
@[simp] theorem blk_zero (b c) :
    blk (0 : Matrix (Fin N × Fin e) (Fin N' × Fin e') ℝ) b c = 0 := rfl

theorem blk_one (b c : Fin N) :
    blk (1 : Matrix (Fin N × Fin e) (Fin N × Fin e) ℝ) b c = if b = c then 1 else 0 := by
  ext i j
  by_cases h : b = c
  · subst h; simp [blk, Matrix.one_apply]
  · simp [blk, Matrix.one_apply, h]

/-- Block `b` of a long vector. -/
def vblk (v : Fin N × Fin e → ℝ) (b : Fin N) : Vec e := fun i => v (b, i)

@[simp] theorem vblk_stk (v : Fin N → Vec e) (b) : vblk (stk v) b = v b := rfl
@[simp] theorem stk_vblk (v : Fin N × Fin e → ℝ) : stk (vblk v) = v := rfl
theorem stk_injective {v w : Fin N → Vec e} (h : stk v = stk w) : v = w := by
  funext b i; exact congrFun h (b, i)
theorem vblk_ext {v w : Fin N × Fin e → ℝ} (h : ∀ b, vblk v b = vblk w b) : v = w := by
  funext ⟨b, i⟩; exact congrFun (h b) i
@[simp] theorem stk_add (v w : Fin N → Vec e) : stk (fun b => v b + w b) = stk v + stk w := rfl
@[simp] theorem stk_sub (v w : Fin N → Vec e) : stk (fun b => v b - w b) = stk v - stk w := rfl
@[simp] theorem vblk_add (v w : Fin N × Fin e → ℝ) (b) : vblk (v + w) b = vblk v b + vblk w b := rfl
@[simp] theorem vblk_sub (v w : Fin N × Fin e → ℝ) (b) : vblk (v - w) b = vblk v b - vblk w b := rfl

theorem vblk_mulVec (M : Matrix (Fin N × Fin e) (Fin N' × Fin e') ℝ) (v : Fin N' × Fin e' → ℝ) (b) :
    vblk (M *ᵥ v) b = ∑ k, blk M b k *ᵥ vblk v k := by
  ext i
  simp only [vblk, blk, Matrix.mulVec, dotProduct, Fintype.sum_prod_type, Finset.sum_apply, of_apply]

theorem dotProduct_blk (v w : Fin N × Fin e → ℝ) : v ⬝ᵥ w = ∑ b, vblk v b ⬝ᵥ vblk w b := by
  simp only [dotProduct, Fintype.sum_prod_type, vblk]

end blk

/-! ### Bidiagonal blocks -/

section lowBlk
variable (D : Fin (n + 1) → Mat d d) (S : Fin n → Mat d d)

@[simp] theorem lowBlk_self (b) : lowBlk D S b b = D b := by simp [lowBlk]

@[simp] theorem lowBlk_succ_castSucc (k : Fin n) : lowBlk D S k.succ k.castSucc = S k := by
  have : k.succ ≠ k.castSucc := by intro h; simpa using congrArg Fin.val h
  simp [lowBlk, this]

theorem lowBlk_of_lt {b c : Fin (n + 1)} (h : b < c) : lowBlk D S b c = 0 := by
  have h' : (b : ℕ) < c := h
  have : (b : ℕ) ≠ c + 1 := by omega
  simp [lowBlk, h.ne, this]

theorem lowBlk_of_gt {b c : Fin (n + 1)} (h : (c : ℕ) + 2 ≤ b) : lowBlk D S b c = 0 := by
  have h1 : b ≠ c := by rintro rfl; omega
  have : (b : ℕ) ≠ c + 1 := by omega
  simp [lowBlk, h1, this]

theorem sum_lowBlk_zero {α : Type*} [AddCommMonoid α] (f : Mat d d → Fin (n + 1) → α)
    (hf : ∀ k, f 0 k = 0) : ∑ k, f (lowBlk D S 0 k) k = f (D 0) 0 := by
  rw [Finset.sum_eq_single 0]
  · rw [lowBlk_self]
  · intro k _ hk
    rw [lowBlk_of_lt _ _ (Fin.pos_iff_ne_zero.2 hk), hf]
  · simp

theorem sum_lowBlk_succ {α : Type*} [AddCommMonoid α] (f : Mat d d → Fin (n + 1) → α)
    (hf : ∀ k, f 0 k = 0) (b : Fin n) :
    ∑ k, f (lowBlk D S b.succ k) k = f (D b.succ) b.succ + f (S b) b.castSucc := by
  have hne : b.succ ≠ b.castSucc := by intro h; simpa using congrArg Fin.val h
  rw [Finset.sum_eq_add b.succ b.castSucc hne, lowBlk_self, lowBlk_succ_castSucc]
  · intro k _ hk
    rcases lt_trichotomy b.succ k with h | h | h
    · rw [lowBlk_of_lt _ _ h, hf]
    · exact absurd h.symm hk.1
    · have h2 : (k : ℕ) ≠ b := fun h3 => hk.2 (Fin.ext h3)
      have h4 : (k : ℕ) < b + 1 := h
      rw [lowBlk_of_gt _ _ (by simp only [Fin.val_succ]; omega), hf]
  · simp
  · simp

/-- Sums over a column of the bidiagonal pattern. -/
theorem sum_lowBlk_last {α : Type*} [AddCommMonoid α] (f : Mat d d → Fin (n + 1) → α)
    (hf : ∀ k, f 0 k = 0) : ∑ k, f (lowBlk D S k (Fin.last n)) k = f (D (Fin.last n)) (Fin.last n) := by
  rw [Finset.sum_eq_single (Fin.last n)]
  · rw [lowBlk_self]
  · intro k _ hk
    rw [lowBlk_of_lt _ _ (Fin.lt_last_iff_ne_last.2 hk), hf]
  · simp

theorem sum_lowBlk_castSucc {α : Type*} [AddCommMonoid α] (f : Mat d d → Fin (n + 1) → α)
    (hf : ∀ k, f 0 k = 0) (c : Fin n) :
    ∑ k, f (lowBlk D S k c.castSucc) k = f (D c.castSucc) c.castSucc + f (S c) c.succ := by
  have hne : c.castSucc ≠ c.succ := by intro h; simpa using congrArg Fin.val h
  rw [Finset.sum_eq_add c.castSucc c.succ hne, lowBlk_self, lowBlk_succ_castSucc]
  · intro k _ hk
    rcases lt_trichotomy k c.castSucc with h | h | h
    · rw [lowBlk_of_lt _ _ h, hf]
    · exact absurd h hk.1
    · have h2 : (k : ℕ) ≠ c + 1 := fun h3 => hk.2 (Fin.ext h3)
      have h4 : (c : ℕ) < k := h
      rw [lowBlk_of_gt _ _ (by simp only [Fin.val_castSucc]; omega), hf]
  · simp
  · simp

theorem blk_denseLow (b c) : blk (denseLow D S) b c = lowBlk D S b c := rfl
theorem blk_denseSym (b c) : blk (denseSym D S) b c = symBlk D S b c := rfl
theorem blk_denseDiag (b c) : blk (denseDiag D) b c = if b = c then D b else 0 := rfl

variable {N' e : ℕ}

theorem blk_low_mul_zero (M : Matrix (Ix n d) (Fin N' × Fin e) ℝ) (c) :
    blk (denseLow D S * M) 0 c = D 0 * blk M 0 c := by
  rw [blk_mul]
  exact sum_lowBlk_zero D S (fun X k => X * blk M k c) (by simp)

theorem blk_low_mul_succ (M : Matrix (Ix n d) (Fin N' × Fin e) ℝ) (b : Fin n) (c) :
    blk (denseLow D S * M) b.succ c = D b.succ * blk M b.succ c + S b * blk M b.castSucc c := by
  rw [blk_mul]
  exact sum_lowBlk_succ D S (fun X k => X * blk M k c) (by simp) b

theorem blk_lowT_mul_last (M : Matrix (Ix n d) (Fin N' × Fin e) ℝ) (c) :
    blk ((denseLow D S)ᵀ * M) (Fin.last n) c = (D (Fin.last n))ᵀ * blk M (Fin.last n) c := by
  rw [blk_mul]
  exact sum_lowBlk_last D S (fun X k => Xᵀ * blk M k c) (by simp)

theorem blk_lowT_mul_castSucc (M : Matrix (Ix n d) (Fin N' × Fin e) ℝ) (b : Fin n) (c) :
    blk ((denseLow D S)ᵀ * M) b.castSucc c =
      (D b.castSucc)ᵀ * blk M b.castSucc c + (S b)ᵀ * blk M b.succ c := by
  rw [blk_mul]
  exact sum_lowBlk_castSucc D S (fun X k => Xᵀ * blk M k c) (by simp) b

theorem vblk_low_mulVec_zero (v : Ix n d → ℝ) :
    vblk (denseLow D S *ᵥ v) 0 = D 0 *ᵥ vblk v 0 := by
  rw [vblk_mulVec]
  exact sum_lowBlk_zero D S (fun X k => X *ᵥ vblk v k) (by simp)

theorem vblk_low_mulVec_succ (v : Ix n d → ℝ) (b : Fin n) :
    vblk (denseLow D S *ᵥ v) b.succ = D b.succ *ᵥ vblk v b.succ + S b *ᵥ vblk v b.castSucc := by
  rw [vblk_mulVec]
  exact sum_lowBlk_succ D S (fun X k => X *ᵥ vblk v k) (by simp) b

theorem vblk_lowT_mulVec_last (v : Ix n d → ℝ) :
    vblk ((denseLow D S)ᵀ *ᵥ v) (Fin.last n) = (D (Fin.last n))ᵀ *ᵥ vblk v (Fin.last n) := by
  rw [vblk_mulVec]
  exact sum_lowBlk_last D S (fun X k => Xᵀ *ᵥ vblk v k) (by simp)

theorem vblk_lowT_mulVec_castSucc (v : Ix n d → ℝ) (b : Fin n) :
    vblk ((denseLow D S)ᵀ *ᵥ v) b.castSucc =
      (D b.castSucc)ᵀ *ᵥ vblk v b.castSucc + (S b)ᵀ *ᵥ vblk v b.succ := by
  rw [vblk_mulVec]
  exact sum_lowBlk_castSucc D S (fun X k => Xᵀ *ᵥ vblk v k) (by simp) b

theorem blk_diag_mul (M : Matrix (Ix n d) (Fin N' × Fin e) ℝ) (b c) :
    blk (denseDiag D * M) b c = D b * blk M b c := by
  rw [blk_mul, Finset.sum_eq_single b]
  · rw [blk_denseDiag, if_pos rfl]
  · intro k _ hk
    rw [blk_denseDiag, if_neg hk.symm, Matrix.zero_mul]
  · simp

theorem vblk_diag_mulVec (v : Ix n d → ℝ) (b) :
    vblk (denseDiag D *ᵥ v) b = D b *ᵥ vblk v b := by
  rw [vblk_mulVec, Finset.sum_eq_single b]
  · rw [blk_denseDiag, if_pos rfl]
  · intro k _ hk
    rw [blk_denseDiag, if_neg hk.symm, Matrix.zero_mulVec]
  · simp

theorem denseDiag_eq_low : denseDiag D = denseLow D 0 := by
  apply blk_ext
  intro b c
  rw [blk_denseDiag, blk_denseLow, lowBlk]
  simp

theorem denseDiag_transpose : (denseDiag D)ᵀ = denseDiag fun b => (D b)ᵀ := by
  apply blk_ext
  intro b c
  rw [blk_transpose, blk_denseDiag, blk_denseDiag]
  by_cases h : b = c
  · subst h; simp
  · rw [if_neg h, if_neg (Ne.symm h), transpose_zero]

theorem denseDiag_mul (E : Fin (n + 1) → Mat d d) :
    denseDiag D * denseDiag E = denseDiag fun b => D b * E b := by
  apply blk_ext
  intro b c
  rw [blk_diag_mul, blk_denseDiag, blk_denseDiag]
  split_ifs <;> simp

theorem denseDiag_one : denseDiag (fun _ => 1 : Fin (n + 1) → Mat d d) = 1 := by
  apply blk_ext
  intro b c
  rw [blk_one, blk_denseDiag]

theorem lowBlk_ne (D' : Fin (n + 1) → Mat d d) {b c : Fin (n + 1)} (h : b ≠ c) :
    lowBlk D S b c = lowBlk D' S b c := by simp [lowBlk, h]

theorem symBlk_self (b) : symBlk D S b b = D b := by simp [symBlk]

theorem symBlk_of_gt {b c : Fin (n + 1)} (h : c < b) : symBlk D S b c = lowBlk D S b c := by
  have h' : (c : ℕ) < b := h
  have h2 : ¬ ((c : ℕ) = b + 1) := by omega
  rw [symBlk, lowBlk, if_neg h.ne', if_neg h.ne', dif_neg h2]

theorem symBlk_of_lt {b c : Fin (n + 1)} (h : b < c) : symBlk D S b c = (lowBlk D S c b)ᵀ := by
  have h' : (b : ℕ) < c := h
  have h2 : ¬ ((b : ℕ) = c + 1) := by omega
  rw [symBlk, lowBlk, if_neg h.ne, if_neg h.ne', dif_neg h2]
  split_ifs
  · rfl
  · rw [transpose_zero]

/-- symmetric = low + lowᵀ - diag. -/
theorem denseSym_eq (hD : ∀ b, (D b)ᵀ = D b) :
    denseSym D S = denseLow D S + (denseLow D S)ᵀ - denseDiag D := by
  apply blk_ext
  intro b c
  rw [blk_sub, blk_add, blk_transpose, blk_denseSym, blk_denseLow, blk_denseLow, blk_denseDiag]
  rcases lt_trichotomy b c with h | h | h
  · rw [symBlk_of_lt _ _ h, lowBlk_of_lt _ _ h, if_neg h.ne, zero_add, sub_zero]
  · subst h; simp [symBlk_self, hD]
  · rw [symBlk_of_gt _ _ h, lowBlk_of_lt _ _ h, if_neg h.ne', transpose_zero, add_zero, sub_zero]

end lowBlk

/-! ### Flat ↔ block -/

section flat
variable {N e : ℕ}

theorem unflat_mul (M M' : Mat (N * e) (N * e)) : unflat (M * M') = unflat M * unflat M' := by
  simp only [unflat_eq, submatrix_mul_equiv]

theorem unflat_transpose (M : Mat (N * e) (N * e)) : unflat Mᵀ = (unflat M)ᵀ := rfl
theorem unflat_add (M M' : Mat (N * e) (N * e)) : unflat (M + M') = unflat M + unflat M' := rfl
theorem unflat_sub (M M' : Mat (N * e) (N * e)) : unflat (M - M') = unflat M - unflat M' := rfl

theorem unflat_inv (M : Mat (N * e) (N * e)) : unflat M⁻¹ = (unflat M)⁻¹ := by
  simp only [unflat_eq, inv_submatrix_equiv]

theorem unflat_one : unflat (1 : Mat (N * e) (N * e)) = 1 := by
  rw [unflat_eq, submatrix_one_equiv]

theorem det_unflat (M : Mat (N * e) (N * e)) : (unflat M).det = M.det := by
  rw [unflat_eq, det_submatrix_equiv_self]

theorem unflat_injective {M M' : Mat (N * e) (N * e)} (h : unflat M = unflat M') : M = M' := by
  rw [unflat_eq, unflat_eq] at h
  ext i j
  have := congrFun (congrFun h (finProdFinEquiv.symm i)) (finProdFinEquiv.symm j)
  simpa only [submatrix_apply, Equiv.apply_symm_apply] using this

theorem posDef_unflat (M : Mat (N * e) (N * e)) : (unflat M).PosDef ↔ M.PosDef := by
  rw [unflat_eq]
  constructor
  · intro h
    have := h.submatrix (e := finProdFinEquiv.symm) finProdFinEquiv.symm.injective
    simpa using this
  · intro h
    exact h.submatrix finProdFinEquiv.injective

theorem unflat_diagonal (f : Fin (N * e) → ℝ) :
    unflat (diagonal f) = diagonal fun p => f (fl p) := by
  rw [unflat_eq, submatrix_diagonal_equiv]
  congr 1
  funext p
  simp [fl_eq]

theorem flattenRight_eq (v : Fin (n + 1) → Vec d) :
    BTD.flattenRight v = stk v ∘ finProdFinEquiv.symm := by
  funext f
  rfl

theorem stk_unflattenRight (f : Vec ((n + 1) * d)) :
    stk (BTD.unflattenRight f) = f ∘ finProdFinEquiv := rfl

theorem stk_unflatten_mulVec (M : Mat ((n + 1) * d) ((n + 1) * d)) (v : Fin (n + 1) → Vec d) :
    stk (BTD.unflattenRight (M *ᵥ BTD.flattenRight v)) = unflat M *ᵥ stk v := by
  rw [stk_unflattenRight, flattenRight_eq, unflat_eq, submatrix_mulVec_equiv]

theorem unflat_symmetrise (M : Mat (N * e) (N * e)) :
    unflat (symmetrise M) = symmetrise (unflat M) := by
  rw [symmetrise, unflat_sub, unflat_add, unflat_transpose, unflat_diagonal]
  rfl

end flat

theorem symmetrise_denseLow (D : Fin (n + 1) → Mat d d) (S : Fin n → Mat d d) :
    symmetrise (denseLow (fun b => tril (D b)) S) = denseSym (fun b => symLower (D b)) S := by
  ext ⟨b, i⟩ ⟨c, j⟩
  simp only [symmetrise, denseSym, denseLow, ofBlk, Matrix.sub_apply, Matrix.add_apply,
    transpose_apply, of_apply, diagonal_apply]
  rcases lt_trichotomy b c with h | h | h
  · rw [symBlk_of_lt _ _ h, lowBlk_of_lt _ _ h,
      lowBlk_ne (fun b => tril (D b)) S (fun b => symLower (D b)) h.ne']
    simp [h.ne]
  · subst h
    simp only [lowBlk_self, symBlk, if_true, symLower_apply, tril_apply, Prod.mk.injEq, true_and,
      le_refl]
    rcases lt_trichotomy i j with h | h | h
    · simp [h.le, h.not_ge, h.ne]
    · subst h; simp
    · simp [h.le, h.not_ge, h.ne']
  · rw [symBlk_of_gt _ _ h, lowBlk_of_lt (fun b => tril (D b)) _ h,
      lowBlk_ne (fun b => tril (D b)) S (fun b => symLower (D b)) h.ne']
    simp [h.ne']

theorem det_low_tril (D : Fin (n + 1) → Mat d d) (S : Fin n → Mat d d)
    (hD : ∀ b, LowerTri (D b)) : (denseLow D S).det = ∏ b, ∏ i, D b i i := by
  have hlow : LowerTri ((denseLow D S).submatrix finProdFinEquiv.symm finProdFinEquiv.symm) := by
    intro x y hxy
    obtain ⟨p, rfl⟩ := finProdFinEquiv.surjective x
    obtain ⟨q, rfl⟩ := finProdFinEquiv.surjective y
    rw [← fl_eq, ← fl_eq] at hxy
    have hxy' : (fl p : ℕ) < fl q := hxy
    simp only [submatrix_apply, Equiv.symm_apply_apply]
    obtain ⟨b, i⟩ := p
    obtain ⟨c, j⟩ := q
    simp only [fl_val] at hxy'
    simp only [denseLow, ofBlk, of_apply]
    rcases lt_trichotomy b c with h | h | h
    · rw [lowBlk_of_lt _ _ h]; rfl
    · subst h
      rw [lowBlk_self]
      exact hD b i j (by show (i : ℕ) < j; omega)
    · exfalso
      have h' : (c : ℕ) + 1 ≤ b := h
      have := Nat.mul_le_mul_right d h'
      have e : ((c : ℕ) + 1) * d = c * d + d := by ring
      have := j.2
      omega
  have := hlow.det
  rw [det_submatrix_equiv_self] at this
  rw [this, ← Equiv.prod_comp finProdFinEquiv, Fintype.prod_prod_type]
  simp [denseLow, ofBlk]

end MF
