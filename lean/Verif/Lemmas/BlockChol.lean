import Verif.Lemmas.Block

/-! Cholesky factor, inverse diagonal, log-determinant and UDL of block tri-diagonal matrices. -/

namespace MF
open Matrix Spec

variable {n d : ℕ}

namespace BTD

theorem unflat_toDense_low (M : LowerBTD n d) :
    unflat M.toDense = denseLow (fun b => tril (M.diag b)) M.subD := by
  rw [← unflat_unpack]; rfl

theorem unflat_toDense_sym (M : SymBTD n d) :
    unflat M.toDense = denseSym (fun b => symLower (M.diag b)) M.subD := by
  rw [← symmetrise_denseLow, ← unflat_unpack, ← unflat_symmetrise]; rfl

/-- The `diags` tensor inside `_banded_to_block_tri`, entry by entry. -/
theorem diags_entry (block : T2) (q : ℕ) (b : Fin (n + 1)) (i j : Fin d) :
    transpose4 (reshape34 ((n + 1) * d) d ((n + 1) * d / d) d d
      (transpose3 (reshape23 ((n + 1) * d) d ((n + 1) * d) block))) q b i j =
      block (q * d + i) (fl (b, j)) := by
  have hd : 0 < d := i.pos
  have hN : 0 < (n + 1) * d := Nat.mul_pos (by omega) hd
  have ho : (n + 1) * d / d = n + 1 := Nat.mul_div_cancel _ hd
  have hlt := flat_lt b j
  simp only [transpose4, reshape34, transpose3, reshape23, ho]
  have h1 : (((q * (n + 1) + b) * d + j) * d + i) / d = q * ((n + 1) * d) + (b * d + j) := by
    rw [Nat.mul_comm _ d, Nat.mul_add_div hd, Nat.div_eq_of_lt i.2]; ring
  have h2 : (((q * (n + 1) + b) * d + j) * d + i) % d = i := by
    rw [Nat.mul_comm _ d, Nat.mul_add_mod, Nat.mod_eq_of_lt i.2]
  rw [h1, h2]
  have h3 : (q * ((n + 1) * d) + (b * d + j)) / ((n + 1) * d) = q := by
    rw [Nat.mul_comm q, Nat.mul_add_div hN, Nat.div_eq_of_lt hlt]; rfl
  have h4 : (q * ((n + 1) * d) + (b * d + j)) % ((n + 1) * d) = b * d + j := by
    rw [Nat.mul_comm q, Nat.mul_add_mod, Nat.mod_eq_of_lt hlt]
  rw [h3, h4]
  have h5 : ((q * d + i) * ((n + 1) * d) + (b * d + j)) / ((n + 1) * d) = q * d + i := by
    rw [Nat.mul_comm (q * d + i), Nat.mul_add_div hN, Nat.div_eq_of_lt hlt]; rfl
  have h6 : ((q * d + i) * ((n + 1) * d) + (b * d + j)) % ((n + 1) * d) = b * d + j := by
    rw [Nat.mul_comm (q * d + i), Nat.mul_add_mod, Nat.mod_eq_of_lt hlt]
  rw [h5, h6]
  rfl

theorem packBand_fl {N : ℕ} (L : Mat N N) {i j : Fin N} (h : (j : ℕ) ≤ i) :
    packBand N L (i - j) j = L i j := by
  have hi := i.2
  have : (j : ℕ) + (i - j) = i := by omega
  simp only [packBand]
  rw [dif_pos (by omega)]
  congr 1
  exact Fin.ext this

theorem bandedToBlockTri_pack (M : SymBTD n d) (hd : 0 < d) (hn : M.sub.isSome → 0 < n)
    (L : Mat ((n + 1) * d) ((n + 1) * d)) (hL : LowerTri L) :
    bandedToBlockTri n d (M.bandwidth + 1) (packBand _ L) =
      .ok ⟨fun b => blk (unflat L) b b,
        if M.sub.isSome then some (fun k => blk (unflat L) k.succ k.castSucc) else none⟩ := by
  have hdiag : ∀ b : Fin (n + 1), (Matrix.of fun i j : Fin d =>
      transpose4 (reshape34 ((n + 1) * d) d ((n + 1) * d / d) d d
      (transpose3 (reshape23 ((n + 1) * d) d ((n + 1) * d)
        (bandToBlock d false (packBand _ L))))) 0 b i j) = blk (unflat L) b b := by
    intro b
    ext i j
    rw [of_apply, diags_entry]
    simp only [bandToBlock, fl_mod, blk, of_apply, unflat_apply, Nat.zero_mul, Nat.zero_add]
    split_ifs with h h2
    · have e : (i : ℕ) - j = (fl (b, i) : ℕ) - fl (b, j) := by simp only [fl_val]; omega
      rw [e, packBand_fl]
      simp only [fl_val]; omega
    · exact absurd h2 (by simp)
    · exact (hL _ _ (by show (fl (b, i) : ℕ) < fl (b, j); simp only [fl_val]; omega)).symm
  have hsub : ∀ k : Fin n, (Matrix.of fun i j : Fin d =>
      transpose4 (reshape34 ((n + 1) * d) d ((n + 1) * d / d) d d
      (transpose3 (reshape23 ((n + 1) * d) d ((n + 1) * d)
        (bandToBlock d false (packBand _ L))))) 1 (k : ℕ) i j) =
        blk (unflat L) k.succ k.castSucc := by
    intro k
    ext i j
    rw [of_apply, ← Fin.val_castSucc, diags_entry]
    have hj := j.2
    simp only [bandToBlock, fl_mod, blk, of_apply, unflat_apply, Nat.one_mul]
    rw [if_pos (by omega)]
    have e : d + (i : ℕ) - j = (fl (k.succ, i) : ℕ) - fl (k.castSucc, j) := by
      simp only [fl_val, Fin.val_succ, Fin.val_castSucc]
      have : ((k : ℕ) + 1) * d = k * d + d := by ring
      omega
    rw [e, packBand_fl]
    simp only [fl_val, Fin.val_succ, Fin.val_castSucc]
    have : ((k : ℕ) + 1) * d = k * d + d := by ring
    omega
  cases hs : M.sub with
  | none =>
    have hbw : (M.bandwidth + 1) / d = 1 := by
      have : M.bandwidth + 1 = d := by simp only [bandwidth, hs]; simp; omega
      rw [this, Nat.div_self hd]
    simp only [bandedToBlockTri, hbw, init]
    simp [hdiag]
  | some S =>
    have hbw : (M.bandwidth + 1) / d = 2 := by
      have : M.bandwidth + 1 = 2 * d := by simp only [bandwidth, hs]; simp; omega
      rw [this, Nat.mul_div_cancel _ hd]
    have hn' : 0 < n := hn (by rw [hs]; rfl)
    simp only [bandedToBlockTri, hbw, init]
    simp [hdiag, hsub, hn']

/-- No fill-in: the Cholesky factor of a block tri-diagonal matrix is block bi-diagonal. -/
theorem chol_no_fill {N : ℕ} {P L : Mat (N * d) (N * d)} (h : IsCholesky P L) {w : ℕ}
    (hP : ∀ b c : Fin N, (c : ℕ) + w < b → blk (unflat P) b c = 0)
    {b c : Fin N} (hbc : (c : ℕ) + w < b) : blk (unflat L) b c = 0 := by
  have hu := L.isUnit_iff_isUnit_det.1 h.isUnit
  have huT : IsUnit (Lᵀ).det := by rwa [det_transpose]
  have hLP : L = P * (L⁻¹)ᵀ := by
    rw [← h.mul_transpose, Matrix.mul_assoc, ← transpose_mul, nonsing_inv_mul _ hu, transpose_one,
      Matrix.mul_one]
  have hinv : LowerTri L⁻¹ := h.lower.inv h.isUnit
  rw [hLP, unflat_mul, blk_mul]
  apply Finset.sum_eq_zero
  intro k _
  by_cases hk : (k : ℕ) + w < b
  · rw [hP b k hk, Matrix.zero_mul]
  · have hkc : (c : ℕ) < k := by omega
    have : blk (unflat (L⁻¹)ᵀ) k c = 0 := by
      ext i j
      simp only [blk, of_apply, unflat_apply, transpose_apply, Matrix.zero_apply]
      apply hinv
      show (fl (c, j) : ℕ) < fl (k, i)
      simp only [fl_val]
      have h1 : ((c : ℕ) + 1) * d ≤ k * d := Nat.mul_le_mul_right d hkc
      have h2 : ((c : ℕ) + 1) * d = c * d + d := by ring
      have := j.2
      omega
    rw [this, Matrix.mul_zero]

theorem lowerTri_unflat_blk {N : ℕ} {L : Mat (N * d) (N * d)} (h : LowerTri L) (b : Fin N) :
    LowerTri (blk (unflat L) b b) := by
  intro i j hij
  simp only [blk, of_apply, unflat_apply]
  apply h
  show (fl (b, i) : ℕ) < fl (b, j)
  have hij' : (i : ℕ) < j := hij
  simp only [fl_val]; omega

theorem blk_upper_zero {N : ℕ} {L : Mat (N * d) (N * d)} (h : LowerTri L) {b c : Fin N}
    (hbc : b < c) : blk (unflat L) b c = 0 := by
  ext i j
  simp only [blk, of_apply, unflat_apply, Matrix.zero_apply]
  apply h
  show (fl (b, i) : ℕ) < fl (c, j)
  have h1 : ((b : ℕ) + 1) * d ≤ c * d := Nat.mul_le_mul_right d hbc
  have h2 : ((b : ℕ) + 1) * d = b * d + d := by ring
  have := i.2
  simp only [fl_val]; omega

theorem cholesky_ok (M : SymBTD n d) (hd : 0 < d) (hn : M.sub.isSome → 0 < n)
    (h : M.toDense.PosDef) :
    ∃ C : LowerBTD n d, M.cholesky = .ok C ∧ IsCholesky M.toDense C.toDense ∧
      C.sub.isSome = M.sub.isSome ∧ (∀ b, LowerTri (C.diag b)) := by
  obtain ⟨L, hL, hC⟩ := tfCholesky_posDef h
  have hL' : tfCholesky (symmetrise (unpackBand ((n + 1) * d) M.bandwidth M.asBand)) = .ok L := hL
  refine ⟨⟨fun b => blk (unflat L) b b,
        if M.sub.isSome then some (fun k => blk (unflat L) k.succ k.castSucc) else none⟩,
        ?_, ?_, ?_, ?_⟩
  · rw [cholesky, choleskyBand, hL']
    simp only [bind, Except.bind, pure, Except.pure]
    exact bandedToBlockTri_pack M hd hn L hC.lower
  · convert hC using 1
    apply unflat_injective
    rw [unflat_toDense_low]
    apply blk_ext
    intro b c
    have htr : (fun b => tril (blk (unflat L) b b)) = fun b => blk (unflat L) b b := by
      funext b; exact (lowerTri_unflat_blk hC.lower b).tril_eq
    simp only [htr]
    rw [blk_denseLow]
    have hPd := unflat_toDense_sym M
    have hz2 : ∀ b c : Fin (n + 1), (c : ℕ) + 1 < b → blk (unflat M.toDense) b c = 0 := by
      intro b c hbc
      rw [hPd, blk_denseSym, symBlk_of_gt _ _ (show (c : ℕ) < b by omega),
        lowBlk_of_gt _ _ (by omega)]
    rcases lt_trichotomy b c with hbc | hbc | hbc
    · rw [lowBlk_of_lt _ _ hbc, blk_upper_zero hC.lower hbc]
    · subst hbc; rw [lowBlk_self]
    · by_cases h1 : (b : ℕ) = c + 1
      · have hcn : (c : ℕ) < n := by have := b.2; omega
        have hb : b = (⟨c, hcn⟩ : Fin n).succ := Fin.ext h1
        have hc : c = (⟨c, hcn⟩ : Fin n).castSucc := rfl
        rw [hc, hb, lowBlk_succ_castSucc]
        cases hs : M.sub with
        | none =>
          simp only [subD, Option.isSome_none, Bool.false_eq_true, if_false, Option.getD_none]
          symm
          apply chol_no_fill hC (w := 0)
          · intro b c hbc
            rw [hPd, blk_denseSym, symBlk_of_gt _ _ (show (c : ℕ) < b by omega), subD, hs]
            simp only [Option.getD_none, lowBlk]
            rw [if_neg (by rintro rfl; omega)]
            split_ifs <;> rfl
          · simp
        | some S =>
          simp only [subD, Option.isSome_some, if_true, Option.getD_some]
      · have : (c : ℕ) < b := hbc
        rw [lowBlk_of_gt _ _ (by omega)]
        exact (chol_no_fill hC (w := 1) hz2 (by omega)).symm
  · dsimp only
    split_ifs with hs <;> simp [hs]
  · intro b
    exact lowerTri_unflat_blk hC.lower b

theorem cholesky_error (M : SymBTD n d) (h : ¬ M.toDense.PosDef) :
    M.cholesky = .error .invalidArgument := by
  have hT : symLower M.toDense = M.toDense := by
    apply symLower_eq
    show (symmetrise _)ᵀ = symmetrise _
    simp only [symmetrise, transpose_sub, transpose_add, transpose_transpose, diagonal_transpose]
    rw [add_comm (_)ᵀ]
  have hL' : tfCholesky (symmetrise (unpackBand ((n + 1) * d) M.bandwidth M.asBand)) =
      .error .invalidArgument := by
    rw [tfCholesky_error_iff]
    rw [← hT] at h
    exact h
  rw [cholesky, choleskyBand, hL']
  rfl

/-- Entries of `block_diagonal_of_inverse`. -/
theorem blockDiagonalOfInverse_eq (M : LowerBTD n d) (b : Fin (n + 1)) :
    M.blockDiagonalOfInverse b =
      blk ((unflat M.toDense * (unflat M.toDense)ᵀ)⁻¹) b b := by
  ext i j
  have hd : 0 < d := i.pos
  rw [← unflat_transpose, ← unflat_mul, ← unflat_inv]
  simp only [blockDiagonalOfInverse, reshape23, transpose2, of_apply, blk, unflat_apply]
  have h1 : ((b * d + i) * d + (j : ℕ)) / d = fl (b, i) := by
    rw [Nat.mul_comm _ d, Nat.mul_add_div hd, Nat.div_eq_of_lt j.2]; rfl
  have h2 : ((b * d + i) * d + (j : ℕ)) % d = j := by
    rw [Nat.mul_comm _ d, Nat.mul_add_mod, Nat.mod_eq_of_lt j.2]
  rw [h1, h2]
  simp only [bandToBlock, fl_mod, fl_div]
  have hsymm : ∀ x y, (M.toDense * M.toDenseᵀ)⁻¹ x y = (M.toDense * M.toDenseᵀ)⁻¹ y x := by
    intro x y
    have : ((M.toDense * M.toDenseᵀ)⁻¹)ᵀ = (M.toDense * M.toDenseᵀ)⁻¹ := by
      rw [transpose_nonsing_inv, transpose_mul, transpose_transpose]
    exact congrFun (congrFun this y) x
  have hi := i.2
  have hj := j.2
  split_ifs with hij hlt hlt
  · have e : (j : ℕ) - i = (fl (b, j) : ℕ) - fl (b, i) := by simp only [fl_val]; omega
    rw [e, inverseFromCholeskyBand, packBand_fl]
    · exact hsymm _ _
    · simp only [fl_val]; omega
  · omega
  · have e : (i : ℕ) - j = (fl (b, i) : ℕ) - fl (b, j) := by simp only [fl_val]; omega
    have e2 : (b : ℕ) * d + j = (fl (b, j) : ℕ) := rfl
    rw [e, inverseFromCholeskyBand, e2, packBand_fl]
    · rfl
    · simp only [fl_val]; omega
  · omega

theorem asBand_zero (M : LowerBTD n d) (q : Ix n d) : M.asBand 0 (fl q) = M.diag q.1 q.2 q.2 := by
  have hq := q.2.2
  cases hs : M.sub with
  | none => rw [asBand_none M hs, dif_pos (by omega)]; rfl
  | some S => rw [asBand_some M hs, dif_pos (by omega)]; rfl

theorem sum_fl {N d : ℕ} (f : Fin (N * d) → ℝ) : ∑ j, f j = ∑ p : Fin N × Fin d, f (fl p) := by
  rw [← Equiv.sum_comp finProdFinEquiv]
  simp only [fl_eq]

theorem det_toDense_low (M : LowerBTD n d) : M.toDense.det = ∏ b, ∏ i, M.diag b i i := by
  rw [← det_unflat, unflat_toDense_low, det_low_tril _ _ fun b => tril_lower _]
  simp

end BTD
end MF
