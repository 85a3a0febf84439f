import Verif.Model.BlockTriDiag
import Verif.Spec.BlockTriDiag
import Verif.Lemmas.Cholesky

namespace MF
open Matrix Spec

variable {n d : ℕ}

theorem flat_lt {N d : ℕ} (b : Fin N) (i : Fin d) : (b : ℕ) * d + i < N * d := by
  have h1 := b.2; have h2 := i.2
  calc (b : ℕ) * d + i < b * d + d := by omega
    _ = (b + 1) * d := by ring
    _ ≤ N * d := Nat.mul_le_mul_right d h1

/-- Flat index of (block, offset). -/
def fl {N d : ℕ} (p : Fin N × Fin d) : Fin (N * d) := ⟨p.1 * d + p.2, flat_lt p.1 p.2⟩

theorem fl_eq {N d : ℕ} (p : Fin N × Fin d) : fl p = finProdFinEquiv p := by
  apply Fin.ext
  rw [finProdFinEquiv_apply_val]
  simp only [fl]
  ring

theorem fl_val {N d : ℕ} (p : Fin N × Fin d) : (fl p : ℕ) = p.1 * d + p.2 := rfl

theorem unflat_eq {N d : ℕ} (M : Mat (N * d) (N * d)) :
    unflat M = M.submatrix finProdFinEquiv finProdFinEquiv := by
  ext p q
  rw [submatrix_apply, ← fl_eq, ← fl_eq]; rfl

theorem unflat_apply {N d : ℕ} (M : Mat (N * d) (N * d)) (p q : Fin N × Fin d) :
    unflat M p q = M (fl p) (fl q) := rfl

theorem fl_div {N d : ℕ} (p : Fin N × Fin d) : (fl p : ℕ) / d = p.1 := by
  have := p.2.2
  rw [fl_val, Nat.mul_comm, Nat.mul_add_div (by omega), Nat.div_eq_of_lt this, Nat.add_zero]

theorem fl_mod {N d : ℕ} (p : Fin N × Fin d) : (fl p : ℕ) % d = p.2 := by
  have := p.2.2
  rw [fl_val, Nat.mul_comm, Nat.mul_add_mod, Nat.mod_eq_of_lt this]

theorem toT3_fin {k d : ℕ} (x : Fin k → Mat d d) (b : Fin k) (i j : Fin d) :
    toT3 x b i j = x b i j := by
  simp [toT3, b.2, i.2, j.2]

theorem toT3_nat {k d : ℕ} (x : Fin k → Mat d d) {b i j : ℕ} (hb : b < k) (hi : i < d)
    (hj : j < d) : toT3 x b i j = x ⟨b, hb⟩ ⟨i, hi⟩ ⟨j, hj⟩ := by
  simp [toT3, hb, hi, hj]

/-- `reshape32` when the last dimension is unchanged. -/
theorem reshape32_same (s1 c : ℕ) (T : T3) (r k : ℕ) (hk : k < c) :
    reshape32 s1 c c T r k = T (r / s1) (r % s1) k := by
  have h1 : (r * c + k) / c = r := by
    rw [Nat.mul_comm, Nat.mul_add_div (by omega), Nat.div_eq_of_lt hk, Nat.add_zero]
  have h2 : (r * c + k) % c = k := by
    rw [Nat.mul_comm, Nat.mul_add_mod, Nat.mod_eq_of_lt hk]
  simp only [reshape32, h1, h2]

namespace BTD

/-- What the band stores, entry by entry. -/
theorem asBand_none {sym : Bool} (M : BTD sym n d) (h : M.sub = none) (k : ℕ) (q : Ix n d) :
    M.asBand k (fl q) =
      if hk : q.2 + k < d then M.diag q.1 ⟨q.2 + k, hk⟩ q.2 else 0 := by
  obtain ⟨D, S⟩ := M
  simp only at h
  subst h
  simp only [asBand, blockToBand, fl_mod]
  split_ifs with hk
  · rw [transpose2, reshape32_same _ _ _ _ _ hk, fl_div, fl_mod, transpose3,
      toT3_nat _ q.1.2 hk q.2.2]
  · rfl

theorem asBand_some {sym : Bool} (M : BTD sym n d) {S : Fin n → Mat d d} (h : M.sub = some S)
    (k : ℕ) (q : Ix n d) :
    M.asBand k (fl q) =
      if hk : q.2 + k < d then M.diag q.1 ⟨q.2 + k, hk⟩ q.2
      else if hk' : q.2 + k < 2 * d ∧ (q.1 : ℕ) < n then
        S ⟨q.1, hk'.2⟩ ⟨q.2 + k - d, by omega⟩ q.2
      else 0 := by
  obtain ⟨D, S'⟩ := M
  simp only at h
  subst h
  simp only [asBand, blockToBand, fl_mod]
  by_cases hk : (q.2 : ℕ) + k < d
  · have hk2 : (q.2 : ℕ) + k < 2 * d := by omega
    rw [if_pos hk2, dif_pos hk, transpose2, reshape32_same _ _ _ _ _ hk2, fl_div, fl_mod,
      if_pos hk, transpose3, toT3_nat _ q.1.2 hk q.2.2]
  · rw [dif_neg hk]
    by_cases hk2 : (q.2 : ℕ) + k < 2 * d
    · rw [if_pos hk2, transpose2, reshape32_same _ _ _ _ _ hk2, fl_div, fl_mod, if_neg hk,
        transpose3]
      by_cases hn : (q.1 : ℕ) < n
      · rw [dif_pos ⟨hk2, hn⟩, if_pos hn, toT3_nat _ hn (by omega) q.2.2]
      · rw [if_neg hn, dif_neg (fun h => hn h.2)]
    · rw [if_neg hk2, dif_neg (fun h => hk2 h.1)]

/-- The sub-diagonal blocks, zero if there is none. -/
def subD {sym : Bool} (M : BTD sym n d) : Fin n → Mat d d := M.sub.getD 0

/-- The lower half before symmetrisation. -/
theorem unflat_unpack {sym : Bool} (M : BTD sym n d) :
    unflat (unpackBand ((n + 1) * d) M.bandwidth M.asBand) =
      denseLow (fun b => tril (M.diag b)) M.subD := by
  ext p q
  rw [unflat_apply]
  simp only [unpackBand, of_apply, denseLow, ofBlk, lowBlk]
  have hp := p.2.2
  have hq := q.2.2
  have hp1 := p.1.2
  have hq1 := q.1.2
  have hpv := fl_val p
  have hqv := fl_val q
  by_cases hb : p.1 = q.1
  · rw [if_pos hb]
    have hb' : (p.1 : ℕ) = q.1 := congrArg _ hb
    rw [hb'] at hpv
    by_cases hle : q.2 ≤ p.2
    · have hle' : (q.2 : ℕ) ≤ p.2 := hle
      have hk : (fl p : ℕ) - fl q = p.2 - q.2 := by omega
      have hbw : (p.2 : ℕ) - q.2 ≤ M.bandwidth := by unfold bandwidth; split <;> omega
      rw [if_pos ⟨by omega, by omega⟩, hk]
      have hlt : (q.2 : ℕ) + (p.2 - q.2) < d := by omega
      have hfin : (⟨q.2 + (p.2 - q.2), hlt⟩ : Fin d) = p.2 := Fin.ext (by simp; omega)
      rw [tril_apply, if_pos hle, hb]
      cases hs : M.sub with
      | none => rw [asBand_none M hs, dif_pos hlt, hfin]
      | some S => rw [asBand_some M hs, dif_pos hlt, hfin]
    · have hle' : (p.2 : ℕ) < q.2 := not_le.1 hle
      rw [if_neg (by omega), tril_apply, if_neg hle]
  · rw [if_neg hb]
    have hb' : (p.1 : ℕ) ≠ q.1 := fun h => hb (Fin.ext h)
    by_cases hs1 : (p.1 : ℕ) = q.1 + 1
    · rw [dif_pos hs1]
      have hpv' : (fl p : ℕ) = q.1 * d + d + p.2 := by rw [hpv, hs1]; ring
      have hk : (fl p : ℕ) - fl q = d + p.2 - q.2 := by omega
      cases hs : M.sub with
      | none =>
        have hbw : M.bandwidth = d - 1 := by simp [bandwidth, hs]
        rw [hk, asBand_none M hs, dif_neg (by omega), ite_self]
        simp [subD, hs]
      | some S =>
        have hbw : M.bandwidth = (d - 1) + d := by simp [bandwidth, hs]
        rw [if_pos ⟨by omega, by omega⟩, hk, asBand_some M hs, dif_neg (by omega),
          dif_pos ⟨by omega, by omega⟩]
        have hfin : (⟨q.2 + (d + p.2 - q.2) - d, by omega⟩ : Fin d) = p.2 :=
          Fin.ext (by simp; omega)
        simp only [subD, hs, Option.getD_some]
        rw [hfin]
    · rw [dif_neg hs1]
      have hz : ∀ k, (q.2 : ℕ) + k ≥ 2 * d → M.asBand k (fl q) = 0 := by
        intro k hk
        cases hs : M.sub with
        | none => rw [asBand_none M hs, dif_neg (by omega)]
        | some S => rw [asBand_some M hs, dif_neg (by omega), dif_neg (by omega)]
      rcases lt_or_gt_of_ne hb' with h | h
      · rw [if_neg]
        · rfl
        · have : (p.1 + 1 : ℕ) * d ≤ q.1 * d := Nat.mul_le_mul_right d h
          have e : (p.1 + 1 : ℕ) * d = p.1 * d + d := by ring
          omega
      · have h2 : (q.1 : ℕ) + 2 ≤ p.1 := by omega
        have : ((q.1 : ℕ) + 2) * d ≤ p.1 * d := Nat.mul_le_mul_right d h2
        have e : ((q.1 : ℕ) + 2) * d = q.1 * d + 2 * d := by ring
        rw [hz _ (by omega), ite_self]
        rfl

end BTD
end MF
