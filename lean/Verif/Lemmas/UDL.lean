import Verif.Lemmas.BlockChol

/-! The UDL factorisation of block tri-diagonal matrices (backward Schur complements). -/

namespace MF
open Matrix Spec

variable {d : ℕ}

/-- Backward Schur complements. -/
noncomputable def schur : {n : ℕ} → (Fin (n + 1) → Mat d d) → (Fin n → Mat d d) →
    Fin (n + 1) → Mat d d
  | 0, D, _ => D
  | _ + 1, D, S =>
    Fin.cons (D 0 - (S 0)ᵀ * (schur (Fin.tail D) (Fin.tail S) 0)⁻¹ * S 0)
      (schur (Fin.tail D) (Fin.tail S))

variable {n : ℕ}

theorem schur_last (D : Fin (n + 1) → Mat d d) (S : Fin n → Mat d d) :
    schur D S (Fin.last n) = D (Fin.last n) := by
  induction n with
  | zero => rfl
  | succ n ih =>
    rw [schur, ← Fin.succ_last, Fin.cons_succ, ih]
    rfl

theorem schur_castSucc (D : Fin (n + 1) → Mat d d) (S : Fin n → Mat d d) (k : Fin n) :
    schur D S k.castSucc =
      D k.castSucc - (S k)ᵀ * (schur D S k.succ)⁻¹ * S k := by
  induction n with
  | zero => exact k.elim0
  | succ n ih =>
    refine Fin.cases ?_ (fun k => ?_) k
    · rw [schur, Fin.castSucc_zero, Fin.cons_zero, Fin.cons_succ]
    · rw [schur, ← Fin.succ_castSucc, Fin.cons_succ, Fin.cons_succ, ih]
      rfl

theorem schur_succ {n : ℕ} (D : Fin (n + 1 + 1) → Mat d d) (S : Fin (n + 1) → Mat d d)
    (k : Fin (n + 1)) : schur D S k.succ = schur (Fin.tail D) (Fin.tail S) k := by
  rw [schur, Fin.cons_succ]

/-- The sub-diagonal of the unit factor. -/
noncomputable def schurU (D : Fin (n + 1) → Mat d d) (S : Fin n → Mat d d) (k : Fin n) : Mat d d :=
  (schur D S k.succ)⁻¹ * S k

theorem schur_symm (D : Fin (n + 1) → Mat d d) (S : Fin n → Mat d d)
    (hD : ∀ b, (D b)ᵀ = D b) (b : Fin (n + 1)) : (schur D S b)ᵀ = schur D S b := by
  induction b using Fin.reverseInduction with
  | last => rw [schur_last]; exact hD _
  | cast k ih =>
    rw [schur_castSucc, transpose_sub, transpose_mul, transpose_mul, transpose_transpose,
      transpose_nonsing_inv, ih, hD, Matrix.mul_assoc]

/-- The algebraic factorisation `Uᵀ-form`: `Lᵀ D L = K`. -/
theorem udl_factor (D : Fin (n + 1) → Mat d d) (S : Fin n → Mat d d)
    (hD : ∀ b, (D b)ᵀ = D b) (hu : ∀ k : Fin n, IsUnit (schur D S k.succ)) :
    (denseLow (fun _ => 1) (schurU D S))ᵀ * denseDiag (schur D S) *
      denseLow (fun _ => 1) (schurU D S) = denseSym D S := by
  have hs := schur_symm D S hD
  have hdet : ∀ k : Fin n, IsUnit (schur D S k.succ).det := fun k =>
    (Matrix.isUnit_iff_isUnit_det _).1 (hu k)
  have hUS : ∀ k, schur D S k.succ * schurU D S k = S k := by
    intro k
    rw [schurU, ← Matrix.mul_assoc, mul_nonsing_inv _ (hdet k), Matrix.one_mul]
  have hSU : ∀ k, (schurU D S k)ᵀ * schur D S k.succ = (S k)ᵀ := by
    intro k
    rw [← hUS k, transpose_mul, hs]
  apply blk_ext
  intro b c
  rw [Matrix.mul_assoc]
  have hrow : ∀ (b c : Fin (n + 1)), schur D S b * lowBlk (fun _ => 1) (schurU D S) b c =
      if b = c then schur D S b else lowBlk D S b c := by
    intro b c
    by_cases h : b = c
    · subst h; simp
    · rw [if_neg h, lowBlk, if_neg h, lowBlk, if_neg h]
      split_ifs with h1
      · have hc : (c : ℕ) < n := by have := b.2; omega
        have hb : b = (⟨c, hc⟩ : Fin n).succ := Fin.ext h1
        have := hUS ⟨c, hc⟩
        rwa [← hb] at this
      · rw [Matrix.mul_zero]
  refine Fin.lastCases ?_ (fun b => ?_) b
  · rw [blk_lowT_mul_last, blk_diag_mul, transpose_one, Matrix.one_mul, blk_denseLow, hrow,
      blk_denseSym]
    split_ifs with h
    · subst h; rw [schur_last, symBlk_self]
    · rw [symBlk_of_gt]
      exact lt_of_le_of_ne (Fin.le_last c) (Ne.symm h)
  · rw [blk_lowT_mul_castSucc, blk_diag_mul, blk_diag_mul, transpose_one, Matrix.one_mul,
      blk_denseLow, blk_denseLow, hrow, blk_denseSym, ← Matrix.mul_assoc, hSU]
    by_cases h : b.castSucc = c
    · subst h
      rw [if_pos rfl, lowBlk_succ_castSucc, schur_castSucc, symBlk_self, schurU, Matrix.mul_assoc]
      abel
    · rw [if_neg h]
      rcases lt_or_gt_of_ne h with hlt | hgt
      · rw [lowBlk_of_lt _ _ hlt, zero_add, symBlk_of_lt _ _ hlt]
        by_cases h2 : c = b.succ
        · subst h2; simp
        · have h3 : (b : ℕ) < c := hlt
          have h4 : (c : ℕ) ≠ b + 1 := fun h => h2 (Fin.ext h)
          rw [lowBlk_of_gt D S (b := c) (c := b.castSucc)
              (by simp only [Fin.val_castSucc]; omega), transpose_zero,
            lowBlk_of_lt _ _ (by show (b : ℕ) + 1 < c; omega), Matrix.mul_zero]
      · have h3 : (c : ℕ) < b := hgt
        rw [symBlk_of_gt _ _ hgt,
          lowBlk_of_gt (fun _ => 1) _ (by simp only [Fin.val_succ]; omega), Matrix.mul_zero,
          add_zero]

theorem isUnit_low_one (S : Fin n → Mat d d) : IsUnit (denseLow (fun _ => 1) S) := by
  rw [Matrix.isUnit_iff_isUnit_det, det_low_tril _ _ (fun b i j h => one_apply_ne h.ne)]
  simp

theorem det_low_one (S : Fin n → Mat d d) : (denseLow (fun _ => 1) S).det = 1 := by
  rw [det_low_tril _ _ (fun b i j h => one_apply_ne h.ne)]
  simp

/-- The tail (dropping block 0) of a block tri-diagonal matrix is a principal submatrix. -/
theorem denseSym_tail {n : ℕ} (D : Fin (n + 1 + 1) → Mat d d) (S : Fin (n + 1) → Mat d d) :
    denseSym (Fin.tail D) (Fin.tail S) =
      (denseSym D S).submatrix (fun p : Ix n d => (p.1.succ, p.2)) (fun p => (p.1.succ, p.2)) := by
  apply blk_ext
  intro b c
  have : blk ((denseSym D S).submatrix (fun p : Ix n d => (p.1.succ, p.2))
      (fun p => (p.1.succ, p.2))) b c = symBlk D S b.succ c.succ := rfl
  rw [this, blk_denseSym]
  simp only [symBlk, Fin.succ_inj, Fin.val_succ, Nat.add_right_cancel_iff]
  rfl

theorem posDef_denseSym_tail {n : ℕ} {D : Fin (n + 1 + 1) → Mat d d} {S : Fin (n + 1) → Mat d d}
    (h : (denseSym D S).PosDef) : (denseSym (Fin.tail D) (Fin.tail S)).PosDef := by
  rw [denseSym_tail]
  apply h.submatrix
  intro p q hpq
  simp only [Prod.mk.injEq, Fin.succ_inj] at hpq
  exact Prod.ext hpq.1 hpq.2

theorem posDef_blk {n : ℕ} {P : Matrix (Ix n d) (Ix n d) ℝ} (h : P.PosDef) (b) :
    (blk P b b).PosDef := by
  have : blk P b b = P.submatrix (fun i => (b, i)) (fun i => (b, i)) := rfl
  rw [this]
  apply h.submatrix
  intro i j hij
  simpa using hij

/-- All Schur complements of a positive definite matrix are positive definite. -/
theorem schur_posDef (D : Fin (n + 1) → Mat d d) (S : Fin n → Mat d d)
    (h : (denseSym D S).PosDef) (b : Fin (n + 1)) : (schur D S b).PosDef := by
  have hD : ∀ {n : ℕ} (D : Fin (n + 1) → Mat d d) (S : Fin n → Mat d d),
      (denseSym D S).PosDef → ∀ b, (D b).PosDef := by
    intro n D S h b
    have := posDef_blk h b
    rwa [blk_denseSym, symBlk_self] at this
  induction n with
  | zero => exact hD D S h b
  | succ n ih =>
    have htail := ih (Fin.tail D) (Fin.tail S) (posDef_denseSym_tail h)
    refine Fin.cases ?_ (fun k => ?_) b
    swap
    · rw [schur_succ]; exact htail k
    have hsym : ∀ b, (D b)ᵀ = D b := fun b => posDef_transpose (hD D S h b)
    have hu : ∀ k : Fin (n + 1), IsUnit (schur D S k.succ) := by
      intro k; rw [schur_succ]; exact (htail k).isUnit
    have hfac := udl_factor D S hsym hu
    rw [posDef_iff_dotProduct_mulVec]
    refine ⟨?_, ?_⟩
    · rw [IsHermitian, conjTranspose_eq_transpose_of_trivial]
      exact schur_symm D S hsym 0
    intro x hx
    set L := denseLow (fun _ => 1) (schurU D S) with hLdef
    have hLu : IsUnit L.det := (Matrix.isUnit_iff_isUnit_det _).1 (isUnit_low_one _)
    let e : Ix (n + 1) d → ℝ := stk (fun b => if b = 0 then x else 0)
    have he : ∀ b, vblk e b = if b = 0 then x else 0 := fun b => rfl
    let z := L⁻¹ *ᵥ e
    have hz : L *ᵥ z = e := by
      show L *ᵥ (L⁻¹ *ᵥ e) = e
      rw [mulVec_mulVec, mul_nonsing_inv _ hLu, one_mulVec]
    have hz0 : z ≠ 0 := by
      intro h0
      rw [h0, mulVec_zero] at hz
      apply hx
      have := he 0
      rw [← hz, if_pos rfl] at this
      exact this.symm
    have hpos := h.dotProduct_mulVec_pos hz0
    rw [← hfac] at hpos
    simp only [star_trivial] at hpos ⊢
    have e1 : z ⬝ᵥ (Lᵀ * denseDiag (schur D S) * L) *ᵥ z =
        (L *ᵥ z) ⬝ᵥ (denseDiag (schur D S) *ᵥ (L *ᵥ z)) := by
      rw [← mulVec_mulVec, ← mulVec_mulVec, dotProduct_mulVec z, vecMul_transpose]
    rw [e1, hz, dotProduct_blk] at hpos
    simp only [vblk_diag_mulVec, he] at hpos
    rw [Finset.sum_eq_single 0] at hpos
    · simpa using hpos
    · intro b _ hb; simp [hb]
    · simp

namespace BTD

theorem symLower_sub {ι : Type*} [LinearOrder ι] (A B : Matrix ι ι ℝ) (hB : Bᵀ = B) :
    symLower (A - B) = symLower A - B := by
  ext i j
  simp only [symLower_apply, Matrix.sub_apply]
  split_ifs
  · rfl
  · have := congrFun (congrFun hB i) j
    rw [transpose_apply] at this
    rw [this]

/-- The loop never fails on positive definite input and computes Cholesky factors of the Schur
complements. -/
theorem udlLoop_ok (D : Fin (n + 1) → Mat d d) (S : Fin n → Mat d d)
    (h : (denseSym (fun b => symLower (D b)) S).PosDef) :
    ∃ cs, udlLoop D S = .ok cs ∧
      ∀ b, IsCholesky (schur (fun b => symLower (D b)) S b) (cs b) := by
  induction n with
  | zero =>
    have h0 : (symLower (D 0)).PosDef := by
      have := posDef_blk h 0
      rwa [blk_denseSym, symBlk_self] at this
    obtain ⟨L, hL⟩ := exists_isCholesky h0
    refine ⟨fun _ => L, ?_, ?_⟩
    · have : tfCholesky (D (Fin.last 0)) = .ok L := tfCholesky_eq_ok_iff.2 hL
      rw [udlLoop, this]; rfl
    · intro b
      obtain rfl : b = 0 := Fin.ext (by have := b.2; simp)
      exact hL
  | succ n ih =>
    obtain ⟨cs, hcs, hchol⟩ := ih (Fin.tail D) (Fin.tail S) (posDef_denseSym_tail h)
    have h0 := schur_posDef _ _ h 0
    obtain ⟨L, hL⟩ := exists_isCholesky h0
    have hc0 : cholSolve (cs 0) (S 0) = (schur (fun b => symLower (Fin.tail D b)) (Fin.tail S) 0)⁻¹ * S 0 :=
      cholSolve_eq (hchol 0) _
    have hcs0 : (schur (fun b => symLower (Fin.tail D b)) (Fin.tail S) 0)ᵀ =
        schur (fun b => symLower (Fin.tail D b)) (Fin.tail S) 0 :=
      posDef_transpose (hchol 0).posDef
    refine ⟨Fin.cons L cs, ?_, ?_⟩
    · have : tfCholesky (D 0 - (S 0)ᵀ * cholSolve (cs 0) (S 0)) = .ok L := by
        rw [tfCholesky_eq_ok_iff, symLower_sub, hc0]
        · have hs := schur_castSucc (fun b => symLower (D b)) S 0
          rw [schur_succ, Fin.castSucc_zero] at hs
          rw [hs] at hL
          rw [← Matrix.mul_assoc]
          exact hL
        · rw [hc0, transpose_mul, transpose_mul, transpose_transpose, transpose_nonsing_inv, hcs0,
            Matrix.mul_assoc]
      rw [udlLoop, hcs]
      simp only [bind, Except.bind, udlStep, this]
      rfl
    · intro b
      refine Fin.cases ?_ (fun k => ?_) b
      · exact hL
      · rw [Fin.cons_succ, schur_succ]; exact hchol k

/-- Conversely, when the loop succeeds its results are Cholesky factors of the Schur complements. -/
theorem udlLoop_of_ok (D : Fin (n + 1) → Mat d d) (S : Fin n → Mat d d)
    {cs : Fin (n + 1) → Mat d d} (h : udlLoop D S = .ok cs) (b : Fin (n + 1)) :
    IsCholesky (schur (fun b => symLower (D b)) S b) (cs b) := by
  induction n with
  | zero =>
    rw [udlLoop] at h
    cases h0 : tfCholesky (D (Fin.last 0)) with
    | error e => rw [h0] at h; cases h
    | ok L =>
      rw [h0] at h
      simp only [bind, Except.bind, pure, Except.pure, Except.ok.injEq] at h
      subst h
      obtain rfl : b = 0 := Fin.ext (by have := b.2; simp)
      exact tfCholesky_eq_ok_iff.1 h0
  | succ n ih =>
    rw [udlLoop] at h
    cases h1 : udlLoop (Fin.tail D) (Fin.tail S) with
    | error e => rw [h1] at h; cases h
    | ok cs' =>
      have hchol := ih (Fin.tail D) (Fin.tail S) h1
      rw [h1] at h
      simp only [bind, Except.bind, udlStep] at h
      cases h2 : tfCholesky (D 0 - (S 0)ᵀ * cholSolve (cs' 0) (S 0)) with
      | error e => rw [h2] at h; cases h
      | ok L =>
        rw [h2] at h
        simp only [pure, Except.pure, Except.ok.injEq] at h
        subst h
        refine Fin.cases ?_ (fun k => ?_) b
        · have hc0 : cholSolve (cs' 0) (S 0) =
              (schur (fun b => symLower (Fin.tail D b)) (Fin.tail S) 0)⁻¹ * S 0 :=
            cholSolve_eq (hchol 0) _
          have hcs0 : (schur (fun b => symLower (Fin.tail D b)) (Fin.tail S) 0)ᵀ =
              schur (fun b => symLower (Fin.tail D b)) (Fin.tail S) 0 :=
            posDef_transpose (hchol 0).posDef
          have hL := tfCholesky_eq_ok_iff.1 h2
          rw [symLower_sub, hc0, ← Matrix.mul_assoc] at hL
          · have hs := schur_castSucc (fun b => symLower (D b)) S 0
            rw [schur_succ, Fin.castSucc_zero] at hs
            rw [hs]
            exact hL
          · rw [hc0, transpose_mul, transpose_mul, transpose_transpose, transpose_nonsing_inv, hcs0,
              Matrix.mul_assoc]
        · rw [Fin.cons_succ, schur_succ]; exact hchol k

theorem tfCholesky_error_kind {e : Err} {M : Mat d d} (h : tfCholesky M = .error e) :
    e = .invalidArgument := by
  unfold tfCholesky at h
  split_ifs at h
  injection h with h
  exact h.symm

/-- On a matrix that is not positive definite the loop raises. -/
theorem udlLoop_error (D : Fin (n + 1) → Mat d d) (S : Fin n → Mat d d)
    (h : ¬ (denseSym (fun b => symLower (D b)) S).PosDef) :
    udlLoop D S = .error .invalidArgument := by
  have hk : ∀ {n : ℕ} (D : Fin (n + 1) → Mat d d) (S : Fin n → Mat d d) (e : Err),
      udlLoop D S = .error e → e = .invalidArgument := by
    intro n
    induction n with
    | zero =>
      intro D S e he
      rw [udlLoop] at he
      cases h0 : tfCholesky (D (Fin.last 0)) with
      | error e' =>
        rw [h0] at he; injection he with he; subst he; exact tfCholesky_error_kind h0
      | ok L => rw [h0] at he; cases he
    | succ n ih =>
      intro D S e he
      rw [udlLoop] at he
      cases h1 : udlLoop (Fin.tail D) (Fin.tail S) with
      | error e' => rw [h1] at he; injection he with he; subst he; exact ih _ _ _ h1
      | ok cs =>
        rw [h1] at he
        simp only [bind, Except.bind, udlStep] at he
        cases h2 : tfCholesky (D 0 - (S 0)ᵀ * cholSolve (cs 0) (S 0)) with
        | error e' => rw [h2] at he; injection he with he; subst he; exact tfCholesky_error_kind h2
        | ok L => rw [h2] at he; cases he
  cases hr : udlLoop D S with
  | error e => rw [hk D S e hr]
  | ok cs =>
    exfalso
    apply h
    have hch := udlLoop_of_ok D S hr
    rw [← udl_factor (fun b => symLower (D b)) S
      (fun b => by ext i j; simp only [transpose_apply, symLower, of_apply]
                   rcases lt_trichotomy i j with hij | hij | hij
                   · simp [hij.le, not_le.2 hij]
                   · simp [hij]
                   · simp [hij.le, not_le.2 hij])
      (fun k => (hch k.succ).posDef.isUnit)]
    have e : schur (fun b => symLower (D b)) S = fun b => cs b * (cs b)ᵀ := by
      funext b; exact (hch b).mul_transpose.symm
    rw [e, ← denseDiag_mul, ← denseDiag_transpose]
    rw [show (denseLow (fun _ => 1) (schurU (fun b => symLower (D b)) S))ᵀ *
      (denseDiag cs * (denseDiag cs)ᵀ) * denseLow (fun _ => 1) (schurU (fun b => symLower (D b)) S) =
      ((denseLow (fun _ => 1) (schurU (fun b => symLower (D b)) S))ᵀ * denseDiag cs) *
      ((denseLow (fun _ => 1) (schurU (fun b => symLower (D b)) S))ᵀ * denseDiag cs)ᵀ by
        rw [transpose_mul, transpose_transpose]; simp only [Matrix.mul_assoc]]
    apply posDef_mul_transpose
    apply IsUnit.mul
    · rw [Matrix.isUnit_iff_isUnit_det, det_transpose, ← Matrix.isUnit_iff_isUnit_det]
      exact isUnit_low_one _
    · rw [Matrix.isUnit_iff_isUnit_det, denseDiag_eq_low, det_low_tril, isUnit_iff_ne_zero]
      · exact Finset.prod_ne_zero_iff.2 fun b _ => Finset.prod_ne_zero_iff.2 fun i _ =>
          ((hch b).diag_pos i).ne'
      · intro b; exact (hch b).lower

end BTD
end MF
