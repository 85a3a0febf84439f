import Verif.Lemmas.Transformations

/-! # Natural parameter conversions -/

namespace MF
open Matrix Spec BTD
variable {n d : ℕ}

/-- Diagonal blocks of `band_to_block`, `symmetric=True`. -/
theorem bandToBlock_diag (M : Mat ((n + 1) * d) ((n + 1) * d)) (b : Fin (n + 1)) (i j : Fin d) :
    bandToBlock d true (packBand _ M) j (fl (b, i)) = symLower (blk (unflat M) b b) j i := by
  simp only [bandToBlock, fl_mod, fl_div, symLower, of_apply, blk, unflat_apply]
  have hi := i.2
  have hj := j.2
  by_cases hij : i ≤ j
  · have hij' : (i : ℕ) ≤ j := hij
    rw [if_pos hij', if_pos hij]
    have e : (j : ℕ) - i = (fl (b, j) : ℕ) - fl (b, i) := by simp only [fl_val]; omega
    rw [e, packBand_fl]
    simp only [fl_val]; omega
  · have hij' : ¬ (i : ℕ) ≤ j := hij
    rw [if_neg hij', if_neg hij, if_pos trivial]
    have e : (i : ℕ) - j = (fl (b, i) : ℕ) - fl (b, j) := by simp only [fl_val]; omega
    have e2 : (b : ℕ) * d + j = (fl (b, j) : ℕ) := rfl
    rw [e, e2, packBand_fl]
    simp only [fl_val]; omega

/-- Sub-diagonal blocks. -/
theorem bandToBlock_sub (M : Mat ((n + 1) * d) ((n + 1) * d)) (k : Fin n) (i j : Fin d) :
    bandToBlock d true (packBand _ M) (d + j) (fl (k.castSucc, i)) =
      blk (unflat M) k.succ k.castSucc j i := by
  simp only [bandToBlock, fl_mod, of_apply, blk, unflat_apply]
  have hi := i.2
  have hj := j.2
  rw [if_pos (by omega)]
  have e : (d : ℕ) + j - i = (fl (k.succ, j) : ℕ) - fl (k.castSucc, i) := by
    simp only [fl_val, Fin.val_succ, Fin.val_castSucc, Nat.add_mul, Nat.one_mul]; omega
  rw [e, packBand_fl]
  simp only [fl_val, Fin.val_succ, Fin.val_castSucc, Nat.add_mul, Nat.one_mul]; omega

theorem reshape23_apply (c : ℕ) (T : T2) (b : Fin (n + 1)) (i : Fin d) {e : ℕ} (he : e < c) :
    reshape23 c d c T b i e = T (fl (b, i)) e := by
  have hc : 0 < c := by omega
  simp only [reshape23]
  have h1 : ((b * d + i) * c + e) / c = fl (b, i) := by
    rw [Nat.mul_comm _ c, Nat.mul_add_div hc, Nat.div_eq_of_lt he]; rfl
  have h2 : ((b * d + i) * c + e) % c = e := by
    rw [Nat.mul_comm _ c, Nat.mul_add_mod, Nat.mod_eq_of_lt he]
  rw [h1, h2]

/-- The natural parameters of the model, in dense form. -/
theorem ssmToNaturals_eq (s : SSM n d) (h : s.Nondegenerate) :
    ssmToNaturals s = (vblk (s.Pd *ᵥ stk s.mus), fun b => (-(1 / 2) : ℝ) • s.precD b,
      fun k => -s.precS k) := by
  have hlin : ∀ k, triSolve (s.concatChol k) (1 : Mat d d) = (s.concatChol k)⁻¹ := by
    intro k
    simp [triSolve, (h k).1.tril_eq]
  have hinvQ : ∀ k : Fin n, ((s.concatChol k.succ)⁻¹)ᵀ * (s.concatChol k.succ)⁻¹ = (s.Q k)⁻¹ := by
    intro k
    show _ = (s.concatChol k.succ * (s.concatChol k.succ)ᵀ)⁻¹
    rw [Matrix.mul_inv_rev, transpose_nonsing_inv]
  have htri : ∀ k : Fin n, triSolve (s.concatChol k.succ) (s.A k) =
      (s.concatChol k.succ)⁻¹ * s.A k := by
    intro k; simp [triSolve, (h k.succ).1.tril_eq]
  have htriT : ∀ (k : Fin n) (X : Mat d d), triSolve (s.concatChol k.succ) X true =
      ((s.concatChol k.succ)⁻¹)ᵀ * X := by
    intro k X; simp [triSolve, (h k.succ).1.tril_eq, transpose_nonsing_inv]
  unfold ssmToNaturals
  simp only [h.colsolve, htri, htriT]
  simp only [h.cholSolve_eq]
  refine Prod.ext ?_ (Prod.ext ?_ ?_)
  · funext b
    show _ = vblk (s.Pd *ᵥ stk s.mus) b
    have hP : s.Pd *ᵥ stk s.mus = s.Aiᵀ *ᵥ (denseDiag (fun b => (s.Qc b)⁻¹) *ᵥ
        stk s.concatOffsets) := by
      rw [SSM.Pd, ← mulVec_mulVec, ← mulVec_mulVec, SSM.Ai_mus]
    rw [hP]
    refine Fin.lastCases ?_ (fun k => ?_) b
    · rw [SSM.Ai, vblk_lowT_mulVec_last, transpose_one, one_mulVec, vblk_diag_mulVec]
      simp [Fin.snoc_last]
      try rfl
    · rw [SSM.Ai, vblk_lowT_mulVec_castSucc, transpose_one, one_mulVec, vblk_diag_mulVec,
        vblk_diag_mulVec, transpose_neg, neg_mulVec]
      simp only [Fin.snoc_castSucc, sub_eq_add_neg]
      rfl
  · funext b
    simp only [SSM.precD, Matrix.mul_one]
    congr 2
    refine Fin.lastCases ?_ (fun k => ?_) b
    · simp
    · simp only [Fin.snoc_castSucc, transpose_mul, Matrix.mul_assoc]
      rw [← Matrix.mul_assoc _ _ (s.A k), hinvQ]
  · funext k
    simp only [SSM.precS, neg_neg]
    rw [← Matrix.mul_assoc, hinvQ]

theorem lowerTri_Ai_unpack (A : Fin n → Mat d d) (hn : 0 < n) :
    unflat (unpackBand ((n + 1) * d) (BTD.bandwidth (⟨fun _ => 1, some fun k => -A k⟩ : LowerBTD n d))
      (BTD.asBand (⟨fun _ => 1, some fun k => -A k⟩ : LowerBTD n d))) =
      denseLow (fun _ => 1) (fun k => -A k) := by
  rw [unflat_unpack]
  congr 1
  funext b
  exact LowerTri.tril_eq (fun i j hij => one_apply_ne hij.ne)

/-- From the natural parameters back to the model. -/
theorem naturalsToSSM_ok (s : SSM n d) (h : s.Nondegenerate) (hn : 0 < n) (hd : 0 < d) :
    ∃ s', naturalsToSSM (vblk (s.Pd *ᵥ stk s.mus)) (fun b => (-(1 / 2) : ℝ) • s.precD b)
        (fun k => -s.precS k) = .ok s' ∧
      s'.mu0 = s.mu0 ∧ s'.A = s.A ∧ s'.b = s.b ∧
      ∀ b, IsCholesky (s.Qc b) (s'.concatChol b) := by
  have hD : (fun b => (-2 : ℝ) • (-(1 / 2) : ℝ) • s.precD b) = s.precD := by
    funext b; rw [smul_smul]; norm_num
  have hS : (fun k => -(-s.precS k)) = s.precS := by funext k; exact neg_neg _
  have hinit : BTD.init true (fun b => (-2 : ℝ) • (-(1 / 2) : ℝ) • s.precD b)
      (some fun k => -(-s.precS k)) = .ok ⟨s.precD, some s.precS⟩ := by
    rw [hD, hS, BTD.init, if_neg (by omega)]
  obtain ⟨c, hc, hcc⟩ := SSM.precision_cholesky h hn hd
  -- the inverse band
  have hinv : (inverseFromCholeskyBand ((n + 1) * d) c.bandwidth c.asBand) =
      packBand ((n + 1) * d) ((c.toDense * c.toDenseᵀ)⁻¹) := rfl
  have hinv2 : unflat ((c.toDense * c.toDenseᵀ)⁻¹) = s.Kd := by
    rw [unflat_inv, unflat_mul, unflat_transpose, hcc, SSM.Pd_inv h]
  have hKb : ∀ b, (blk s.Kd b b).PosDef := posDef_blk (SSM.Kd_posDef h)
  have hKs : ∀ b, (blk s.Kd b b)ᵀ = blk s.Kd b b := fun b => posDef_transpose (hKb b)
  have hJ := SSM.Kd_isJointCov (s := s)
  set covBlocks := reshape23 (2 * d) d (2 * d) (transpose2 (bandToBlock d true
    (inverseFromCholeskyBand ((n + 1) * d) c.bandwidth c.asBand))) with hcb
  have hmarg : (fun b : Fin (n + 1) => (Matrix.of fun i j : Fin d => covBlocks b i j : Mat d d)) =
      fun b => blk s.Kd b b := by
    funext b
    ext i j
    have hj := j.2
    rw [of_apply, hcb, reshape23_apply _ _ _ _ (by omega)]
    simp only [transpose2, hinv, bandToBlock_diag, hinv2, symLower_eq (hKs b)]
    exact congrFun (congrFun (hKs b) i) j
  have hsub : ∀ k : Fin n, (Matrix.of fun i j : Fin d => covBlocks k.castSucc i (d + j) : Mat d d) =
      (s.A k * blk s.Kd k.castSucc k.castSucc)ᵀ := by
    intro k
    ext i j
    have hj := j.2
    rw [of_apply, hcb, reshape23_apply _ _ _ _ (by omega)]
    simp only [transpose2, hinv, bandToBlock_sub, hinv2]
    rw [hJ.cross k _ le_rfl]
    rfl
  have hsolve : seqFin (fun b : Fin (n + 1) => tfSolve (blk s.Kd b b)
      (Matrix.of fun i j : Fin d => covBlocks b i (d + j))) = .ok
      (fun b => (blk s.Kd b b)⁻¹ * (Matrix.of fun i j : Fin d => covBlocks b i (d + j))) := by
    apply seqFin_ok
    intro b
    rw [tfSolve, if_pos (isUnit_det (hKb b).isUnit)]
  have hA : (fun k : Fin n => ((blk s.Kd k.castSucc k.castSucc)⁻¹ *
      (Matrix.of fun i j : Fin d => covBlocks k.castSucc i (d + j)))ᵀ) = s.A := by
    funext k
    rw [hsub, transpose_mul, transpose_transpose, transpose_nonsing_inv, hKs, Matrix.mul_assoc,
      mul_nonsing_inv _ (isUnit_det (hKb _).isUnit), Matrix.mul_one]
  have hinit2 : BTD.init false (fun _ : Fin (n + 1) => (1 : Mat d d)) (some fun k => -s.A k) =
      .ok ⟨fun _ => 1, some fun k => -s.A k⟩ := by
    rw [BTD.init, if_neg (by omega)]
  -- conditional precisions
  have hu : IsUnit (s.Aiᵀ).det := isUnit_det (isUnit_transpose' s.isUnit_Ai)
  have hX : ∀ b : Fin (n + 1), symLower (blk ((s.Aiᵀ)⁻¹ * denseLow (fun b => tril (s.precD b)) s.precS)
      b b) = (s.Qc b)⁻¹ := by
    intro b
    -- Ai⁻ᵀ P = diag(Q⁻¹) Ai
    have hfull : (s.Aiᵀ)⁻¹ * s.Pd = denseDiag (fun b => (s.Qc b)⁻¹) * s.Ai := by
      rw [SSM.Pd, Matrix.mul_assoc, nonsing_inv_mul_cancel_left _ _ hu]
    have hblk : blk ((s.Aiᵀ)⁻¹ * s.Pd) b b = (s.Qc b)⁻¹ := by
      rw [hfull, blk_diag_mul, SSM.Ai, blk_denseLow, lowBlk_self, Matrix.mul_one]
    have hAT : ∀ k, blk (s.Aiᵀ)⁻¹ b k = (blk s.Ai⁻¹ k b)ᵀ := by
      intro k; rw [← transpose_nonsing_inv, blk_transpose]
    have hlow : ∀ i j : Fin d, j ≤ i →
        blk ((s.Aiᵀ)⁻¹ * denseLow (fun b => tril (s.precD b)) s.precS) b b i j =
        blk ((s.Aiᵀ)⁻¹ * s.Pd) b b i j := by
      intro i j hij
      rw [blk_mul, blk_mul, ← SSM.denseSym_prec h, Matrix.sum_apply, Matrix.sum_apply]
      refine Finset.sum_congr rfl fun k _ => ?_
      rcases lt_trichotomy k b with hk | rfl | hk
      · rw [hAT, SSM.Ai_inv_blk_upper hk]; simp
      · rw [hAT, SSM.Ai_inv_blk_diag, transpose_one, Matrix.one_mul, Matrix.one_mul, blk_denseLow,
          blk_denseSym, lowBlk_self, symBlk_self]
        simp [tril, hij]
      · rw [blk_denseLow, blk_denseSym, symBlk_of_gt _ _ hk,
          lowBlk_ne _ _ (s.precD) hk.ne']
    have hs : ((s.Qc b)⁻¹)ᵀ = (s.Qc b)⁻¹ := by rw [transpose_nonsing_inv, SSM.Qc_symm]
    ext i j
    simp only [symLower, of_apply]
    split_ifs with hij
    · rw [hlow i j hij, hblk]
    · rw [hlow j i (le_of_lt (not_le.1 hij)), hblk]
      exact congrFun (congrFun hs i) j
  have htmp : solveTriangBandT ((n + 1) * d)
      (BTD.bandwidth (⟨fun _ => 1, some fun k => -s.A k⟩ : LowerBTD n d))
      (BTD.bandwidth (⟨s.precD, some s.precS⟩ : SymBTD n d))
      (BTD.asBand (⟨fun _ => 1, some fun k => -s.A k⟩ : LowerBTD n d))
      (BTD.asBand (⟨s.precD, some s.precS⟩ : SymBTD n d)) = packBand ((n + 1) * d)
        (((unpackBand ((n + 1) * d) (BTD.bandwidth (⟨fun _ => 1, some fun k => -s.A k⟩ : LowerBTD n d))
          (BTD.asBand (⟨fun _ => 1, some fun k => -s.A k⟩ : LowerBTD n d)))ᵀ)⁻¹ *
        unpackBand ((n + 1) * d) (BTD.bandwidth (⟨s.precD, some s.precS⟩ : SymBTD n d))
          (BTD.asBand (⟨s.precD, some s.precS⟩ : SymBTD n d))) := rfl
  have htmp2 : unflat (((unpackBand ((n + 1) * d) (BTD.bandwidth (⟨fun _ => 1, some fun k => -s.A k⟩ : LowerBTD n d))
          (BTD.asBand (⟨fun _ => 1, some fun k => -s.A k⟩ : LowerBTD n d)))ᵀ)⁻¹ *
        unpackBand ((n + 1) * d) (BTD.bandwidth (⟨s.precD, some s.precS⟩ : SymBTD n d))
          (BTD.asBand (⟨s.precD, some s.precS⟩ : SymBTD n d))) =
        (s.Aiᵀ)⁻¹ * denseLow (fun b => tril (s.precD b)) s.precS := by
    rw [unflat_mul, unflat_inv, unflat_transpose, lowerTri_Ai_unpack _ hn, unflat_unpack]
    rfl
  set tmpBlock : T2 := fun r c => if r < d then bandToBlock d true (solveTriangBandT ((n + 1) * d)
      (BTD.bandwidth (⟨fun _ => 1, some fun k => -s.A k⟩ : LowerBTD n d))
      (BTD.bandwidth (⟨s.precD, some s.precS⟩ : SymBTD n d))
      (BTD.asBand (⟨fun _ => 1, some fun k => -s.A k⟩ : LowerBTD n d))
      (BTD.asBand (⟨s.precD, some s.precS⟩ : SymBTD n d))) r c else 0 with htb
  have hcond : (fun b : Fin (n + 1) => (Matrix.of fun i j : Fin d =>
      reshape23 d d d (transpose2 tmpBlock) b i j : Mat d d)) = fun b => (s.Qc b)⁻¹ := by
    funext b
    ext i j
    have hj := j.2
    rw [of_apply, reshape23_apply _ _ _ _ hj]
    simp only [transpose2, htb, if_pos hj, htmp, bandToBlock_diag, htmp2, hX]
    have hs : ((s.Qc b)⁻¹)ᵀ = (s.Qc b)⁻¹ := by rw [transpose_nonsing_inv, SSM.Qc_symm]
    exact congrFun (congrFun hs i) j
  obtain ⟨Lp, hLp, hLp2⟩ := seqFin_cholesky_ok (fun b => (h.Qc_posDef b).inv)
  have hcov : (fun b => cholSolve (Lp b) (1 : Mat d d)) = fun b => s.Qc b := by
    funext b
    rw [cholSolve_eq (hLp2 b), nonsing_inv_nonsing_inv _ (isUnit_det (h.Qc_posDef b).isUnit),
      Matrix.mul_one]
  obtain ⟨L, hL, hL2⟩ := seqFin_cholesky_ok (fun b => h.Qc_posDef b)
  have hpto : ∀ b, s.Qc b *ᵥ (BTD.solve (⟨fun _ => 1, some fun k => -s.A k⟩ : LowerBTD n d)
      (vblk (s.Pd *ᵥ stk s.mus)) true) b = s.concatOffsets b := by
    intro b
    have e1 : stk (BTD.solve (⟨fun _ => 1, some fun k => -s.A k⟩ : LowerBTD n d)
        (vblk (s.Pd *ᵥ stk s.mus)) true) = denseDiag (fun b => (s.Qc b)⁻¹) *ᵥ
          stk s.concatOffsets := by
      unfold BTD.solve solveTriangMat
      simp only [if_true]
      rw [stk_unflatten_mulVec, unflat_inv, unflat_transpose, lowerTri_Ai_unpack _ hn, stk_vblk]
      show (s.Aiᵀ)⁻¹ *ᵥ _ = _
      rw [SSM.Pd, mulVec_mulVec, Matrix.mul_assoc, nonsing_inv_mul_cancel_left _ _ hu,
        ← mulVec_mulVec, SSM.Ai_mus]
    have e2 := congrArg (fun v => vblk v b) e1
    simp only [vblk_stk, vblk_diag_mulVec] at e2
    rw [e2, mulVec_mulVec, mul_nonsing_inv _ (isUnit_det (h.Qc_posDef b).isUnit), one_mulVec]
  refine ⟨⟨s.concatOffsets 0, L 0, s.A, fun k => s.concatOffsets k.succ, fun k => L k.succ⟩, ?_, rfl,
    rfl, rfl, ?_⟩
  · unfold naturalsToSSM
    simp only [hinit, bind, Except.bind, hc]
    rw [← hcb]
    simp only [congrFun hmarg, hsolve, hA, congrFun hA]
    simp only [hinit2]
    rw [← htb]
    simp only [congrFun hcond, hLp, congrFun hcov, hL, hpto]
    rfl
  · intro b
    refine Fin.cases ?_ (fun k => hL2 k.succ) b
    exact hL2 0

/-- A model whose conditional precisions, transitions and offsets are read off the Schur complements
of `(D, S)` has precision `(D, S)` and information vector `l`. -/
theorem ssm_of_schur (s : SSM n d) (l : Fin (n + 1) → Vec d) (D : Fin (n + 1) → Mat d d)
    (S : Fin n → Mat d d) (hD : ∀ b, (D b)ᵀ = D b) (hP : (denseSym D S).PosDef)
    (hL2 : ∀ b, IsCholesky (schur D S b)⁻¹ (s.concatChol b))
    (hA : s.A = fun k => -schurU D S k)
    (hw : stk s.concatOffsets = denseDiag (fun b => (schur D S b)⁻¹) *ᵥ
      (((denseLow (fun _ => 1) (schurU D S))ᵀ)⁻¹ *ᵥ stk l)) :
    s.Nondegenerate ∧ (∀ b i, 0 < s.concatChol b i i) ∧ s.precD = D ∧ s.precS = S ∧
      vblk (s.Pd *ᵥ stk s.mus) = l := by
  have hsch := schur_posDef D S hP
  have hnd : s.Nondegenerate := fun b => ⟨(hL2 b).lower, fun i => ((hL2 b).diag_pos i).ne'⟩
  have hu : ∀ b, IsUnit (schur D S b).det := fun b => isUnit_det (hsch b).isUnit
  have hQ : ∀ b, s.Qc b = (schur D S b)⁻¹ := fun b => (hL2 b).mul_transpose
  have hQi : ∀ b, (s.Qc b)⁻¹ = schur D S b := fun b => by
    rw [hQ, nonsing_inv_nonsing_inv _ (hu b)]
  have hQk : ∀ k : Fin n, (s.Q k)⁻¹ = schur D S k.succ := fun k => hQi k.succ
  have hsym := schur_symm D S hD
  have hSU : ∀ k : Fin n, schur D S k.succ * schurU D S k = S k := fun k => by
    rw [schurU, mul_nonsing_inv_cancel_left _ _ (hu _)]
  have hAi : s.Ai = denseLow (fun _ => 1) (schurU D S) := by
    rw [SSM.Ai, hA]; congr 1; funext k; exact neg_neg _
  refine ⟨hnd, fun b i => (hL2 b).diag_pos i, ?_, ?_, ?_⟩
  · funext b
    rw [SSM.precD, hQi]
    refine Fin.lastCases ?_ (fun k => ?_) b
    · simp [schur_last]
    · simp only [Fin.snoc_castSucc, hQk, hA]
      rw [Matrix.mul_neg, hSU, transpose_neg, neg_mul_neg, schur_castSucc, schurU, transpose_mul,
        transpose_nonsing_inv, hsym, sub_add_cancel]
  · funext k
    rw [SSM.precS, hQk, hA]
    simp only [Matrix.mul_neg, neg_neg, hSU]
  · have hP' : s.Pd *ᵥ stk s.mus = s.Aiᵀ *ᵥ (denseDiag (fun b => (s.Qc b)⁻¹) *ᵥ
        stk s.concatOffsets) := by
      rw [SSM.Pd, ← mulVec_mulVec, ← mulVec_mulVec, SSM.Ai_mus]
    have hdd : (fun b => (s.Qc b)⁻¹) = schur D S := funext hQi
    have hcancel := SSM.denseDiag_mul_inv (D := schur D S) fun b => (hsch b).isUnit
    rw [hP', hw, hdd, mulVec_mulVec _ (denseDiag _) (denseDiag _), hcancel,
      one_mulVec, hAi, mulVec_mulVec, mul_nonsing_inv _ (isUnit_det (isUnit_transpose'
        (isUnit_low_one _))), one_mulVec]
    rfl

/-- Every natural parameter with a positive definite precision is that of a model with
positive-diagonal Cholesky factors. -/
theorem exists_ssm_of_naturals (l : Fin (n + 1) → Vec d) (D : Fin (n + 1) → Mat d d)
    (S : Fin n → Mat d d) (hD : ∀ b, (D b)ᵀ = D b) (hP : (denseSym D S).PosDef) :
    ∃ s : SSM n d, s.Nondegenerate ∧ (∀ b i, 0 < s.concatChol b i i) ∧ s.precD = D ∧ s.precS = S ∧
      vblk (s.Pd *ᵥ stk s.mus) = l := by
  choose L hL hL2 using fun b => tfCholesky_posDef (schur_posDef D S hP b).inv
  set w : Fin (n + 1) → Vec d := vblk (denseDiag (fun b => (schur D S b)⁻¹) *ᵥ
    (((denseLow (fun _ => 1) (schurU D S))ᵀ)⁻¹ *ᵥ stk l)) with hw
  refine ⟨⟨w 0, L 0, fun k => -schurU D S k, fun k => w k.succ, fun k => L k.succ⟩,
    ssm_of_schur _ l D S hD hP ?_ rfl ?_⟩
  · intro b; exact Fin.cases (hL2 0) (fun k => hL2 k.succ) b
  · have hco : SSM.concatOffsets (⟨w 0, L 0, fun k => -schurU D S k, fun k => w k.succ,
        fun k => L k.succ⟩ : SSM n d) = w := by
      funext b; exact Fin.cases rfl (fun k => rfl) b
    rw [hco, hw, stk_vblk]

theorem naturalsToSSM_congr {l l' : Fin (n + 1) → Vec d} {D D' : Fin (n + 1) → Mat d d}
    {S S' : Fin n → Mat d d} (h1 : l = l') (h2 : D = D') (h3 : S = S') :
    naturalsToSSM l D S = naturalsToSSM l' D' S' := by subst h1 h2 h3; rfl

/-! ### no smoothing -/

theorem ssmToNaturalsNoSmoothing_eq (s : SSM n d) (h : s.Nondegenerate) :
    ssmToNaturalsNoSmoothing s = (fun b => (s.Qc b)⁻¹ *ᵥ s.concatOffsets b,
      fun b => (-(1 / 2) : ℝ) • (s.Qc b)⁻¹, fun k => (s.Q k)⁻¹ * s.A k) := by
  unfold ssmToNaturalsNoSmoothing
  simp only [h.colsolve]
  simp only [h.cholSolve_eq, Matrix.mul_one]
  rfl

theorem naturalsToSSMNoSmoothing_ok (l : Fin (n + 1) → Vec d) (D : Fin (n + 1) → Mat d d)
    (S : Fin n → Mat d d) (hD : ∀ b, ((-2 : ℝ) • D b).PosDef) :
    ∃ s, naturalsToSSMNoSmoothing l D S = .ok s ∧
      (∀ b, IsCholesky ((-2 : ℝ) • D b)⁻¹ (s.concatChol b)) ∧
      (∀ b, s.concatOffsets b = ((-2 : ℝ) • D b)⁻¹ *ᵥ l b) ∧
      ∀ k, s.A k = ((-2 : ℝ) • D k.succ)⁻¹ * S k := by
  obtain ⟨P, hP, hP2⟩ := seqFin_cholesky_ok hD
  obtain ⟨C, hC, hC2⟩ := seqFin_cholesky_ok (fun b => (hD b).inv)
  refine ⟨⟨((-2 : ℝ) • D 0)⁻¹ *ᵥ l 0, C 0, fun k => ((-2 : ℝ) • D k.succ)⁻¹ * S k,
    fun k => ((-2 : ℝ) • D k.succ)⁻¹ *ᵥ l k.succ, fun k => C k.succ⟩, ?_, ?_, ?_, ?_⟩
  · unfold naturalsToSSMNoSmoothing
    simp only [hP, bind, Except.bind, colsolve_eq (hP2 _)]
    simp only [cholSolve_eq (hP2 _), Matrix.mul_one, hC]
    rfl
  · intro b; exact Fin.cases (hC2 0) (fun k => hC2 k.succ) b
  · intro b; exact Fin.cases rfl (fun k => rfl) b
  · intro k; rfl

theorem naturalsToSSMNoSmoothing_error (l : Fin (n + 1) → Vec d) (D : Fin (n + 1) → Mat d d)
    (S : Fin n → Mat d d) (hs : ∀ b, (D b)ᵀ = D b) (hD : ∃ b, ¬ ((-2 : ℝ) • D b).PosDef) :
    naturalsToSSMNoSmoothing l D S = .error .invalidArgument := by
  unfold naturalsToSSMNoSmoothing
  rw [seqFin_cholesky_error (fun b => by rw [transpose_smul, hs]) hD]
  rfl

theorem naturalsToSSM_error (l : Fin (n + 1) → Vec d) (D : Fin (n + 1) → Mat d d)
    (S : Fin n → Mat d d) (hn : 0 < n) (hs : ∀ b, (D b)ᵀ = D b)
    (hP : ¬ (denseSym (fun b => (-2 : ℝ) • D b) (fun k => -S k)).PosDef) :
    naturalsToSSM l D S = .error .invalidArgument := by
  unfold naturalsToSSM
  rw [BTD.init, if_neg (by omega)]
  simp only [bind, Except.bind]
  rw [cholesky_error]
  rw [← posDef_unflat, unflat_toDense_sym]
  have : (fun b => symLower ((-2 : ℝ) • D b)) = fun b => (-2 : ℝ) • D b := by
    funext b; exact symLower_eq (by rw [transpose_smul, hs])
  simp only [this]
  exact hP

end MF
