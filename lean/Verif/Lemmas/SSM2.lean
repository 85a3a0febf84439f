import Verif.Lemmas.SSM
import Verif.Lemmas.GaussKL

namespace MF
open Matrix Spec

variable {n d : ℕ}

theorem trace_blk {N e : ℕ} (M : Matrix (Fin N × Fin e) (Fin N × Fin e) ℝ) :
    M.trace = ∑ b, (blk M b b).trace := by
  simp only [trace, diag_apply, Fintype.sum_prod_type, blk, of_apply]

theorem sum_mul_eq_trace {e e' : ℕ} (X : Mat e e') (Y : Mat e e') :
    ∑ i, ∑ j, X i j * Y i j = (X * Yᵀ).trace := by
  simp only [trace, diag_apply, Matrix.mul_apply, transpose_apply]

/-- The trace of a symmetric block tri-diagonal matrix times a symmetric one. -/
theorem trace_denseSym_mul (D : Fin (n + 1) → Mat d d) (S : Fin n → Mat d d)
    (hD : ∀ b, (D b)ᵀ = D b) (K : Matrix (Ix n d) (Ix n d) ℝ) (hK : Kᵀ = K) :
    (denseSym D S * K).trace = (∑ b, ∑ i, ∑ j, D b i j * blk K b b i j)
      + 2 * ∑ k, ∑ i, ∑ j, S k i j * blk K k.succ k.castSucc i j := by
  have hKb : ∀ b c, (blk K b c)ᵀ = blk K c b := by
    intro b c; conv_rhs => rw [← hK, blk_transpose]
  have hlow : (denseLow D S * K).trace = (∑ b, (D b * blk K b b).trace) +
      ∑ k, (S k * blk K k.castSucc k.succ).trace := by
    rw [trace_blk, Fin.sum_univ_succ, blk_low_mul_zero,
      Fin.sum_univ_succ (fun b => (D b * blk K b b).trace), add_assoc, ← Finset.sum_add_distrib]
    congr 1
    apply Finset.sum_congr rfl
    intro k _
    rw [blk_low_mul_succ, trace_add]
  have hlowT : ((denseLow D S)ᵀ * K).trace = (denseLow D S * K).trace := by
    rw [← trace_transpose, transpose_mul, transpose_transpose, hK, trace_mul_comm]
  have hdiag : (denseDiag D * K).trace = ∑ b, (D b * blk K b b).trace := by
    rw [trace_blk]
    apply Finset.sum_congr rfl
    intro b _
    rw [blk_diag_mul]
  rw [denseSym_eq D S hD, Matrix.sub_mul, Matrix.add_mul, trace_sub, trace_add, hlowT, hlow, hdiag]
  simp only [sum_mul_eq_trace, hKb]
  ring

theorem det_denseDiag (D : Fin (n + 1) → Mat d d) : (denseDiag D).det = ∏ b, (D b).det := by
  have : denseDiag D = (blockDiagonal D).submatrix Prod.swap Prod.swap := by
    ext ⟨b, i⟩ ⟨c, j⟩
    simp only [denseDiag, ofBlk, of_apply, submatrix_apply, Prod.swap_prod_mk, blockDiagonal_apply]
    split_ifs <;> rfl
  rw [this]
  have h2 := det_submatrix_equiv_self (Equiv.prodComm (Fin (n + 1)) (Fin d)) (blockDiagonal D)
  rw [← det_blockDiagonal, ← h2]
  rfl

namespace SSM
variable {s : SSM n d}

theorem marginalCovariances_eq (h : s.Nondegenerate) (hn : 0 < n) (hd : 0 < d) :
    s.marginalCovariances = .ok (fun b => blk s.Kd b b) := by
  obtain ⟨c, hc, hcc⟩ := precision_cholesky h hn hd
  unfold marginalCovariances
  rw [precision_eq h hn]
  simp only [bind, Except.bind, hc, pure, Except.pure]
  congr 1
  funext b
  rw [BTD.blockDiagonalOfInverse_eq, hcc, Pd_inv h]

theorem covs_isCovs : IsCovs s.initialCovariance s.A s.Q (fun b => blk s.Kd b b) :=
  ⟨Kd_isJointCov.zero, Kd_isJointCov.succ⟩

theorem subsequent_eq (k : Fin n) :
    s.subsequentCovariances (fun b => blk s.Kd b b) k = blk s.Kd k.succ k.castSucc := by
  rw [Kd_isJointCov.cross k _ le_rfl]; rfl

theorem det_Kd : s.Kd.det = ∏ b, (s.Qc b).det := by
  have hA : (s.Ai⁻¹).det = 1 := by
    have := congrArg det (nonsing_inv_mul _ (isUnit_det s.isUnit_Ai))
    rwa [det_mul, det_one, s.det_Ai, mul_one] at this
  rw [Kd, det_mul, det_mul, det_transpose, hA, det_denseDiag]
  ring

theorem logdet_Kd (h : s.Nondegenerate) : Real.log s.Kd.det = -s.logDetPrecision := by
  rw [det_Kd, Real.log_prod (fun b _ => (h.Qc_posDef b).det_pos.ne'), logDetPrecision, neg_neg,
    Fin.sum_univ_succ]
  have hb : ∀ b, Real.log (s.Qc b).det = ∑ i, Real.log ((s.concatChol b i i) ^ 2) := by
    intro b
    rw [Qc, det_mul, det_transpose, (h b).1.det, ← Finset.prod_mul_distrib, Real.log_prod]
    · simp only [sq]
    · intro i _; exact mul_self_ne_zero.2 ((h b).2 i)
  simp only [hb]
  rfl

theorem logdet_Pd (h : s.Nondegenerate) : Real.log s.Pd.det = s.logDetPrecision := by
  have : s.Pd.det = s.Kd.det⁻¹ := by
    rw [← Kd_inv h, det_nonsing_inv, Ring.inverse_eq_inv']
  rw [this, Real.log_inv, logdet_Kd h, neg_neg]

theorem mahalanobis_eq (h : s.Nondegenerate) {c : LowerBTD n d}
    (hc : unflat c.toDense * (unflat c.toDense)ᵀ = s.Pd) (v : Fin (n + 1) → Vec d) :
    ∑ b, ∑ i, c.denseMult v true b i * c.denseMult v true b i = stk v ⬝ᵥ (s.Pd *ᵥ stk v) := by
  have h1 : stk (c.denseMult v true) = (unflat c.toDense)ᵀ *ᵥ stk v := by
    unfold BTD.denseMult productBandMat
    exact stk_unflatten_mulVec _ _
  have h2 : ∑ b, ∑ i, c.denseMult v true b i * c.denseMult v true b i =
      stk (c.denseMult v true) ⬝ᵥ stk (c.denseMult v true) := by
    rw [dotProduct_blk]; rfl
  rw [h2, h1, ← hc, ← mulVec_mulVec, dotProduct_mulVec (stk v), ← mulVec_transpose]

theorem kl_eq {s t : SSM n d} (hs : s.Nondegenerate) (ht : t.Nondegenerate) (hn : 0 < n)
    (hd : 0 < d) :
    s.klDivergence t = .ok (gaussKL (stk s.mus) s.Kd (stk t.mus) t.Kd) := by
  obtain ⟨c, hc, hcc⟩ := precision_cholesky ht hn hd
  unfold klDivergence
  rw [marginalCovariances_eq hs hn hd, precision_eq ht hn, marginalMeans_eq hn, marginalMeans_eq hn]
  simp only [bind, Except.bind, hc, pure, Except.pure]
  congr 1
  rw [mahalanobis_eq ht hcc]
  have hsub : s.subsequentCovariances (fun b => blk s.Kd b b) =
      fun k => blk s.Kd k.succ k.castSucc := by
    funext k; exact subsequent_eq k
  rw [hsub, Option.getD_some]
  have htr := trace_denseSym_mul t.precD t.precS precD_symm s.Kd Kd_symm
  rw [denseSym_prec ht] at htr
  rw [← htr, gaussKL, Kd_inv ht, logdet_Kd hs, logdet_Kd ht]
  have hcard : Fintype.card (Ix n d) = (n + 1) * d := by simp [Ix]
  rw [hcard]
  rw [show stk (fun b => t.mus b - s.mus b) = stk t.mus - stk s.mus from rfl]
  ring

/-- Two models define the same chain distribution. -/
theorem normalizer_eq (h : s.Nondegenerate) (hn : 0 < n) (hd : 0 < d) :
    s.normalizer = .ok ((1 / 2) * (((n + 1) * d : ℕ) * Real.log (2 * Real.pi) - s.logDetPrecision
      + stk s.mus ⬝ᵥ (s.Pd *ᵥ stk s.mus))) := by
  obtain ⟨c, hc, hcc⟩ := precision_cholesky h hn hd
  unfold normalizer marginals
  rw [marginalCovariances_eq h hn hd, precision_eq h hn, marginalMeans_eq hn]
  simp only [bind, Except.bind, hc, pure, Except.pure]
  rw [mahalanobis_eq h hcc, sub_eq_add_neg]

/-- `log_pdf` as a quadratic form. -/
theorem logPdf_eq (h : s.Nondegenerate) (x : Fin (n + 1) → Vec d) :
    s.logPdf x = gaussLogDensity (stk s.mus) s.Kd (stk x) := by
  -- residual r = Ai (x - μ)
  set r := s.Ai *ᵥ (stk x - stk s.mus) with hr
  have hr' : r = s.Ai *ᵥ stk x - stk s.concatOffsets := by
    rw [hr, mulVec_sub, Ai_mus]
  have hfac : ∀ b, s.logPdfFactors x b =
      (-1 / 2) * (vblk r b ⬝ᵥ ((s.Qc b)⁻¹ *ᵥ vblk r b)) - (d / 2) * Real.log (2 * Real.pi)
        - ∑ i, Real.log (abs (s.concatChol b i i)) := by
    have hmvn : ∀ (b : Fin (n + 1)) (loc y : Vec d), mvnTriLLogProb loc (s.concatChol b) y =
        (-1 / 2) * ((y - loc) ⬝ᵥ ((s.Qc b)⁻¹ *ᵥ (y - loc))) - (d / 2) * Real.log (2 * Real.pi)
        - ∑ i, Real.log (abs (s.concatChol b i i)) := by
      intro b loc y
      unfold mvnTriLLogProb
      rw [(h b).1.tril_eq]
      have : (s.Qc b)⁻¹ = ((s.concatChol b)⁻¹)ᵀ * (s.concatChol b)⁻¹ := by
        rw [Qc, Matrix.mul_inv_rev, transpose_nonsing_inv]
      simp only
      rw [this, ← mulVec_mulVec, dotProduct_mulVec (y - loc), vecMul_transpose]
    intro b
    refine Fin.cases ?_ (fun k => ?_) b
    · have hb : vblk r 0 = x 0 - s.mu0 := by
        rw [hr', vblk_sub, Ai, vblk_low_mulVec_zero, one_mulVec, vblk_stk, vblk_stk]; rfl
      rw [hb, ← hmvn]; rfl
    · have hb : vblk r k.succ = x k.succ - (s.A k *ᵥ x k.castSucc + s.b k) := by
        rw [hr', vblk_sub, Ai, vblk_low_mulVec_succ, one_mulVec, vblk_stk, vblk_stk, vblk_stk,
          neg_mulVec]
        show x k.succ + -(s.A k *ᵥ x k.castSucc) - s.b k = _
        abel
      rw [hb, ← hmvn]; rfl
  have hq : ∑ b, vblk r b ⬝ᵥ ((s.Qc b)⁻¹ *ᵥ vblk r b) =
      (stk x - stk s.mus) ⬝ᵥ (s.Pd *ᵥ (stk x - stk s.mus)) := by
    have : (stk x - stk s.mus) ⬝ᵥ (s.Pd *ᵥ (stk x - stk s.mus)) =
        r ⬝ᵥ (denseDiag (fun b => (s.Qc b)⁻¹) *ᵥ r) := by
      rw [Pd, ← mulVec_mulVec, ← mulVec_mulVec, dotProduct_mulVec (stk x - stk s.mus),
        vecMul_transpose]
    rw [this, dotProduct_blk]
    simp only [vblk_diag_mulVec]
  have hld : ∑ b, ∑ i, Real.log (abs (s.concatChol b i i)) = (1 / 2) * Real.log s.Kd.det := by
    rw [logdet_Kd h, logDetPrecision, neg_neg, Fin.sum_univ_succ]
    have e : ∀ y : ℝ, Real.log (y ^ 2) = 2 * Real.log (abs y) := by
      intro y; rw [Real.log_pow, Real.log_abs]; norm_num
    simp only [e, ← Finset.mul_sum]
    simp only [concatChol, Fin.cons_zero, Fin.cons_succ]
    ring
  unfold logPdf gaussLogDensity
  simp only [hfac]
  rw [Finset.sum_sub_distrib, Finset.sum_sub_distrib, ← Finset.mul_sum, hq, hld, Kd_inv h]
  have hcard : Fintype.card (Ix n d) = (n + 1) * d := by simp [Ix]
  rw [hcard, Finset.sum_const, Finset.card_univ, Fintype.card_fin, nsmul_eq_mul]
  push_cast
  ring

/-- The means are determined by the recursion; two nondegenerate chains agree in law iff mean and
covariance agree. -/
theorem mus_Kd_ext {s t : SSM n d} :
    (stk s.mus = stk t.mus ∧ s.Kd = t.Kd) ↔ (s.mus = t.mus ∧ s.Kd = t.Kd) :=
  ⟨fun h => ⟨stk_injective h.1, h.2⟩, fun h => ⟨by rw [h.1], h.2⟩⟩

theorem sample_eq (hn : 0 < n) (eps : Fin (n + 1) → Vec d) :
    ∃ x, s.sample eps = .ok x ∧
      stk x = stk s.mus + (s.Ai⁻¹ * denseDiag s.concatChol) *ᵥ stk eps := by
  obtain ⟨a, ha, hs⟩ := solve_aInv (s := s) hn (fun k => s.concatOffsets k + s.concatChol k *ᵥ eps k)
  refine ⟨a.solve (fun k => s.concatOffsets k + s.concatChol k *ᵥ eps k), ?_, ?_⟩
  · unfold sample
    rw [ha]
    rfl
  · rw [hs, stk_add, mulVec_add, stk_mus, ← mulVec_mulVec]
    congr 2
    apply vblk_ext
    intro b
    rw [vblk_diag_mulVec]
    rfl

end SSM
end MF
