import Verif.Lemmas.NatGradPath
import Verif.Lemmas.CVINatGrad
import Verif.Lemmas.HyperGrad
import Verif.Lemmas.SparseCVI

/-!
# The expectation parameters along a straight line of natural parameters

The derivative of the expectation parameters in the direction `h` of the natural parameters pairs positively with `h` (positive definiteness of the
Fisher information).
-/

namespace MF
open Matrix Spec MeasureTheory ProbabilityTheory InformationTheory Topology Filter
variable {n d : ℕ}

/-- Moments of a Gaussian as expectation parameters. -/
def momPar (m : Ix n d → ℝ) (C : Matrix (Ix n d) (Ix n d) ℝ) : ExpPar n d :=
  (unstk m, fun b => blk C b b, fun k => blk C k.succ k.castSucc)

theorem expPar_eq_momPar (s : SSM n d) : expPar s = momPar (stk s.mus) (s.Kd + vecMulVec (stk s.mus) (stk s.mus)) := rfl

theorem symDiag_momPar {m : Ix n d → ℝ} {C : Matrix (Ix n d) (Ix n d) ℝ} (hC : Cᵀ = C) : SymDiag (momPar m C) := fun b => by
  show (blk C b b)ᵀ = blk C b b
  rw [← blk_transpose, hC]

/-- The dense precision that natural parameters encode. -/
def denseOf (h : ExpPar n d) : Matrix (Ix n d) (Ix n d) ℝ := denseSym (fun b => (-2 : ℝ) • h.2.1 b) fun k => -h.2.2 k

theorem denseOf_symm {h : ExpPar n d} (hh : SymDiag h) : (denseOf h)ᵀ = denseOf h :=
  denseSym_isSymm fun b => by rw [transpose_smul, hh b]

theorem denseOf_add_smul (θ h : ExpPar n d) (t : ℝ) : denseOf (θ + t • h) = denseOf θ + t • denseOf h := by
  have := denseSym_sub_smul (fun b => (-2 : ℝ) • θ.2.1 b) (fun b => (-2 : ℝ) • h.2.1 b) (fun k => -θ.2.2 k) (fun k => -h.2.2 k) (-t)
  rw [neg_smul, sub_neg_eq_add] at this
  unfold denseOf
  rw [← this]
  congr 1
  · funext b
    show (-2 : ℝ) • (θ.2.1 b + t • h.2.1 b) = _
    rw [neg_smul t, sub_neg_eq_add, smul_add, smul_comm]
  · funext k
    show -(θ.2.2 k + t • h.2.2 k) = _
    rw [neg_smul, sub_neg_eq_add, smul_neg, neg_add]

theorem denseOf_naturals {s : SSM n d} (hs : s.Nondegenerate) : denseOf (ssmToNaturals s) = s.Pd := by
  rw [ssmToNaturals_eq s hs, ← SSM.denseSym_prec hs]
  unfold denseOf
  congr 1
  · funext b
    show (-2 : ℝ) • ((-(1 / 2) : ℝ) • s.precD b) = _
    rw [smul_smul]; norm_num
  · funext k
    exact neg_neg _

theorem pairing_momPar {h : ExpPar n d} (hh : SymDiag h) (m : Ix n d → ℝ) {C : Matrix (Ix n d) (Ix n d) ℝ} (hC : Cᵀ = C) :
    pairing h (momPar m C) = stk h.1 ⬝ᵥ m - (1 / 2) * (denseOf h * C).trace := by
  unfold denseOf
  rw [trace_denseSym_mul _ _ (fun b => by rw [transpose_smul, hh b]) C hC]
  have e1 : stk h.1 ⬝ᵥ m = ∑ b, ∑ i, h.1 b i * unstk m b i := by
    simp only [dotProduct, Fintype.sum_prod_type]; rfl
  rw [e1]
  simp only [pairing, momPar, Matrix.smul_apply, smul_eq_mul, Matrix.neg_apply, neg_mul, Finset.sum_neg_distrib, mul_assoc, ← Finset.mul_sum]
  ring

theorem denseOf_eq_zero {h : ExpPar n d} (h0 : denseOf h = 0) : h.2 = 0 := by
  have hb : ∀ b c, symBlk (fun b => (-2 : ℝ) • h.2.1 b) (fun k => -h.2.2 k) b c = 0 := fun b c => by
    rw [← blk_denseSym]
    show blk (denseOf h) b c = 0
    rw [h0]; rfl
  refine Prod.ext ?_ ?_
  · funext b
    have := hb b b
    simp only [symBlk, if_true] at this
    rcases smul_eq_zero.1 this with h | h
    · norm_num at h
    · exact h
  · funext k
    have := hb k.succ k.castSucc
    have hne : k.succ ≠ k.castSucc := (Fin.castSucc_lt_succ (i := k)).ne'
    simp [symBlk, hne] at this
    exact this

/-- The Fisher information is positive definite. -/
theorem fisher_pos {q : SSM n d} (hq : q.Nondegenerate) {h : ExpPar n d} (hh : SymDiag h) (hne : h ≠ 0) {u : Ix n d → ℝ}
    (hu : u = stk h.1 - denseOf h *ᵥ stk q.mus) :
    0 < u ⬝ᵥ (q.Kd *ᵥ u) + (1 / 2) * (denseOf h * q.Kd * (denseOf h * q.Kd)).trace := by
  have hK := SSM.Kd_posDef hq
  set D := denseOf h with hD
  have hDs : Dᵀ = D := denseOf_symm hh
  obtain ⟨B, hB⟩ : ∃ B : Matrix (Ix n d) (Ix n d) ℝ, q.Kd = B * Bᵀ := ⟨_, SSM.Kd_eq_mul_transpose⟩
  have ht : (D * q.Kd * (D * q.Kd)).trace = ∑ i, ∑ j, ((Bᵀ * D * B) i j) ^ 2 := by
    have e : (D * q.Kd * (D * q.Kd)).trace = ((Bᵀ * D * B) * (Bᵀ * D * B)ᵀ).trace := by
      have : (Bᵀ * D * B)ᵀ = Bᵀ * D * B := by
        rw [transpose_mul, transpose_mul, transpose_transpose, hDs, Matrix.mul_assoc]
      rw [this, hB]
      have : D * (B * Bᵀ) * (D * (B * Bᵀ)) = (D * B * (Bᵀ * D * B)) * Bᵀ := by simp only [Matrix.mul_assoc]
      rw [this, trace_mul_comm]
      simp only [Matrix.mul_assoc]
    rw [e]
    simp only [trace, diag_apply, Matrix.mul_apply, transpose_apply, sq]
  have h1 : 0 ≤ u ⬝ᵥ (q.Kd *ᵥ u) := by
    have := hK.posSemidef.dotProduct_mulVec_nonneg u
    rwa [star_trivial] at this
  have h2 : 0 ≤ ∑ i, ∑ j, ((Bᵀ * D * B) i j) ^ 2 := Finset.sum_nonneg fun i _ => Finset.sum_nonneg fun j _ => sq_nonneg _
  rw [ht]
  by_contra hcon
  have z2 : ∑ i, ∑ j, ((Bᵀ * D * B) i j) ^ 2 = 0 := by linarith
  have z1 : u ⬝ᵥ (q.Kd *ᵥ u) = 0 := by linarith
  have hBDB : Bᵀ * D * B = 0 := by
    ext i j
    have := (Finset.sum_eq_zero_iff_of_nonneg (fun i _ => Finset.sum_nonneg fun j _ => sq_nonneg _)).1 z2 i (Finset.mem_univ i)
    have := (Finset.sum_eq_zero_iff_of_nonneg (fun j _ => sq_nonneg _)).1 this j (Finset.mem_univ j)
    exact pow_eq_zero_iff two_ne_zero |>.1 this
  have hKDK : q.Kd * D * q.Kd = 0 := by
    rw [hB]
    have : B * Bᵀ * D * (B * Bᵀ) = B * (Bᵀ * D * B) * Bᵀ := by simp only [Matrix.mul_assoc]
    rw [this, hBDB, Matrix.mul_zero, Matrix.zero_mul]
  have hdet : IsUnit q.Kd.det := isUnit_det hK.isUnit
  have hD0 : D = 0 := by
    have := congrArg (fun M => q.Kd⁻¹ * M * q.Kd⁻¹) hKDK
    simp only [Matrix.mul_zero, Matrix.zero_mul] at this
    rw [← this, ← Matrix.mul_assoc, ← Matrix.mul_assoc, nonsing_inv_mul _ hdet, Matrix.one_mul, Matrix.mul_assoc,
      mul_nonsing_inv _ hdet, Matrix.mul_one]
  have hu0 : u = 0 := by
    by_contra hne'
    have := hK.dotProduct_mulVec_pos hne'
    rw [star_trivial] at this
    linarith
  rw [hD0, zero_mulVec, sub_zero] at hu
  refine hne (Prod.ext ?_ (denseOf_eq_zero hD0))
  funext b i
  have := congrFun (hu.symm.trans hu0) (b, i)
  exact this

/-- Positive definiteness along a line of matrices. -/
theorem posDef_line {ι : Type*} [Fintype ι] [DecidableEq ι] {M D : Matrix ι ι ℝ} (hM : M.PosDef) (hD : Dᵀ = D) :
    ∀ᶠ t : ℝ in 𝓝 0, (M + t • D).PosDef := by
  let e := Fintype.equivFin ι
  have hMt : Mᵀ = M := posDef_transpose hM
  have h0 : ((M + (0 : ℝ) • D).submatrix e.symm e.symm).PosDef := by
    rw [zero_smul, add_zero]
    exact hM.submatrix e.symm.injective
  have hc : ContinuousAt (fun t : ℝ => (M + t • D).submatrix e.symm e.symm) 0 := by
    have : Continuous fun t : ℝ => (M + t • D).submatrix e.symm e.symm := by
      refine continuous_matrix fun i j => ?_
      simp only [submatrix_apply, Matrix.add_apply, Matrix.smul_apply, smul_eq_mul]
      fun_prop
    exact this.continuousAt
  have := posDef_eventually hc (fun t => by
    rw [transpose_submatrix, transpose_add, transpose_smul, hD, hMt]) h0
  refine this.mono fun t ht => ?_
  have := ht.submatrix e.injective
  rwa [submatrix_submatrix, Equiv.symm_comp_self, submatrix_id_id] at this

/-- The expectation parameters along a line of natural parameters. -/
theorem naturals_line {q : SSM n d} (hq : q.Nondegenerate) {h : ExpPar n d} (hh : SymDiag h) :
    ∃ (c : ℝ → ExpPar n d) (c' : ExpPar n d), c 0 = expPar q ∧ (∀ t, SymDiag (c t)) ∧ HasVelocity c c' ∧
      (h ≠ 0 → 0 < pairing h c') ∧ (∀ᶠ t : ℝ in 𝓝 0, ProperNaturals (ssmToNaturals q + t • h)) ∧
      ∀ (t : ℝ) (s : SSM n d), s.Nondegenerate → ssmToNaturals s = ssmToNaturals q + t • h → expPar s = c t := by
  set D := denseOf h with hD
  have hDs : Dᵀ = D := denseOf_symm hh
  set θ := ssmToNaturals q with hθ
  set Λ : ℝ → Matrix (Ix n d) (Ix n d) ℝ := fun t => q.Pd + t • D with hΛ
  have hΛ' : ∀ t, denseOf (θ + t • h) = Λ t := fun t => by rw [denseOf_add_smul, denseOf_naturals hq]
  have hK := SSM.Kd_posDef hq
  have hPd : q.Pd.PosDef := by rw [← SSM.Kd_inv hq]; exact hK.inv
  have hPi : q.Pd⁻¹ = q.Kd := by rw [← SSM.Kd_inv hq, nonsing_inv_nonsing_inv _ (isUnit_det hK.isUnit)]
  have hKs : q.Kdᵀ = q.Kd := posDef_transpose hK
  have hsym : ∀ t, ((Λ t)⁻¹)ᵀ = (Λ t)⁻¹ := fun t => by
    rw [transpose_nonsing_inv, hΛ]
    beta_reduce
    rw [transpose_add, transpose_smul, hDs, posDef_transpose hPd]
  set m : ℝ → Ix n d → ℝ := fun t => (Λ t)⁻¹ *ᵥ stk (θ + t • h).1 with hm
  set u : Ix n d → ℝ := stk h.1 - D *ᵥ stk q.mus with hu
  have h0 : Λ 0 = q.Pd := by rw [hΛ]; beta_reduce; rw [zero_smul, add_zero]
  have hθ1 : stk θ.1 = q.Pd *ᵥ stk q.mus := by
    rw [hθ, ssmToNaturals_eq q hq]; rfl
  have hm0 : m 0 = stk q.mus := by
    rw [hm]
    beta_reduce
    rw [h0, hPi, zero_smul, add_zero, hθ1, mulVec_mulVec, ← SSM.Kd_inv hq, mul_nonsing_inv _ (isUnit_det hK.isUnit), one_mulVec]
  -- derivatives
  have dΛ : ∀ i j, HasDerivAt (fun t => Λ t i j) (D i j) 0 := fun i j => by
    have : HasDerivAt (fun t : ℝ => q.Pd i j + t * D i j) (D i j) 0 := by
      simpa using ((hasDerivAt_id (0 : ℝ)).mul_const (D i j)).const_add (q.Pd i j)
    exact this
  have dK : ∀ i j, HasDerivAt (fun t => (Λ t)⁻¹ i j) ((-(q.Kd * D * q.Kd)) i j) 0 := fun i j => by
    have := hasDeriv_matrix_inv dΛ (by rw [h0]; exact (isUnit_det hPd.isUnit).ne_zero) i j
    rwa [h0, hPi] at this
  have dθ : ∀ j, HasDerivAt (fun t : ℝ => stk (θ + t • h).1 j) (stk h.1 j) 0 := fun j => by
    have : HasDerivAt (fun t : ℝ => stk θ.1 j + t * stk h.1 j) (stk h.1 j) 0 := by
      simpa using ((hasDerivAt_id (0 : ℝ)).mul_const (stk h.1 j)).const_add (stk θ.1 j)
    exact this
  have dm : ∀ i, HasDerivAt (fun t => m t i) ((q.Kd *ᵥ u) i) 0 := fun i => by
    have := HasDerivAt.fun_sum (u := Finset.univ) fun j _ => (dK i j).fun_mul (dθ j)
    refine HasDerivAt.congr_deriv this ?_
    rw [h0, hPi, zero_smul, add_zero]
    have e : q.Kd *ᵥ u = (-(q.Kd * D * q.Kd)) *ᵥ stk θ.1 + q.Kd *ᵥ stk h.1 := by
      have e2 : q.Kd * D * q.Kd * q.Pd = q.Kd * D := by
        rw [← SSM.Kd_inv hq, Matrix.mul_assoc, mul_nonsing_inv _ (isUnit_det hK.isUnit), Matrix.mul_one]
      rw [hu, mulVec_sub, neg_mulVec, hθ1, mulVec_mulVec _ _ q.Pd, e2, mulVec_mulVec]
      abel
    rw [e]
    simp only [Pi.add_apply, mulVec, dotProduct, ← Finset.sum_add_distrib]
  set C' : Matrix (Ix n d) (Ix n d) ℝ := -(q.Kd * D * q.Kd) + (vecMulVec (q.Kd *ᵥ u) (stk q.mus) + vecMulVec (stk q.mus) (q.Kd *ᵥ u)) with hC'
  have dC : ∀ i j, HasDerivAt (fun t => ((Λ t)⁻¹ + vecMulVec (m t) (m t)) i j) (C' i j) 0 := fun i j => by
    have := (dK i j).fun_add ((dm i).fun_mul (dm j))
    refine HasDerivAt.congr_deriv this ?_
    rw [hm0]
    simp only [hC', Matrix.add_apply, vecMulVec_apply]
  refine ⟨fun t => momPar (m t) ((Λ t)⁻¹ + vecMulVec (m t) (m t)), momPar (q.Kd *ᵥ u) C', ?_, ?_, ⟨fun b i => dm (b, i), fun b i j => dC _ _,
    fun k i j => dC _ _⟩, ?_, ?_, ?_⟩
  · rw [expPar_eq_momPar]
    beta_reduce
    rw [hm0, h0, hPi]
  · exact fun t => symDiag_momPar (by rw [transpose_add, hsym, transpose_vecMulVec])
  · intro hne
    have hCs : C'ᵀ = C' := by
      rw [hC', transpose_add, transpose_neg, transpose_mul, transpose_mul, hKs, hDs, transpose_add, transpose_vecMulVec, transpose_vecMulVec,
        Matrix.mul_assoc, add_comm (vecMulVec (stk q.mus) _)]
    rw [pairing_momPar hh _ hCs, ← hD]
    have := fisher_pos hq hh hne hu
    rw [← hD] at this
    have e : (D * C').trace = -(D * q.Kd * (D * q.Kd)).trace + 2 * (stk q.mus ⬝ᵥ (D *ᵥ (q.Kd *ᵥ u))) := by
      rw [hC', Matrix.mul_add, Matrix.mul_add, trace_add, trace_add, Matrix.mul_neg, trace_neg, mul_vecMulVec, mul_vecMulVec,
        trace_vecMulVec, trace_vecMulVec]
      have e1 : D *ᵥ stk q.mus ⬝ᵥ q.Kd *ᵥ u = stk q.mus ⬝ᵥ (D *ᵥ (q.Kd *ᵥ u)) := by
        rw [dotProduct_mulVec (stk q.mus), ← mulVec_transpose, hDs]
      rw [e1, dotProduct_comm (D *ᵥ q.Kd *ᵥ u)]
      have e2 : D * (q.Kd * D * q.Kd) = D * q.Kd * (D * q.Kd) := by simp only [Matrix.mul_assoc]
      rw [e2]
      ring
    have e3 : u ⬝ᵥ (q.Kd *ᵥ u) = stk h.1 ⬝ᵥ q.Kd *ᵥ u - stk q.mus ⬝ᵥ (D *ᵥ (q.Kd *ᵥ u)) := by
      conv_lhs => rw [hu, sub_dotProduct]
      rw [← hu]
      congr 1
      rw [dotProduct_mulVec (stk q.mus), ← mulVec_transpose, hDs]
    rw [e]
    linarith
  · refine (posDef_line hPd hDs).mono fun t ht => ?_
    have := hΛ' t
    show (denseOf (θ + t • h)).PosDef
    rw [this]
    exact ht
  · intro t s hs hst
    have hP : s.Pd = Λ t := by rw [← hΛ', ← hst, denseOf_naturals hs]
    have hKt : s.Kd = (Λ t)⁻¹ := by rw [← hP, ← SSM.Kd_inv hs, nonsing_inv_nonsing_inv _ (isUnit_det (SSM.Kd_posDef hs).isUnit)]
    have hmt : stk s.mus = m t := by
      rw [hm]
      beta_reduce
      rw [← hst, ssmToNaturals_eq s hs, ← hKt]
      show _ = s.Kd *ᵥ stk (vblk (s.Pd *ᵥ stk s.mus))
      rw [stk_vblk, mulVec_mulVec, ← SSM.Kd_inv hs, mul_nonsing_inv _ (isUnit_det (SSM.Kd_posDef hs).isUnit), one_mulVec]
    rw [expPar_eq_momPar, hmt, hKt]

end MF
