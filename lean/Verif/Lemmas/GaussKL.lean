import Verif.Spec.GaussMarkov
import Verif.Lemmas.Cholesky
import Mathlib.Analysis.Matrix.PosDef
import Mathlib.Analysis.Matrix.Spectrum

/-! Non-negativity of the Gaussian KL divergence. -/

namespace MF
open Matrix Spec

variable {ι : Type*} [Fintype ι] [DecidableEq ι]

theorem trace_sub_logdet_nonneg {M : Matrix ι ι ℝ} (hM : M.PosDef) :
    0 ≤ M.trace - Fintype.card ι - Real.log M.det ∧
      (M.trace - Fintype.card ι - Real.log M.det = 0 → M = 1) := by
  have htr : M.trace = ∑ i, hM.isHermitian.eigenvalues i := by
    rw [hM.isHermitian.trace_eq_sum_eigenvalues]; rfl
  have hdet : M.det = ∏ i, hM.isHermitian.eigenvalues i := by
    rw [hM.isHermitian.det_eq_prod_eigenvalues]; rfl
  have hpos := hM.eigenvalues_pos
  have hsum : M.trace - Fintype.card ι - Real.log M.det =
      ∑ i, (hM.isHermitian.eigenvalues i - 1 - Real.log (hM.isHermitian.eigenvalues i)) := by
    rw [htr, hdet, Real.log_prod (fun i _ => (hpos i).ne'), Finset.sum_sub_distrib,
      Finset.sum_sub_distrib]
    simp
  have hterm : ∀ i, 0 ≤ hM.isHermitian.eigenvalues i - 1 -
      Real.log (hM.isHermitian.eigenvalues i) := by
    intro i
    have := Real.log_le_sub_one_of_pos (hpos i)
    linarith
  rw [hsum]
  refine ⟨Finset.sum_nonneg fun i _ => hterm i, ?_⟩
  intro h0
  have hz := (Finset.sum_eq_zero_iff_of_nonneg fun i _ => hterm i).1 h0
  have h1 : ∀ i, hM.isHermitian.eigenvalues i = 1 := by
    intro i
    by_contra hne
    have := Real.log_lt_sub_one_of_pos (hpos i) hne
    have := hz i (Finset.mem_univ i)
    linarith
  have hsp := hM.isHermitian.spectral_theorem
  have : (RCLike.ofReal ∘ hM.isHermitian.eigenvalues : ι → ℝ) = fun _ => 1 := by
    funext i; simp [h1 i]
  rw [this, diagonal_one, map_one] at hsp
  exact hsp

/-- `K⁻¹` is a congruence: KL term for two PD matrices. -/
theorem gauss_trace_logdet {K₁ K₂ : Matrix ι ι ℝ} (h₁ : K₁.PosDef) (h₂ : K₂.PosDef) :
    0 ≤ (K₂⁻¹ * K₁).trace - Fintype.card ι + Real.log K₂.det - Real.log K₁.det ∧
    ((K₂⁻¹ * K₁).trace - Fintype.card ι + Real.log K₂.det - Real.log K₁.det = 0 → K₁ = K₂) := by
  -- K₂⁻¹ = Bᵀ B
  obtain ⟨B, hBu, hB⟩ : ∃ B : Matrix ι ι ℝ, IsUnit B ∧ K₂⁻¹ = Bᵀ * B := by
    have hpd := h₂.inv
    classical
    let e := Fintype.equivFin ι
    have hpd' : (K₂⁻¹.submatrix e.symm e.symm).PosDef := hpd.submatrix e.symm.injective
    obtain ⟨L, hL⟩ := exists_isCholesky hpd'
    refine ⟨(L.submatrix e e)ᵀ, ?_, ?_⟩
    · rw [Matrix.isUnit_iff_isUnit_det, det_transpose, det_submatrix_equiv_self,
        ← Matrix.isUnit_iff_isUnit_det]
      exact hL.isUnit
    · have := hL.mul_transpose
      rw [transpose_transpose, transpose_submatrix, submatrix_mul_equiv, this]
      ext i j; simp
  have huT : IsUnit Bᵀ := by
    rw [Matrix.isUnit_iff_isUnit_det, det_transpose, ← Matrix.isUnit_iff_isUnit_det]; exact hBu
  have hBd := (Matrix.isUnit_iff_isUnit_det _).1 hBu
  have hBTd := (Matrix.isUnit_iff_isUnit_det _).1 huT
  have hM : (B * K₁ * Bᵀ).PosDef := by
    have := (Matrix.IsUnit.posDef_star_right_conjugate_iff hBu (x := K₁)).2 h₁
    rwa [star_eq_conjTranspose, conjTranspose_eq_transpose_of_trivial] at this
  have htr : (K₂⁻¹ * K₁).trace = (B * K₁ * Bᵀ).trace := by
    rw [hB, Matrix.mul_assoc, trace_mul_comm]
  have hdet2 : K₂.det * (B.det * B.det) = 1 := by
    have : K₂ * (Bᵀ * B) = 1 := by
      rw [← hB]; exact mul_nonsing_inv _ ((Matrix.isUnit_iff_isUnit_det _).1 h₂.isUnit)
    have := congrArg det this
    rwa [det_mul, det_mul, det_transpose, det_one] at this
  have hB0 : B.det ≠ 0 := isUnit_iff_ne_zero.1 hBd
  have hlog : Real.log (B * K₁ * Bᵀ).det = Real.log K₁.det - Real.log K₂.det := by
    rw [det_mul, det_mul, det_transpose,
      show B.det * K₁.det * B.det = K₁.det * (B.det * B.det) by ring,
      Real.log_mul h₁.det_pos.ne' (mul_ne_zero hB0 hB0)]
    have : Real.log (B.det * B.det) = - Real.log K₂.det := by
      have h3 := congrArg Real.log hdet2
      rw [Real.log_mul h₂.det_pos.ne' (mul_ne_zero hB0 hB0), Real.log_one] at h3
      linarith
    rw [this]; ring
  have key := trace_sub_logdet_nonneg hM
  rw [hlog, ← htr] at key
  refine ⟨by linarith [key.1], fun h0 => ?_⟩
  have hone := key.2 (by linarith)
  -- B K₁ Bᵀ = 1
  have : K₁⁻¹ = Bᵀ * B := by
    apply inv_eq_left_inv
    have h4 := congrArg (fun X => B⁻¹ * X * B) hone
    simp only [Matrix.mul_one, nonsing_inv_mul _ hBd] at h4
    rw [← Matrix.mul_assoc, ← Matrix.mul_assoc, nonsing_inv_mul _ hBd, Matrix.one_mul] at h4
    exact mul_eq_one_comm.1 (by rw [← Matrix.mul_assoc]; exact h4)
  have h5 : K₁⁻¹ = K₂⁻¹ := by rw [this, hB]
  have h6 := congrArg (·⁻¹) h5
  rwa [nonsing_inv_nonsing_inv _ ((Matrix.isUnit_iff_isUnit_det _).1 h₁.isUnit),
    nonsing_inv_nonsing_inv _ ((Matrix.isUnit_iff_isUnit_det _).1 h₂.isUnit)] at h6

theorem gaussKL_nonneg {m₁ m₂ : ι → ℝ} {K₁ K₂ : Matrix ι ι ℝ} (h₁ : K₁.PosDef) (h₂ : K₂.PosDef) :
    0 ≤ gaussKL m₁ K₁ m₂ K₂ := by
  have h := (gauss_trace_logdet h₁ h₂).1
  have hq := h₂.inv.posSemidef.dotProduct_mulVec_nonneg (m₂ - m₁)
  simp only [star_trivial] at hq
  unfold gaussKL
  linarith

theorem gaussKL_eq_zero_iff {m₁ m₂ : ι → ℝ} {K₁ K₂ : Matrix ι ι ℝ} (h₁ : K₁.PosDef)
    (h₂ : K₂.PosDef) : gaussKL m₁ K₁ m₂ K₂ = 0 ↔ m₁ = m₂ ∧ K₁ = K₂ := by
  constructor
  · intro h0
    have h := gauss_trace_logdet h₁ h₂
    have hq := h₂.inv.posSemidef.dotProduct_mulVec_nonneg (m₂ - m₁)
    simp only [star_trivial] at hq
    unfold gaussKL at h0
    have h3 : (m₂ - m₁) ⬝ᵥ (K₂⁻¹ *ᵥ (m₂ - m₁)) = 0 := by linarith [h.1]
    refine ⟨?_, h.2 (by linarith)⟩
    by_contra hne
    have := h₂.inv.dotProduct_mulVec_pos (x := m₂ - m₁) (sub_ne_zero.2 (Ne.symm hne))
    simp only [star_trivial] at this
    linarith
  · rintro ⟨rfl, rfl⟩
    unfold gaussKL
    rw [nonsing_inv_mul _ ((Matrix.isUnit_iff_isUnit_det _).1 h₁.isUnit), trace_one]
    simp

end MF
