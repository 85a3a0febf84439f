import Verif.Lemmas.Gauss
import Mathlib.LinearAlgebra.Matrix.SchurComplement

/-! # Linear-Gaussian Bayes rule -/

namespace MF
open Matrix Spec MeasureTheory ProbabilityTheory

variable {ι κ : Type*} [Fintype ι] [DecidableEq ι] [Fintype κ] [DecidableEq κ]

theorem isUnit_det' {M : Matrix ι ι ℝ} (h : IsUnit M) : IsUnit M.det :=
  (Matrix.isUnit_iff_isUnit_det M).1 h

theorem posDef_tr {M : Matrix ι ι ℝ} (h : M.PosDef) : Mᵀ = M := by
  have := h.isHermitian
  rwa [IsHermitian, conjTranspose_eq_transpose_of_trivial] at this

variable {K : Matrix ι ι ℝ} {R : Matrix κ κ ℝ} {G : Matrix κ ι ℝ}

theorem posSemidef_conj {S : Matrix κ κ ℝ} (h : S.PosSemidef) (G : Matrix κ ι ℝ) :
    (Gᵀ * S * G).PosSemidef := by
  have := h.conjTranspose_mul_mul_same G
  rwa [conjTranspose_eq_transpose_of_trivial] at this

theorem posSemidef_conj' {S : Matrix ι ι ℝ} (h : S.PosSemidef) (G : Matrix κ ι ℝ) :
    (G * S * Gᵀ).PosSemidef := by
  have := posSemidef_conj h Gᵀ
  rwa [transpose_transpose] at this

theorem bayes_S_posDef (hK : K.PosSemidef) (hR : R.PosDef) (G : Matrix κ ι ℝ) :
    (G * K * Gᵀ + R).PosDef := PosDef.posSemidef_add (posSemidef_conj' hK G) hR

theorem bayes_J_posDef (hK : K.PosDef) (hR : R.PosDef) (G : Matrix κ ι ℝ) :
    (K⁻¹ + Gᵀ * R⁻¹ * G).PosDef := hK.inv.add_posSemidef (posSemidef_conj hR.inv.posSemidef G)

/-- Push-through: `J⁻¹ Gᵀ R⁻¹ = K Gᵀ S⁻¹`. -/
theorem bayes_gain (hK : K.PosDef) (hR : R.PosDef) (G : Matrix κ ι ℝ) :
    (K⁻¹ + Gᵀ * R⁻¹ * G)⁻¹ * (Gᵀ * R⁻¹) = K * Gᵀ * (G * K * Gᵀ + R)⁻¹ := by
  have hJ := isUnit_det' (bayes_J_posDef hK hR G).isUnit
  have hS := isUnit_det' (bayes_S_posDef hK.posSemidef hR G).isUnit
  have hKu := isUnit_det' hK.isUnit
  have hRu := isUnit_det' hR.isUnit
  have key : Gᵀ * R⁻¹ * (G * K * Gᵀ + R) = (K⁻¹ + Gᵀ * R⁻¹ * G) * (K * Gᵀ) := by
    rw [Matrix.mul_add, Matrix.add_mul, nonsing_inv_mul_cancel_right _ _ hRu,
      nonsing_inv_mul_cancel_left _ _ hKu, add_comm]
    simp only [Matrix.mul_assoc]
  have h2 : (K⁻¹ + Gᵀ * R⁻¹ * G)⁻¹ * (Gᵀ * R⁻¹) * (G * K * Gᵀ + R) = K * Gᵀ := by
    rw [Matrix.mul_assoc, key, nonsing_inv_mul_cancel_left _ _ hJ]
  rw [← h2, mul_nonsing_inv_cancel_right _ _ hS]

/-- Woodbury. -/
theorem bayes_S_inv (hK : K.PosDef) (hR : R.PosDef) (G : Matrix κ ι ℝ) :
    (G * K * Gᵀ + R)⁻¹ = R⁻¹ - R⁻¹ * G * ((K⁻¹ + Gᵀ * R⁻¹ * G)⁻¹ * (Gᵀ * R⁻¹)) := by
  have hS := isUnit_det' (bayes_S_posDef hK.posSemidef hR G).isUnit
  have hRu := isUnit_det' hR.isUnit
  rw [bayes_gain hK hR]
  have h1 : R⁻¹ * ((G * K * Gᵀ + R) - G * K * Gᵀ) = 1 := by
    rw [add_sub_cancel_left, nonsing_inv_mul _ hRu]
  have h2 : (R⁻¹ - R⁻¹ * G * (K * Gᵀ * (G * K * Gᵀ + R)⁻¹)) * (G * K * Gᵀ + R) = 1 := by
    rw [Matrix.sub_mul, Matrix.mul_assoc (R⁻¹ * G), nonsing_inv_mul_cancel_right _ _ hS, ← h1,
      Matrix.mul_sub]
    simp only [Matrix.mul_assoc]
  exact inv_eq_left_inv h2

theorem bayes_det (hK : K.PosDef) (hR : R.PosDef) (G : Matrix κ ι ℝ) :
    (G * K * Gᵀ + R).det = K.det * R.det * (K⁻¹ + Gᵀ * R⁻¹ * G).det := by
  have hKu := isUnit_det' hK.isUnit
  have hRu := isUnit_det' hR.isUnit
  have e1 : G * K * Gᵀ + R = R * (1 + R⁻¹ * G * (K * Gᵀ)) := by
    rw [Matrix.mul_add, Matrix.mul_one, Matrix.mul_assoc R⁻¹, mul_nonsing_inv_cancel_left _ _ hRu,
      add_comm, Matrix.mul_assoc]
  have e2 : K * (K⁻¹ + Gᵀ * R⁻¹ * G) = 1 + K * Gᵀ * (R⁻¹ * G) := by
    rw [Matrix.mul_add, mul_nonsing_inv _ hKu]
    simp only [Matrix.mul_assoc]
  rw [e1, det_mul, det_one_add_mul_comm, ← e2, det_mul]
  ring

/-- The posterior covariance in Woodbury form. -/
theorem bayes_post_cov (hK : K.PosDef) (hR : R.PosDef) (G : Matrix κ ι ℝ) :
    (K⁻¹ + Gᵀ * R⁻¹ * G)⁻¹ = K - K * Gᵀ * (G * K * Gᵀ + R)⁻¹ * (G * K) := by
  have hJ := isUnit_det' (bayes_J_posDef hK hR G).isUnit
  have hKu := isUnit_det' hK.isUnit
  rw [← bayes_gain hK hR]
  have h : (K⁻¹ + Gᵀ * R⁻¹ * G)⁻¹ * (K⁻¹ + Gᵀ * R⁻¹ * G) * K = K := by
    rw [nonsing_inv_mul _ hJ, Matrix.one_mul]
  rw [Matrix.mul_assoc, Matrix.add_mul, nonsing_inv_mul _ hKu, Matrix.mul_add, Matrix.mul_one] at h
  rw [eq_sub_iff_add_eq]
  rw [← h]
  conv_lhs => rw [h]
  simp only [Matrix.mul_assoc]

/-- Bayes' rule for a linear-Gaussian model, in log densities. -/
theorem bayes_log (hK : K.PosDef) (hR : R.PosDef) (G : Matrix κ ι ℝ) (μ x : ι → ℝ) (y : κ → ℝ) :
    gaussLogDensity μ K x + gaussLogDensity (G *ᵥ x) R y =
      gaussLogDensity (G *ᵥ μ) (G * K * Gᵀ + R) y +
      gaussLogDensity (μ + (K⁻¹ + Gᵀ * R⁻¹ * G)⁻¹ *ᵥ ((Gᵀ * R⁻¹) *ᵥ (y - G *ᵥ μ)))
        ((K⁻¹ + Gᵀ * R⁻¹ * G)⁻¹) x := by
  have hJp := bayes_J_posDef hK hR G
  have hJ := isUnit_det' hJp.isUnit
  set J := K⁻¹ + Gᵀ * R⁻¹ * G with hJdef
  have hRs : (R⁻¹)ᵀ = R⁻¹ := by rw [transpose_nonsing_inv, posDef_tr hR]
  have hdetS := bayes_det hK hR G
  have hlog : Real.log (G * K * Gᵀ + R).det =
      Real.log K.det + Real.log R.det - Real.log (J⁻¹).det := by
    rw [hdetS, det_nonsing_inv, Ring.inverse_eq_inv', Real.log_inv, Real.log_mul, Real.log_mul,
      sub_neg_eq_add]
    · exact hK.det_pos.ne'
    · exact hR.det_pos.ne'
    · exact mul_ne_zero hK.det_pos.ne' hR.det_pos.ne'
    · exact hJp.det_pos.ne'
  unfold gaussLogDensity
  rw [hlog, nonsing_inv_nonsing_inv _ hJ, bayes_S_inv hK hR G, ← hJdef]
  set u := x - μ with hu
  set v := y - G *ᵥ μ with hv
  have e1 : y - G *ᵥ x = v - G *ᵥ u := by
    rw [hv, hu, mulVec_sub]; abel
  set w := J⁻¹ *ᵥ ((Gᵀ * R⁻¹) *ᵥ v) with hw
  have e2 : x - (μ + w) = u - w := by rw [hu]; abel
  rw [e1, e2]
  have hJw : J *ᵥ w = (Gᵀ * R⁻¹) *ᵥ v := by
    rw [hw, mulVec_mulVec, mul_nonsing_inv _ hJ, one_mulVec]
  have sJ : Jᵀ = J := posDef_tr hJp
  clear_value u v w J
  have q1 : (u - w) ⬝ᵥ (J *ᵥ (u - w)) = u ⬝ᵥ (J *ᵥ u) - 2 * (u ⬝ᵥ ((Gᵀ * R⁻¹) *ᵥ v))
      + w ⬝ᵥ ((Gᵀ * R⁻¹) *ᵥ v) := by
    have c : w ⬝ᵥ (J *ᵥ u) = u ⬝ᵥ (J *ᵥ w) := by
      rw [dotProduct_mulVec, ← mulVec_transpose, sJ, dotProduct_comm]
    rw [mulVec_sub, dotProduct_sub, sub_dotProduct, sub_dotProduct, c, hJw]
    ring
  have q2 : u ⬝ᵥ (J *ᵥ u) = u ⬝ᵥ (K⁻¹ *ᵥ u) + (G *ᵥ u) ⬝ᵥ (R⁻¹ *ᵥ (G *ᵥ u)) := by
    rw [hJdef, add_mulVec, dotProduct_add, ← mulVec_mulVec, ← mulVec_mulVec,
      dotProduct_mulVec u Gᵀ, ← mulVec_transpose, transpose_transpose]
  have q3 : (v - G *ᵥ u) ⬝ᵥ (R⁻¹ *ᵥ (v - G *ᵥ u)) = v ⬝ᵥ (R⁻¹ *ᵥ v)
      - 2 * (u ⬝ᵥ ((Gᵀ * R⁻¹) *ᵥ v)) + (G *ᵥ u) ⬝ᵥ (R⁻¹ *ᵥ (G *ᵥ u)) := by
    have c : v ⬝ᵥ (R⁻¹ *ᵥ (G *ᵥ u)) = u ⬝ᵥ ((Gᵀ * R⁻¹) *ᵥ v) := by
      rw [dotProduct_mulVec, ← mulVec_transpose, hRs, ← mulVec_mulVec, dotProduct_mulVec u Gᵀ,
        ← mulVec_transpose, transpose_transpose, dotProduct_comm]
    have c2 : (G *ᵥ u) ⬝ᵥ (R⁻¹ *ᵥ v) = u ⬝ᵥ ((Gᵀ * R⁻¹) *ᵥ v) := by
      rw [← mulVec_mulVec, dotProduct_mulVec u Gᵀ, ← mulVec_transpose, transpose_transpose]
    rw [mulVec_sub, dotProduct_sub, sub_dotProduct, sub_dotProduct, c, c2]
    ring
  have q4 : v ⬝ᵥ ((R⁻¹ - R⁻¹ * G * (J⁻¹ * (Gᵀ * R⁻¹))) *ᵥ v) = v ⬝ᵥ (R⁻¹ *ᵥ v)
      - w ⬝ᵥ ((Gᵀ * R⁻¹) *ᵥ v) := by
    rw [sub_mulVec, dotProduct_sub, ← mulVec_mulVec, ← mulVec_mulVec _ J⁻¹, ← hw,
      dotProduct_mulVec v (R⁻¹ * G), ← mulVec_transpose, transpose_mul, hRs, dotProduct_comm _ w]
  rw [q1, q2, q3, q4]
  ring

end MF
