import Verif.Lemmas.Bayes
import Verif.Lemmas.SSMLaw
import Verif.Spec.LinearGaussian
import Mathlib.Data.Matrix.Block
import Mathlib.LinearAlgebra.Matrix.Determinant.Basic

/-! # Observation model, evidence and posterior -/

namespace MF
open Matrix Spec MeasureTheory ProbabilityTheory

section law
variable {ι κ : Type*} [Fintype ι] [DecidableEq ι] [Fintype κ] [DecidableEq κ]
variable {K : Matrix ι ι ℝ} {R : Matrix κ κ ℝ}

theorem gaussLogDensity_comm (m x : ι → ℝ) (K : Matrix ι ι ℝ) :
    gaussLogDensity m K x = gaussLogDensity x K m := by
  unfold gaussLogDensity
  have : x - m = -(m - x) := (neg_sub _ _).symm
  rw [this, mulVec_neg, neg_dotProduct, dotProduct_neg, neg_neg]

theorem measurable_lik (G : Matrix κ ι ℝ) (R : Matrix κ κ ℝ) (y : κ → ℝ) :
    Measurable fun x : ι → ℝ => ENNReal.ofReal (Real.exp (gaussLogDensity (G *ᵥ x) R y)) := by
  have : (fun x : ι → ℝ => ENNReal.ofReal (Real.exp (gaussLogDensity (G *ᵥ x) R y))) =
      fun x => ENNReal.ofReal (Real.exp (gaussLogDensity y R (G *ᵥ x))) := by
    funext x; rw [gaussLogDensity_comm]
  rw [this]
  exact ((Real.measurable_exp.comp ((measurable_gaussLogDensity y R).comp
    (measurable_mulVec G)))).ennreal_ofReal

theorem isProbabilityMeasure_gaussLaw {m : ι → ℝ} {K : Matrix ι ι ℝ} :
    IsProbabilityMeasure (gaussLaw m K) := by
  unfold gaussLaw
  exact Measure.isProbabilityMeasure_map (WithLp.measurable_ofLp _ _).aemeasurable

theorem bayes_withDensity (hK : K.PosDef) (hR : R.PosDef) (G : Matrix κ ι ℝ) (μ : ι → ℝ)
    (y : κ → ℝ) :
    (gaussLaw μ K).withDensity
      (fun x => ENNReal.ofReal (Real.exp (gaussLogDensity (G *ᵥ x) R y))) =
    ENNReal.ofReal (Real.exp (gaussLogDensity (G *ᵥ μ) (G * K * Gᵀ + R) y)) •
      gaussLaw (μ + (K⁻¹ + Gᵀ * R⁻¹ * G)⁻¹ *ᵥ ((Gᵀ * R⁻¹) *ᵥ (y - G *ᵥ μ)))
        ((K⁻¹ + Gᵀ * R⁻¹ * G)⁻¹) := by
  rw [gaussLaw_eq_withDensity hK, gaussLaw_eq_withDensity (bayes_J_posDef hK hR G).inv,
    ← withDensity_mul _ (measurable_dens μ K) (measurable_lik G R y),
    ← withDensity_smul _ (measurable_dens _ _)]
  congr 1
  funext x
  simp only [Pi.mul_apply, Pi.smul_apply, smul_eq_mul]
  rw [← ENNReal.ofReal_mul (Real.exp_pos _).le, ← ENNReal.ofReal_mul (Real.exp_pos _).le,
    ← Real.exp_add, ← Real.exp_add, bayes_log hK hR G]

theorem bayes_evidence (hK : K.PosDef) (hR : R.PosDef) (G : Matrix κ ι ℝ) (μ : ι → ℝ)
    (y : κ → ℝ) :
    evidence (gaussLaw μ K) (fun x => gaussLogDensity (G *ᵥ x) R y) =
      ENNReal.ofReal (Real.exp (gaussLogDensity (G *ᵥ μ) (G * K * Gᵀ + R) y)) := by
  have h := congrArg (fun ν => ν Set.univ) (bayes_withDensity hK hR G μ y)
  have hp : IsProbabilityMeasure (gaussLaw (μ + (K⁻¹ + Gᵀ * R⁻¹ * G)⁻¹ *ᵥ ((Gᵀ * R⁻¹) *ᵥ
    (y - G *ᵥ μ))) ((K⁻¹ + Gᵀ * R⁻¹ * G)⁻¹)) := isProbabilityMeasure_gaussLaw
  simp only [withDensity_apply _ MeasurableSet.univ, Measure.restrict_univ, Measure.smul_apply,
    measure_univ, smul_eq_mul, mul_one] at h
  exact h

theorem bayes_posterior (hK : K.PosDef) (hR : R.PosDef) (G : Matrix κ ι ℝ) (μ : ι → ℝ)
    (y : κ → ℝ) :
    IsBayesPosterior (gaussLaw μ K) (fun x => gaussLogDensity (G *ᵥ x) R y)
      (gaussLaw (μ + (K⁻¹ + Gᵀ * R⁻¹ * G)⁻¹ *ᵥ ((Gᵀ * R⁻¹) *ᵥ (y - G *ᵥ μ)))
        ((K⁻¹ + Gᵀ * R⁻¹ * G)⁻¹)) := by
  have hpos : ENNReal.ofReal (Real.exp (gaussLogDensity (G *ᵥ μ) (G * K * Gᵀ + R) y)) ≠ 0 := by
    simp [Real.exp_pos]
  refine ⟨?_, ?_, ?_⟩
  · rw [bayes_evidence hK hR]; exact hpos
  · rw [bayes_evidence hK hR]; exact ENNReal.ofReal_ne_top
  · rw [bayes_evidence hK hR, bayes_withDensity hK hR, smul_smul,
      ENNReal.inv_mul_cancel hpos ENNReal.ofReal_ne_top, one_smul]

/-- The evidence in terms of the posterior precision. -/
theorem evidence_formula (hK : K.PosDef) (hR : R.PosDef) (G : Matrix κ ι ℝ) (μ : ι → ℝ)
    (y : κ → ℝ) :
    gaussLogDensity (G *ᵥ μ) (G * K * Gᵀ + R) y =
      -(Fintype.card κ / 2) * Real.log (2 * Real.pi)
      - (1 / 2) * ((y - G *ᵥ μ) ⬝ᵥ (R⁻¹ *ᵥ (y - G *ᵥ μ)))
      + (1 / 2) * (((Gᵀ * R⁻¹) *ᵥ (y - G *ᵥ μ)) ⬝ᵥ
          ((K⁻¹ + Gᵀ * R⁻¹ * G)⁻¹ *ᵥ ((Gᵀ * R⁻¹) *ᵥ (y - G *ᵥ μ))))
      - (1 / 2) * Real.log K.det - (1 / 2) * Real.log R.det
      - (1 / 2) * Real.log (K⁻¹ + Gᵀ * R⁻¹ * G).det := by
  have hRs : (R⁻¹)ᵀ = R⁻¹ := by rw [transpose_nonsing_inv, posDef_tr hR]
  have hJp := bayes_J_posDef hK hR G
  unfold gaussLogDensity
  rw [bayes_det hK hR, Real.log_mul (mul_ne_zero hK.det_pos.ne' hR.det_pos.ne') hJp.det_pos.ne',
    Real.log_mul hK.det_pos.ne' hR.det_pos.ne', bayes_S_inv hK hR]
  set v := y - G *ᵥ μ
  clear_value v
  have q : v ⬝ᵥ ((R⁻¹ * G * ((K⁻¹ + Gᵀ * R⁻¹ * G)⁻¹ * (Gᵀ * R⁻¹))) *ᵥ v) =
      ((Gᵀ * R⁻¹) *ᵥ v) ⬝ᵥ ((K⁻¹ + Gᵀ * R⁻¹ * G)⁻¹ *ᵥ ((Gᵀ * R⁻¹) *ᵥ v)) := by
    rw [← mulVec_mulVec v (R⁻¹ * G), ← mulVec_mulVec v (K⁻¹ + Gᵀ * R⁻¹ * G)⁻¹,
      dotProduct_mulVec v (R⁻¹ * G), ← mulVec_transpose, transpose_mul, hRs]
  rw [sub_mulVec, dotProduct_sub, q]
  ring

end law

/-! ### blocks -/
variable {N n m d : ℕ}

theorem blk_blkDiag_mul {N' e : ℕ} (R : Fin N → Mat m m) (M : Matrix (Fin N × Fin m) (Fin N' × Fin e) ℝ) (j k) :
    blk (blkDiag R * M) j k = R j * blk M j k := by
  rw [blk_mul, Finset.sum_eq_single j]
  · simp [blkDiag]
  · intro b _ hb; simp [blkDiag, Ne.symm hb]
  · simp

theorem vblk_blkDiag_mulVec (R : Fin N → Mat m m) (v : Fin N × Fin m → ℝ) (j) :
    vblk (blkDiag R *ᵥ v) j = R j *ᵥ vblk v j := by
  rw [vblk_mulVec, Finset.sum_eq_single j]
  · simp [blkDiag]
  · intro b _ hb; simp [blkDiag, Ne.symm hb]
  · simp

theorem blkDiag_mul (R S : Fin N → Mat m m) :
    blkDiag R * blkDiag S = blkDiag fun j => R j * S j := by
  apply blk_ext
  intro j k
  rw [blk_blkDiag_mul]
  by_cases h : j = k <;> simp [blkDiag, h]

theorem blkDiag_one : blkDiag (fun _ : Fin N => (1 : Mat m m)) = 1 := by
  apply blk_ext
  intro j k
  rw [blk_one]
  simp [blkDiag]

theorem blkDiag_inv {R : Fin N → Mat m m} (h : ∀ j, IsUnit (R j).det) :
    (blkDiag R)⁻¹ = blkDiag fun j => (R j)⁻¹ := by
  apply inv_eq_right_inv
  rw [blkDiag_mul, ← blkDiag_one]
  congr 1
  funext j
  exact mul_nonsing_inv _ (h j)

theorem blkDiag_transpose (R : Fin N → Mat m m) : (blkDiag R)ᵀ = blkDiag fun j => (R j)ᵀ := by
  apply blk_ext
  intro j k
  rw [blk_transpose]
  by_cases h : j = k
  · subst h; simp [blkDiag]
  · simp [blkDiag, h, Ne.symm h]

theorem det_blkDiag (R : Fin N → Mat m m) : (blkDiag R).det = ∏ j, (R j).det := by
  rw [← det_blockDiagonal]
  have : blkDiag R = (blockDiagonal R).submatrix Prod.swap Prod.swap := by
    ext p q
    simp only [blkDiag, ofBlk, of_apply, submatrix_apply, blockDiagonal_apply, Prod.fst_swap,
      Prod.snd_swap]
    split_ifs <;> rfl
  rw [this]
  exact det_submatrix_equiv_self (Equiv.prodComm _ _) _

theorem posDef_blkDiag {R : Fin N → Mat m m} (h : ∀ j, (R j).PosDef) : (blkDiag R).PosDef := by
  choose L hL hL2 using fun j => tfCholesky_posDef (h j)
  have : blkDiag R = blkDiag L * (blkDiag L)ᵀ := by
    rw [blkDiag_transpose, blkDiag_mul]
    congr 1; funext j; exact (hL2 j).mul_transpose.symm
  rw [this]
  apply posDef_mul_transpose
  rw [Matrix.isUnit_iff_isUnit_det, det_blkDiag, isUnit_iff_ne_zero, Finset.prod_ne_zero_iff]
  intro j _
  exact ((Matrix.isUnit_iff_isUnit_det _).1 (hL2 j).isUnit).ne_zero

variable (H : Fin N → Mat m d) (idx : Fin N → Fin (n + 1))

theorem vblk_obsMatrix_mulVec (x : Ix n d → ℝ) (j) :
    vblk (obsMatrix H idx *ᵥ x) j = H j *ᵥ vblk x (idx j) := by
  rw [vblk_mulVec, Finset.sum_eq_single (idx j)]
  · simp [obsMatrix]
  · intro b _ hb; simp [obsMatrix, hb]
  · simp

theorem vblk_obsMatrixT_mulVec (v : Fin N × Fin m → ℝ) (k) :
    vblk ((obsMatrix H idx)ᵀ *ᵥ v) k = ∑ j, if idx j = k then (H j)ᵀ *ᵥ vblk v j else 0 := by
  rw [vblk_mulVec]
  refine Finset.sum_congr rfl fun j _ => ?_
  rw [blk_transpose]
  by_cases h : idx j = k
  · simp [obsMatrix, h]
  · simp [obsMatrix, h, Ne.symm h]

theorem blk_obsMatrix_quad (R : Fin N → Mat m m) (k k') :
    blk ((obsMatrix H idx)ᵀ * blkDiag R * obsMatrix H idx) k k' =
      if k = k' then ∑ j, if idx j = k then (H j)ᵀ * R j * H j else 0 else 0 := by
  rw [Matrix.mul_assoc, blk_mul]
  have : ∀ j, blk (obsMatrix H idx)ᵀ k j * blk (blkDiag R * obsMatrix H idx) j k' =
      if k = k' then (if idx j = k then (H j)ᵀ * R j * H j else 0) else 0 := by
    intro j
    rw [blk_transpose, blk_blkDiag_mul]
    simp only [obsMatrix, blk_ofBlk]
    by_cases h1 : k = idx j
    · by_cases h2 : k = k'
      · subst h2; simp [h1, Matrix.mul_assoc]
      · have h3 : k' ≠ idx j := fun h => h2 (h1.trans h.symm)
        rw [if_pos h1, if_neg h3, if_neg h2]; simp
    · simp [h1, Ne.symm h1]
  simp only [this]
  by_cases h : k = k' <;> simp [h]

theorem obsLogLik_eq {R : Fin N → Mat m m} (hR : ∀ j, (R j).PosDef) (y : Fin N → Vec m)
    (x : Ix n d → ℝ) :
    obsLogLik H idx R y x = gaussLogDensity (obsMatrix H idx *ᵥ x) (blkDiag R) (stk y) := by
  have hu : ∀ j, IsUnit (R j).det := fun j => isUnit_det' (hR j).isUnit
  unfold obsLogLik gaussLogDensity
  rw [blkDiag_inv hu, det_blkDiag, Real.log_prod (fun j _ => (hR j).det_pos.ne'), dotProduct_blk]
  simp only [vblk_blkDiag_mulVec, vblk_sub, vblk_obsMatrix_mulVec, vblk_stk]
  rw [Finset.sum_sub_distrib, Finset.sum_sub_distrib, ← Finset.mul_sum, ← Finset.mul_sum]
  simp only [Finset.sum_const, Finset.card_univ, Fintype.card_prod, Fintype.card_fin, nsmul_eq_mul]
  congr 1
  push_cast
  ring

end MF
