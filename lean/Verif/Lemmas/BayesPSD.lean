import Verif.Lemmas.Obs
import Verif.Lemmas.SSMLaw

/-! # Bayes' rule for Gaussians whose prior covariance may be singular; transport of posteriors -/

namespace MF
open Matrix Spec MeasureTheory ProbabilityTheory
open scoped Matrix

/-- Push a posterior through a measurable map on which the likelihood depends. -/
theorem IsBayesPosterior.map {X Y : Type*} [MeasurableSpace X] [MeasurableSpace Y] {π ρ : Measure X}
    {f : X → Y} (hf : Measurable f) {ℓ : Y → ℝ} (hℓ : Measurable ℓ)
    (h : IsBayesPosterior π (fun x => ℓ (f x)) ρ) : IsBayesPosterior (π.map f) ℓ (ρ.map f) := by
  obtain ⟨hz, ht, rfl⟩ := h
  have hm : Measurable fun x => ENNReal.ofReal (Real.exp (ℓ x)) := by fun_prop
  have he : evidence (π.map f) ℓ = evidence π fun x => ℓ (f x) := lintegral_map hm hf
  refine ⟨he ▸ hz, he ▸ ht, ?_⟩
  rw [he, Measure.map_smul]
  congr 1
  ext s hs
  rw [Measure.map_apply hf hs, withDensity_apply _ (hf hs), withDensity_apply _ hs,
    setLIntegral_map hs hm hf]

theorem IsBayesPosterior.unique {X : Type*} [MeasurableSpace X] {π ρ ρ' : Measure X} {ℓ : X → ℝ}
    (h : IsBayesPosterior π ℓ ρ) (h' : IsBayesPosterior π ℓ ρ') : ρ = ρ' := by
  rw [h.2.2, h'.2.2]

variable {ι κ : Type*} [Fintype ι] [DecidableEq ι] [Fintype κ] [DecidableEq κ]
  {K : Matrix ι ι ℝ} {R : Matrix κ κ ℝ}

/-- Gaussian conditioning for a positive semidefinite prior covariance. -/
theorem bayes_psd (hK : K.PosSemidef) (hR : R.PosDef) (G : Matrix κ ι ℝ) (μ : ι → ℝ) (y : κ → ℝ) :
    (K - K * Gᵀ * (G * K * Gᵀ + R)⁻¹ * (G * K)).PosSemidef ∧
    IsBayesPosterior (gaussLaw μ K) (fun x => gaussLogDensity (G *ᵥ x) R y)
      (gaussLaw (μ + (K * Gᵀ * (G * K * Gᵀ + R)⁻¹) *ᵥ (y - G *ᵥ μ))
        (K - K * Gᵀ * (G * K * Gᵀ + R)⁻¹ * (G * K))) ∧
    evidence (gaussLaw μ K) (fun x => gaussLogDensity (G *ᵥ x) R y) =
      ENNReal.ofReal (Real.exp (gaussLogDensity (G *ᵥ μ) (G * K * Gᵀ + R) y)) := by
  obtain ⟨C, rfl⟩ := exists_mul_transpose hK
  have h1 : (1 : Matrix ι ι ℝ).PosDef := PosDef.one
  have hpost := bayes_posterior h1 hR (G * C) 0 (y - G *ᵥ μ)
  have hev := bayes_evidence h1 hR (G * C) 0 (y - G *ᵥ μ)
  have hgain := bayes_gain h1 hR (G * C)
  have hcov := bayes_post_cov h1 hR (G * C)
  have hJ := (bayes_J_posDef h1 hR (G * C)).inv
  rw [mulVec_mulVec, hgain, hcov] at hpost
  rw [hcov] at hJ
  simp only [Matrix.one_mul, Matrix.mul_one, mulVec_zero, sub_zero, zero_add, transpose_mul] at hpost hev hJ
  have hS : G * (C * Cᵀ) * Gᵀ + R = G * C * (Cᵀ * Gᵀ) + R := by simp only [Matrix.mul_assoc]
  set S := G * C * (Cᵀ * Gᵀ) + R with hSd
  have eK : C * Cᵀ - C * Cᵀ * Gᵀ * S⁻¹ * (G * (C * Cᵀ)) = C * (1 - Cᵀ * Gᵀ * S⁻¹ * (G * C)) * Cᵀ := by
    rw [Matrix.mul_sub, Matrix.sub_mul, Matrix.mul_one]; simp only [Matrix.mul_assoc]
  have hl : ∀ x : ι → ℝ, gaussLogDensity (G *ᵥ (μ + C *ᵥ x)) R y =
      gaussLogDensity ((G * C) *ᵥ x) R (y - G *ᵥ μ) := by
    intro x
    unfold gaussLogDensity
    rw [mulVec_add, mulVec_mulVec, ← sub_sub y]
  have hpr : (gaussLaw (0 : ι → ℝ) 1).map (fun x => μ + C *ᵥ x) = gaussLaw μ (C * Cᵀ) := by
    rw [gaussLaw_map_affine PosSemidef.one, mulVec_zero, add_zero, Matrix.mul_one]
  have hmeas : Measurable fun x : ι → ℝ => gaussLogDensity (G *ᵥ x) R y := by
    simp only [gaussLogDensity_comm _ y]
    exact (measurable_gaussLogDensity y R).comp (measurable_mulVec G)
  have hmm := measurable_affine μ C
  rw [hS, eK]
  refine ⟨?_, ?_, ?_⟩
  · have := hJ.posSemidef.mul_mul_conjTranspose_same C
    rwa [conjTranspose_eq_transpose_of_trivial] at this
  · have hp2 := hpost
    simp only [← hl] at hp2
    have := IsBayesPosterior.map (ℓ := fun x => gaussLogDensity (G *ᵥ x) R y) hmm hmeas hp2
    rw [hpr, gaussLaw_map_affine hJ.posSemidef, mulVec_mulVec] at this
    rw [show C * Cᵀ * Gᵀ * S⁻¹ = C * (Cᵀ * Gᵀ * S⁻¹) by simp only [Matrix.mul_assoc]]
    exact this
  · rw [← hpr]
    unfold evidence at hev ⊢
    rw [lintegral_map (by fun_prop) hmm]
    simp only [hl, hev]
    unfold gaussLogDensity
    rw [sub_zero]

end MF
