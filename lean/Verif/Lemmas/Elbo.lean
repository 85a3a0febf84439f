import Verif.Spec.Likelihood
import Verif.Lemmas.BayesPSD
import Mathlib.InformationTheory.KullbackLeibler.Basic
import Mathlib.MeasureTheory.Measure.LogLikelihoodRatio

/-!
# The evidence lower bound identity, and the closed form expectations of two likelihoods
-/

namespace MF
open Matrix Spec MeasureTheory ProbabilityTheory InformationTheory
variable {X : Type*} [MeasurableSpace X]

theorem IsBayesPosterior.integrable_exp {π ρ : Measure X} {ℓ : X → ℝ} (hℓ : Measurable ℓ)
    (h : IsBayesPosterior π ℓ ρ) : Integrable (fun x => Real.exp (ℓ x)) π := by
  refine ⟨(Real.measurable_exp.comp hℓ).aestronglyMeasurable, ?_⟩
  rw [hasFiniteIntegral_iff_ofReal (Filter.Eventually.of_forall fun x => (Real.exp_pos _).le)]
  exact lt_top_iff_ne_top.2 h.2.1

theorem IsBayesPosterior.evidence_eq {π ρ : Measure X} {ℓ : X → ℝ} (hℓ : Measurable ℓ)
    (h : IsBayesPosterior π ℓ ρ) : evidence π ℓ = ENNReal.ofReal (∫ x, Real.exp (ℓ x) ∂π) :=
  (ofReal_integral_eq_lintegral_ofReal (IsBayesPosterior.integrable_exp hℓ h)
    (Filter.Eventually.of_forall fun x => (Real.exp_pos _).le)).symm

theorem IsBayesPosterior.tilted {π ρ : Measure X} {ℓ : X → ℝ} (hℓ : Measurable ℓ)
    (h : IsBayesPosterior π ℓ ρ) : ρ = π.tilted ℓ := by
  have he := IsBayesPosterior.evidence_eq hℓ h
  have hpos : 0 < ∫ x, Real.exp (ℓ x) ∂π := by
    by_contra hc
    exact h.1 (by rw [he, ENNReal.ofReal_eq_zero.2 (not_lt.1 hc)])
  have hm : Measurable fun x => ENNReal.ofReal (Real.exp (ℓ x)) := by fun_prop
  rw [h.2.2, Measure.tilted, ← withDensity_smul _ hm, he]
  congr 1
  funext x
  rw [Pi.smul_apply, smul_eq_mul, ENNReal.ofReal_div_of_pos hpos, ENNReal.div_eq_inv_mul]

/-- `log evidence = (E_q[ℓ] - KL(q ‖ π)) + KL(q ‖ posterior)`. -/
theorem elbo_identity {π q ρ : Measure X} [IsProbabilityMeasure π] [IsProbabilityMeasure q] {ℓ : X → ℝ}
    (hℓ : Measurable ℓ) (h : IsBayesPosterior π ℓ ρ) (hkl : klDiv q π ≠ ⊤) (hi : Integrable ℓ q) :
    klDiv q ρ ≠ ⊤ ∧ Real.log (evidence π ℓ).toReal =
      (∫ x, ℓ x ∂q) - (klDiv q π).toReal + (klDiv q ρ).toReal := by
  have hexp := IsBayesPosterior.integrable_exp hℓ h
  obtain ⟨hac, hllr⟩ := klDiv_ne_top_iff.1 hkl
  have he := IsBayesPosterior.evidence_eq hℓ h
  rw [IsBayesPosterior.tilted hℓ h]
  have hP : IsProbabilityMeasure (π.tilted ℓ) := isProbabilityMeasure_tilted hexp
  have hac' : q ≪ π.tilted ℓ := hac.trans (absolutelyContinuous_tilted hexp)
  have hint := integrable_llr_tilted_right hac hi hllr hexp
  refine ⟨klDiv_ne_top hac' hint, ?_⟩
  rw [toReal_klDiv_of_measure_eq hac' (by simp), toReal_klDiv_of_measure_eq hac (by simp),
    integral_llr_tilted_right hac hi hexp hllr, he,
    ENNReal.toReal_ofReal (integral_nonneg fun x => (Real.exp_pos _).le)]
  ring

theorem exists_bayes {π : Measure X} [IsProbabilityMeasure π] {ℓ : X → ℝ} (hℓ : Measurable ℓ) {B : ℝ}
    (hB : ∀ x, ℓ x ≤ B) : ∃ ρ, IsBayesPosterior π ℓ ρ := by
  have hm : Measurable fun x => ENNReal.ofReal (Real.exp (ℓ x)) := by fun_prop
  refine ⟨_, ?_, ?_, rfl⟩
  · unfold evidence
    rw [Ne, lintegral_eq_zero_iff hm]
    intro hz
    have : ∀ᵐ x ∂π, False := hz.mono fun x hx => by
      have h0 := ENNReal.ofReal_eq_zero.1 hx
      exact absurd (Real.exp_pos (ℓ x)) (not_lt.2 h0)
    simp at this
    exact IsProbabilityMeasure.ne_zero π this
  · refine ne_top_of_le_ne_top (b := ENNReal.ofReal (Real.exp B)) ENNReal.ofReal_ne_top ?_
    calc evidence π ℓ ≤ ∫⁻ _, ENNReal.ofReal (Real.exp B) ∂π :=
          lintegral_mono fun x => ENNReal.ofReal_le_ofReal (Real.exp_le_exp.2 (hB x))
      _ = _ := by simp

/-! ### closed forms -/

theorem integral_sq_gaussianReal (m : ℝ) (v : NNReal) : ∫ x, x ^ 2 ∂gaussianReal m v = v + m ^ 2 := by
  have h := variance_eq_sub (μ := gaussianReal m v) (X := fun x => x) (by
    have := memLp_id_gaussianReal' (μ := m) (v := v) 2 (by simp)
    exact this)
  rw [variance_fun_id_gaussianReal, integral_id_gaussianReal] at h
  simp only [Pi.pow_apply] at h
  linarith

theorem integrable_sq_gaussianReal (m : ℝ) (v : NNReal) : Integrable (fun x : ℝ => x ^ 2) (gaussianReal m v) := by
  have := (memLp_id_gaussianReal' (μ := m) (v := v) 2 (by simp)).integrable_sq
  exact this

theorem integrable_id_gaussianReal (m : ℝ) (v : NNReal) : Integrable (fun x : ℝ => x) (gaussianReal m v) := by
  have := (memLp_id_gaussianReal' (μ := m) (v := v) 1 (by simp))
  exact memLp_one_iff_integrable.1 this

theorem gaussianLikelihood_exact (s : ℝ) : ExactLikelihood (gaussianLikelihood s) := by
  have key : ∀ f y : ℝ, (gaussianLikelihood s).logProb f y =
      -(1 / 2) * (Real.log (2 * Real.pi) + Real.log s + y ^ 2 / s) + y / s * f + -(1 / (2 * s)) * f ^ 2 := by
    intro f y
    simp only [gaussianLikelihood]
    by_cases hs : s = 0
    · simp [hs]
    · field_simp
      ring
  have h2 := integrable_sq_gaussianReal
  have h1 := integrable_id_gaussianReal
  refine ⟨fun y => ?_, fun m v y => ?_, fun m v y hv => ?_⟩
  · simp only [gaussianLikelihood]; fun_prop
  · simp only [key]
    exact ((integrable_const _).add ((h1 _ _).const_mul _)).add ((h2 _ _).const_mul _)
  · simp only [key]
    have hA : Integrable (fun f : ℝ => -(1 / 2) * (Real.log (2 * Real.pi) + Real.log s + y ^ 2 / s) + y / s * f)
        (gaussianReal m v.toNNReal) := (integrable_const _).add ((h1 _ _).const_mul _)
    rw [integral_add hA ((h2 _ _).const_mul _),
      integral_add (integrable_const _) ((h1 _ _).const_mul _), integral_const_mul, integral_const_mul, integral_const_mul,
      integral_id_gaussianReal, integral_sq_gaussianReal, Real.coe_toNNReal _ hv, integral_const]
    simp only [probReal_univ, one_smul, gaussianLikelihood]
    by_cases hs : s = 0
    · simp [hs]
    · field_simp
      ring

theorem poissonLikelihood_exact : ExactLikelihood poissonLikelihood := by
  have h1 := integrable_id_gaussianReal
  have he : ∀ (m : ℝ) (v : NNReal), Integrable (fun x : ℝ => Real.exp x) (gaussianReal m v) := fun m v => by
    have := integrable_exp_mul_gaussianReal (μ := m) (v := v) 1
    simpa using this
  refine ⟨fun y => ?_, fun m v y => ?_, fun m v y hv => ?_⟩
  · simp only [poissonLikelihood]; fun_prop
  · simp only [poissonLikelihood]
    exact (((h1 _ _).const_mul _).sub (he _ _)).sub (integrable_const _)
  · have hmgf : ∫ x, Real.exp x ∂gaussianReal m v.toNNReal = Real.exp (m + v / 2) := by
      have := congrFun (mgf_fun_id_gaussianReal (μ := m) (v := v.toNNReal)) 1
      simp only [mgf, one_mul, mul_one, one_pow, Real.coe_toNNReal _ hv] at this
      exact this
    simp only [poissonLikelihood]
    have hA : Integrable (fun f : ℝ => y * f - Real.exp f) (gaussianReal m v.toNNReal) :=
      ((h1 _ _).const_mul _).sub (he _ _)
    rw [integral_sub hA (integrable_const _),
      integral_sub ((h1 _ _).const_mul _) (he _ _), integral_const_mul, integral_id_gaussianReal, hmgf, integral_const]
    simp

end MF
