import Verif.Props.PEP
import Verif.Props.SpatioTemporalElbo

/-!
# C37: the objective of the Gaussian PEP likelihood and its derivatives
-/

namespace MF
open Matrix Spec MeasureTheory ProbabilityTheory

/-- **C37** `PEPGaussian`: `log_expected_density` is `alpha` times the logarithm of the expectation of the likelihood under
the cavity `N(m, v)`, and `grad_log_expected_density` returns its first and second derivative in the mean. (With `alpha`
outside of the logarithm, not the logarithm of the expectation of the likelihood to the power `alpha`: see
`C37_gaussian_alpha`.) -/
theorem C37_gaussian_objective {s v : ℝ} (hs : 0 < s) (hv : 0 ≤ v) (m y a : ℝ) :
    (pepGaussian s).logExpectedDensity m v y a =
      a * Real.log (∫ f, Real.exp ((gaussianLikelihood s).logProb f y) ∂gaussianReal m v.toNNReal) ∧
    (∀ μ, HasDerivAt (fun μ => (pepGaussian s).logExpectedDensity μ v y a) ((pepGaussian s).grads μ v y a).1 μ) ∧
    ∀ μ, HasDerivAt (fun μ => ((pepGaussian s).grads μ v y a).1) ((pepGaussian s).grads μ v y a).2 μ := by
  have hsv : s + v ≠ 0 := by positivity
  refine ⟨?_, fun μ => ?_, fun μ => ?_⟩
  · have h := gaussian_log_evidence hv hs m y
    have hmL : Measurable fun g : ℝ => (gaussianLikelihood s).logProb g y := (gaussianLikelihood_exact s).measurable _
    have e : (evidence (gaussianReal m v.toNNReal) fun x => (gaussianLikelihood s).logProb x y).toReal =
        ∫ f, Real.exp ((gaussianLikelihood s).logProb f y) ∂gaussianReal m v.toNNReal := by
      rw [integral_eq_lintegral_of_nonneg_ae (Filter.Eventually.of_forall fun x => (Real.exp_pos _).le)
        (Real.measurable_exp.comp hmL).aestronglyMeasurable]
      rfl
    rw [← e, h]
    simp only [pepGaussian, gpflowGaussian]
    rw [add_comm s v]
    ring
  · simp only [pepGaussian, gpflowGaussian]
    have h := (((((((hasDerivAt_id μ).sub_const y).pow 2).div_const (s + v)).const_add
      (Real.log (2 * Real.pi) + Real.log (s + v))).const_mul (-(1 / 2))).const_mul a)
    refine h.congr_deriv ?_
    simp only [id]
    field_simp
    ring
  · simp only [pepGaussian]
    have h := ((((hasDerivAt_id μ).const_sub y).const_mul a).div_const (s + v))
    exact h.congr_deriv (by ring)

/-- Non-vacuity: a concrete cavity and noise variance. -/
example : (pepGaussian 2).logExpectedDensity 1 1 4 (1 / 2) =
      1 / 2 * Real.log (∫ f, Real.exp ((gaussianLikelihood 2).logProb f 4) ∂gaussianReal 1 (1 : ℝ).toNNReal) ∧
    ((pepGaussian 2).grads 1 1 4 (1 / 2)) = (1 / 2, -1 / 6) :=
  ⟨(C37_gaussian_objective two_pos zero_le_one 1 4 (1 / 2)).1, by
    simp only [pepGaussian]
    ext <;> norm_num⟩

end MF
