import Mathlib.Analysis.Convex.Integral
import Mathlib.Analysis.Convex.Continuous
import Mathlib.Analysis.Calculus.Deriv.Slope
import Mathlib.Analysis.Convex.SpecificFunctions.Basic
import Mathlib.MeasureTheory.Group.IntegralConvolution
import Verif.Spec.LogConcave
import Verif.Model.CVI

/-!
# Gaussian averages of concave functions decrease with the variance
-/

namespace MF
open MeasureTheory ProbabilityTheory MF.Spec

theorem concave_integral_antitone {g : ℝ → ℝ} (hg : ConcaveOn ℝ Set.univ g)
    (hi : ∀ m v : ℝ, Integrable g (gaussianReal m v.toNNReal)) (m : ℝ) {v w : ℝ} (hv : 0 ≤ v) (hvw : v ≤ w) :
    ∫ f, g f ∂gaussianReal m w.toNNReal ≤ ∫ f, g f ∂gaussianReal m v.toNNReal := by
  have hc : Continuous g := continuousOn_univ.1 (hg.continuousOn isOpen_univ)
  have e : gaussianReal m w.toNNReal = (gaussianReal m v.toNNReal) ∗ (gaussianReal 0 (w - v).toNNReal) := by
    rw [gaussianReal_conv_gaussianReal, add_zero, ← Real.toNNReal_add hv (sub_nonneg.2 hvw), add_sub_cancel]
  have hint := hi m w
  rw [e] at hint ⊢
  rw [integral_conv hint]
  have hx : ∀ x : ℝ, gaussianReal x (w - v).toNNReal = (gaussianReal 0 (w - v).toNNReal).map (x + ·) := fun x => by
    rw [gaussianReal_map_const_add, zero_add]
  have hxi : ∀ x : ℝ, Integrable (fun z => g (x + z)) (gaussianReal 0 (w - v).toNNReal) := fun x => by
    have := hi x (w - v)
    rw [hx x] at this
    exact (integrable_map_measure hc.aestronglyMeasurable (by fun_prop)).1 this
  have hj : ∀ x : ℝ, ∫ z, g (x + z) ∂gaussianReal 0 (w - v).toNNReal ≤ g x := fun x => by
    have hid : Integrable (fun z : ℝ => x + z) (gaussianReal 0 (w - v).toNNReal) :=
      (integrable_const x).add (memLp_id_gaussianReal 1 |>.integrable le_rfl)
    have := ConcaveOn.le_map_integral (μ := gaussianReal 0 (w - v).toNNReal) (f := fun z : ℝ => x + z) hg
      hc.continuousOn isClosed_univ (by simp) hid (hxi x)
    have e2 : ∫ z, (x + z) ∂gaussianReal 0 (w - v).toNNReal = x := by
      have h1 : Integrable (fun z : ℝ => z) (gaussianReal 0 (w - v).toNNReal) :=
        memLp_id_gaussianReal 1 |>.integrable le_rfl
      rw [integral_add (integrable_const x) h1, integral_id_gaussianReal, integral_const, add_zero, probReal_univ, one_smul]
    rwa [e2] at this
  have hp : Integrable (fun p : ℝ × ℝ => g (p.1 + p.2))
      ((gaussianReal m v.toNNReal).prod (gaussianReal 0 (w - v).toNNReal)) := by
    have h2 := hint
    rw [Measure.conv] at h2
    exact (integrable_map_measure hc.aestronglyMeasurable (by fun_prop)).1 h2
  exact integral_mono hp.integral_prod_left (hi m v) hj

theorem varExp_antitone {lik : ScalarLikelihood} (he : ExactLikelihood lik) (hc : LogConcaveLikelihood lik) (m y : ℝ) :
    AntitoneOn (fun v => lik.varExp m v y) (Set.Ici 0) := fun v hv w hw hvw => by
  show lik.varExp m w y ≤ lik.varExp m v y
  rw [he.varExp m v y hv, he.varExp m w y hw]
  exact concave_integral_antitone (hc y) (fun m v => he.integrable m v y) m hv hvw

theorem localGradients_nonpos {lik : ScalarLikelihood} (he : ExactLikelihood lik) (hc : LogConcaveLikelihood lik) {m v : ℝ}
    (y : ℝ) (hv : 0 ≤ v) : deriv (fun v => lik.varExp m v y) v ≤ 0 := by
  by_cases hd : DifferentiableAt ℝ (fun v => lik.varExp m v y) v
  · rw [← hd.derivWithin (uniqueDiffWithinAt_Ici v)]
    exact ((varExp_antitone he hc m y).mono (Set.Ici_subset_Ici.2 hv)).derivWithin_nonpos
  · rw [deriv_zero_of_not_differentiableAt hd]

theorem gaussianLikelihood_logConcave {σ2 : ℝ} (hσ : 0 < σ2) : LogConcaveLikelihood (gaussianLikelihood σ2) := fun y => by
  refine ⟨convex_univ, fun a _ b _ s t hs ht hst => ?_⟩
  obtain rfl : t = 1 - s := by linarith
  simp only [gaussianLikelihood, smul_eq_mul]
  have : 0 ≤ s * (1 - s) * (a - b) ^ 2 / σ2 := by positivity
  have e : s * (-(1 / 2) * (Real.log (2 * Real.pi) + Real.log σ2 + (a - y) ^ 2 / σ2)) +
      (1 - s) * (-(1 / 2) * (Real.log (2 * Real.pi) + Real.log σ2 + (b - y) ^ 2 / σ2)) =
      -(1 / 2) * (Real.log (2 * Real.pi) + Real.log σ2 + (s * a + (1 - s) * b - y) ^ 2 / σ2) -
        1 / 2 * (s * (1 - s) * (a - b) ^ 2 / σ2) := by
    field_simp; ring
  rw [e]; linarith

theorem poissonLikelihood_logConcave : LogConcaveLikelihood poissonLikelihood := fun y => by
  refine ⟨convex_univ, fun a _ b _ s t hs ht hst => ?_⟩
  have := convexOn_exp.2 (Set.mem_univ a) (Set.mem_univ b) hs ht hst
  simp only [smul_eq_mul, poissonLikelihood] at this ⊢
  obtain rfl : t = 1 - s := by linarith
  linarith

end MF
