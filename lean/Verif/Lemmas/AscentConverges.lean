import Mathlib.Analysis.Calculus.ContDiff.Basic
import Mathlib.Analysis.Calculus.MeanValue
import Mathlib.Analysis.Calculus.Deriv.MeanValue
import Mathlib.Analysis.Calculus.ContDiff.Operations
import Mathlib.Analysis.Calculus.ContDiff.RCLike
import Mathlib.Analysis.Normed.Module.FiniteDimension
import Mathlib.Topology.Sequences
import Mathlib.Topology.Order.MonotoneConvergence

/-!
# Ascent along a direction field with a small constant step converges, if the zero of the field is unique
-/

namespace MF
open Set Filter Topology

variable {E : Type*} [NormedAddCommGroup E] [NormedSpace ℝ E]

/-- One step of length `r` along a field whose derivative is at least `c ‖d‖²` gains at least `(c - M r) r ‖d‖²`. -/
theorem ascent_step {B : E → ℝ} {x d : E} {c M : ℝ} (hB : ∀ t ∈ Icc (0 : ℝ) 1, ContDiffAt ℝ 2 B (x + t • d))
    (hM : ∀ t ∈ Icc (0 : ℝ) 1, ‖fderiv ℝ (fderiv ℝ B) (x + t • d)‖ ≤ M) (hc : c * ‖d‖ ^ 2 ≤ fderiv ℝ B x d) {r : ℝ} (h0 : 0 < r) (h1 : r ≤ 1) :
    (c - M * r) * r * ‖d‖ ^ 2 ≤ B (x + r • d) - B x := by
  have hM0 : 0 ≤ M := le_trans (norm_nonneg (fderiv ℝ (fderiv ℝ B) (x + (0 : ℝ) • d))) (hM 0 ⟨le_rfl, zero_le_one⟩)
  have hdiff : ∀ t ∈ Icc (0 : ℝ) 1, HasDerivAt (fun s : ℝ => B (x + s • d)) (fderiv ℝ B (x + t • d) d) t := fun t ht => by
    have h2 : HasDerivAt (fun s : ℝ => x + s • d) d t := by
      have := ((hasDerivAt_id (𝕜 := ℝ) t).smul_const d).const_add x
      simpa using this
    exact ((hB t ht).differentiableAt (by norm_num)).hasFDerivAt.comp_hasDerivAt t h2
  obtain ⟨ξ, hξ, he⟩ := exists_hasDerivAt_eq_slope (fun s : ℝ => B (x + s • d)) (fun t => fderiv ℝ B (x + t • d) d) h0
    (fun t ht => (hdiff t ⟨ht.1, ht.2.trans h1⟩).continuousAt.continuousWithinAt) (fun t ht => hdiff t ⟨ht.1.le, ht.2.le.trans h1⟩)
  have hξ1 : ξ ≤ 1 := hξ.2.le.trans h1
  have hseg : ∀ z ∈ segment ℝ x (x + ξ • d), ∃ t ∈ Icc (0 : ℝ) 1, z = x + t • d := fun z hz => by
    rw [segment_eq_image'] at hz
    obtain ⟨s, hs, rfl⟩ := hz
    exact ⟨s * ξ, ⟨mul_nonneg hs.1 hξ.1.le, mul_le_one₀ hs.2 hξ.1.le hξ1⟩, by simp [smul_smul]⟩
  have hgrad : ‖fderiv ℝ B (x + ξ • d) - fderiv ℝ B x‖ ≤ M * ‖x + ξ • d - x‖ := by
    refine Convex.norm_image_sub_le_of_norm_fderiv_le (𝕜 := ℝ) (s := segment ℝ x (x + ξ • d)) (fun z hz => ?_) (fun z hz => ?_) (convex_segment _ _)
      (left_mem_segment _ _ _) (right_mem_segment _ _ _)
    · obtain ⟨t, ht, rfl⟩ := hseg z hz
      exact ((hB t ht).fderiv_right (m := 1) (by norm_num)).differentiableAt (by norm_num)
    · obtain ⟨t, ht, rfl⟩ := hseg z hz
      exact hM t ht
  rw [add_sub_cancel_left, norm_smul, Real.norm_of_nonneg hξ.1.le] at hgrad
  have h2 : fderiv ℝ B x d - fderiv ℝ B (x + ξ • d) d ≤ M * (ξ * ‖d‖) * ‖d‖ := by
    have h3 := (fderiv ℝ B (x + ξ • d) - fderiv ℝ B x).le_opNorm d
    have h4 := neg_le_of_abs_le (by rwa [Real.norm_eq_abs] at h3)
    rw [ContinuousLinearMap.sub_apply] at h4
    have := mul_le_mul_of_nonneg_right hgrad (norm_nonneg d)
    linarith
  have h5 : M * (ξ * ‖d‖) * ‖d‖ ≤ M * r * ‖d‖ ^ 2 := by
    have : M * (ξ * ‖d‖) * ‖d‖ = M * ξ * ‖d‖ ^ 2 := by ring
    rw [this]
    exact mul_le_mul_of_nonneg_right (mul_le_mul_of_nonneg_left hξ.2.le hM0) (sq_nonneg _)
  rw [eq_div_iff (by linarith : r - 0 ≠ 0)] at he
  simp only [zero_smul, add_zero, sub_zero] at he
  rw [← he]
  have : (c - M * r) * ‖d‖ ^ 2 ≤ fderiv ℝ B (x + ξ • d) d := by linarith
  calc (c - M * r) * r * ‖d‖ ^ 2 = (c - M * r) * ‖d‖ ^ 2 * r := by ring
    _ ≤ _ := mul_le_mul_of_nonneg_right this h0.le

/-- Ascent with a constant step below a bound that depends on the start converges to the only zero of the field. -/
theorem ascent_converges [FiniteDimensional ℝ E] {C : Set E} {B : E → ℝ} (hB : ∀ x ∈ C, ContDiffAt ℝ 2 B x) {d : E → E} (hd : ContinuousOn d C)
    (hstep : ∀ x ∈ C, ∀ t ∈ Icc (0 : ℝ) 1, x + t • d x ∈ C) {x₀ : E} (hx₀ : x₀ ∈ C) (hK : IsCompact {x | x ∈ C ∧ B x₀ ≤ B x})
    {Q : E × E → ℝ} (hQ : ∀ x ∈ C, fderiv ℝ B x (d x) = Q (x, d x)) (hQc : ContinuousOn Q (C ×ˢ univ)) (hQp : ∀ x ∈ C, ∀ h, h ≠ 0 → 0 < Q (x, h))
    (hQh : ∀ x ∈ C, ∀ h (t : ℝ), Q (x, t • h) = t ^ 2 * Q (x, h)) (huniq : ∀ x ∈ C, ∀ y ∈ C, d x = 0 → d y = 0 → x = y) :
    ∃ r₀ : ℝ, 0 < r₀ ∧ r₀ ≤ 1 ∧ ∃ y ∈ C, d y = 0 ∧ ∀ r, 0 < r → r ≤ r₀ → ∀ x : ℕ → E, x 0 = x₀ → (∀ k, x (k + 1) = x k + r • d (x k)) →
      (∀ k, x k ∈ C) ∧ (∀ k, B (x k) ≤ B (x (k + 1))) ∧ Tendsto x atTop (𝓝 y) := by
  set K : Set E := {x | x ∈ C ∧ B x₀ ≤ B x} with hKd
  have hKC : K ⊆ C := fun x hx => hx.1
  -- a lower bound of the slope
  obtain ⟨c, hc0, hc⟩ : ∃ c : ℝ, 0 < c ∧ ∀ z ∈ K ×ˢ Metric.sphere (0 : E) 1, c ≤ Q z := by
    refine (hK.prod (isCompact_sphere 0 1)).exists_forall_le' (hQc.mono (prod_mono hKC (subset_univ _))) fun z hz => ?_
    refine hQp z.1 (hKC hz.1) z.2 fun h0 => ?_
    have := hz.2
    rw [mem_sphere_zero_iff_norm, h0, norm_zero] at this
    exact zero_ne_one this
  have hcQ : ∀ x ∈ K, ∀ h, c * ‖h‖ ^ 2 ≤ Q (x, h) := fun x hx h => by
    by_cases h0 : h = 0
    · have := hQh x (hKC hx) 0 0
      rw [smul_zero] at this
      rw [h0, this]
      simp
    · have hn : ‖h‖ ≠ 0 := norm_ne_zero_iff.2 h0
      have h1 := hc (x, ‖h‖⁻¹ • h) ⟨hx, by rw [mem_sphere_zero_iff_norm, norm_smul, norm_inv, norm_norm, inv_mul_cancel₀ hn]⟩
      rw [hQh x (hKC hx)] at h1
      have h2 := mul_le_mul_of_nonneg_right h1 (sq_nonneg ‖h‖)
      have h3 : ‖h‖⁻¹ ^ 2 * Q (x, h) * ‖h‖ ^ 2 = Q (x, h) := by
        field_simp
      rwa [h3] at h2
  -- an upper bound of the curvature
  set K' : Set E := (fun z : E × ℝ => z.1 + z.2 • d z.1) '' (K ×ˢ Icc (0 : ℝ) 1) with hK'
  have hK'c : IsCompact K' := by
    refine (hK.prod isCompact_Icc).image_of_continuousOn ?_
    refine continuousOn_fst.add (continuousOn_snd.smul ?_)
    exact (hd.mono hKC).comp continuousOn_fst fun z hz => hz.1
  have hK'C : K' ⊆ C := by
    rintro _ ⟨z, hz, rfl⟩
    exact hstep _ (hKC hz.1) _ hz.2
  obtain ⟨M, hM⟩ : ∃ M : ℝ, ∀ x ∈ K', ‖fderiv ℝ (fderiv ℝ B) x‖ ≤ M := by
    refine hK'c.exists_bound_of_continuousOn (f := fderiv ℝ (fderiv ℝ B)) fun x hx => ContinuousAt.continuousWithinAt ?_
    have h1 : ContDiffAt ℝ 1 (fderiv ℝ B) x := ContDiffAt.fderiv_right (hB x (hK'C hx)) (by norm_num)
    have h2 : ContDiffAt ℝ 0 (fderiv ℝ (fderiv ℝ B)) x := ContDiffAt.fderiv_right h1 (by norm_num)
    exact h2.continuousAt
  have hmem : ∀ x ∈ K, ∀ t ∈ Icc (0 : ℝ) 1, x + t • d x ∈ K' := fun x hx t ht => ⟨(x, t), ⟨hx, ht⟩, rfl⟩
  have hx₀K : x₀ ∈ K := ⟨hx₀, le_rfl⟩
  have hM0 : 0 ≤ M := le_trans (norm_nonneg (fderiv ℝ (fderiv ℝ B) (x₀ + (0 : ℝ) • d x₀))) (hM _ (hmem x₀ hx₀K 0 ⟨le_rfl, zero_le_one⟩))
  set r₀ : ℝ := min 1 (c / (2 * (M + 1))) with hr₀
  have hr₀p : 0 < r₀ := lt_min one_pos (by positivity)
  have hr₀1 : r₀ ≤ 1 := min_le_left _ _
  have hMr : ∀ r, 0 < r → r ≤ r₀ → M * r ≤ c / 2 := fun r h0 hr => by
    have h1 : r ≤ c / (2 * (M + 1)) := hr.trans (min_le_right _ _)
    rw [le_div_iff₀ (by positivity)] at h1
    nlinarith
  have hgain : ∀ r, 0 < r → r ≤ r₀ → ∀ x ∈ K, c / 2 * r * ‖d x‖ ^ 2 ≤ B (x + r • d x) - B x := fun r h0 hr x hx => by
    have h1 := ascent_step (B := B) (x := x) (d := d x) (c := c) (M := M) (fun t ht => hB _ (hstep x (hKC hx) t ht)) (fun t ht => hM _ (hmem x hx t ht))
      (by rw [hQ x (hKC hx)]; exact hcQ x hx _) h0 (hr.trans hr₀1)
    refine le_trans ?_ h1
    refine mul_le_mul_of_nonneg_right (mul_le_mul_of_nonneg_right ?_ h0.le) (sq_nonneg _)
    have := hMr r h0 hr
    linarith
  have main : ∀ r, 0 < r → r ≤ r₀ → ∀ x : ℕ → E, x 0 = x₀ → (∀ k, x (k + 1) = x k + r • d (x k)) →
      (∀ k, x k ∈ K) ∧ (∀ k, B (x k) ≤ B (x (k + 1))) ∧ ∃ y ∈ C, d y = 0 ∧ Tendsto x atTop (𝓝 y) := fun r h0 hr x hx hxs => by
    have hg : ∀ k, x k ∈ K → c / 2 * r * ‖d (x k)‖ ^ 2 ≤ B (x (k + 1)) - B (x k) := fun k hk => by
      rw [hxs]
      exact hgain r h0 hr _ hk
    have hnn : ∀ k, 0 ≤ c / 2 * r * ‖d (x k)‖ ^ 2 := fun k => by positivity
    have hin : ∀ k, x k ∈ K := fun k => by
      induction k with
      | zero => rw [hx]; exact hx₀K
      | succ k ih =>
        refine ⟨?_, ?_⟩
        · rw [hxs]
          exact hstep _ (hKC ih) r ⟨h0.le, hr.trans hr₀1⟩
        · have := hg k ih
          have := hnn k
          have := ih.2
          linarith
    have hmono : ∀ k, B (x k) ≤ B (x (k + 1)) := fun k => by
      have := hg k (hin k)
      have := hnn k
      linarith
    have hBc : ContinuousOn B K := fun z hz => (hB z (hKC hz)).continuousAt.continuousWithinAt
    obtain ⟨b, hb⟩ := hK.bddAbove_image hBc
    have hconv : Tendsto (fun k => B (x k)) atTop (𝓝 (⨆ k, B (x k))) :=
      tendsto_atTop_ciSup (monotone_nat_of_le_succ hmono) ⟨b, by rintro _ ⟨k, rfl⟩; exact hb ⟨x k, hin k, rfl⟩⟩
    have hdiff : Tendsto (fun k => B (x (k + 1)) - B (x k)) atTop (𝓝 0) := by
      have := (hconv.comp (tendsto_add_atTop_nat 1)).sub hconv
      rwa [sub_self] at this
    have hsq : Tendsto (fun k => ‖d (x k)‖ ^ 2) atTop (𝓝 0) := by
      have h1 : Tendsto (fun k => c / 2 * r * ‖d (x k)‖ ^ 2) atTop (𝓝 0) := squeeze_zero hnn (fun k => hg k (hin k)) hdiff
      have h2 := h1.const_mul (c / 2 * r)⁻¹
      rw [mul_zero] at h2
      refine h2.congr fun k => ?_
      rw [← mul_assoc, inv_mul_cancel₀ (by positivity), one_mul]
    have hd0 : Tendsto (fun k => d (x k)) atTop (𝓝 0) := by
      rw [tendsto_zero_iff_norm_tendsto_zero]
      have := (Real.continuous_sqrt.tendsto 0).comp hsq
      rw [Real.sqrt_zero] at this
      refine this.congr fun k => ?_
      exact Real.sqrt_sq (norm_nonneg _)
    have hzero : ∀ y ∈ K, ∀ φ : ℕ → ℕ, StrictMono φ → Tendsto (x ∘ φ) atTop (𝓝 y) → d y = 0 := fun y hy φ hφ ht => by
      have h1 : Tendsto (fun k => d (x (φ k))) atTop (𝓝 (d y)) :=
        (hd y (hKC hy)).tendsto.comp (tendsto_nhdsWithin_iff.2 ⟨ht, .of_forall fun k => hKC (hin _)⟩)
      exact tendsto_nhds_unique h1 (hd0.comp hφ.tendsto_atTop)
    obtain ⟨y, hy, φ, hφ, hty⟩ := hK.tendsto_subseq hin
    have hy0 := hzero y hy φ hφ hty
    refine ⟨hin, hmono, y, hKC hy, hy0, ?_⟩
    refine hK.tendsto_nhds_of_unique_mapClusterPt (.of_forall hin) fun z hz hcl => ?_
    obtain ⟨χ, hχ, htz⟩ := TopologicalSpace.FirstCountableTopology.tendsto_subseq hcl
    exact huniq z (hKC hz) y (hKC hy) (hzero z hz χ hχ htz) hy0
  obtain ⟨-, -, y, hy, hy0, -⟩ := main r₀ hr₀p le_rfl (fun k => (fun z => z + r₀ • d z)^[k] x₀) rfl fun k => Function.iterate_succ_apply' _ _ _
  refine ⟨r₀, hr₀p, hr₀1, y, hy, hy0, fun r h0 hr x hx hxs => ?_⟩
  obtain ⟨h1, h2, y', hy', hy'0, h3⟩ := main r h0 hr x hx hxs
  exact ⟨fun k => hKC (h1 k), h2, huniq y' hy' y hy hy'0 hy0 ▸ h3⟩

end MF
