import Verif.Model.IWVI
import Verif.Props.SVGP
import Mathlib.Probability.StrongLaw
import Mathlib.Analysis.Convex.SpecificFunctions.Basic

/-!
# Importance weighting: the sequence of bounds, and the law of the weights
-/

namespace MF
open Matrix Spec MeasureTheory ProbabilityTheory InformationTheory

section bounds
variable {X : Type*} [MeasurableSpace X] {K : ℕ}

theorem sum_exp_pos (hK : 0 < K) (a : Fin K → ℝ) : 0 < ∑ k, Real.exp (a k) :=
  Finset.sum_pos (fun _ _ => Real.exp_pos _) ⟨⟨0, hK⟩, Finset.mem_univ _⟩

/-- The log of the mean weight. -/
theorem logmean_eq (hK : 0 < K) (a : Fin K → ℝ) :
    reduceLogsumexp a - Real.log K = Real.log ((∑ k, Real.exp (a k)) / K) := by
  rw [Real.log_div (sum_exp_pos hK a).ne' (Nat.cast_ne_zero.2 hK.ne')]
  rfl

/-- Jensen: the log of the mean weight is at least the mean log weight, and at most the largest one. -/
theorem logmean_bounds (hK : 0 < K) (a : Fin K → ℝ) :
    (∑ k, a k) / K ≤ reduceLogsumexp a - Real.log K ∧
    (∀ B, (∀ k, a k ≤ B) → reduceLogsumexp a - Real.log K ≤ B) := by
  have hK' : (0 : ℝ) < K := Nat.cast_pos.2 hK
  rw [logmean_eq hK]
  have hpos := sum_exp_pos hK a
  constructor
  · rw [Real.le_log_iff_exp_le (by positivity)]
    have := convexOn_exp.map_sum_le (t := Finset.univ) (w := fun _ : Fin K => (1 : ℝ) / K) (p := a)
      (fun _ _ => by positivity) (by simp [hK'.ne']) (fun _ _ => Set.mem_univ _)
    simp only [smul_eq_mul, one_div_mul_eq_div, ← Finset.sum_div] at this
    exact this
  · intro B hB
    rw [Real.log_le_iff_le_exp (by positivity), div_le_iff₀ hK']
    calc ∑ k, Real.exp (a k) ≤ ∑ _k : Fin K, Real.exp B := Finset.sum_le_sum fun k _ => Real.exp_le_exp.2 (hB k)
      _ = Real.exp B * K := by simp [mul_comm]

/-- Leaving one weight out: concavity. -/
theorem logmean_leave_one_out (hK : 0 < K) (a : Fin (K + 1) → ℝ) :
    (∑ j : Fin (K + 1), (reduceLogsumexp (fun i : Fin K => a (j.succAbove i)) - Real.log K)) / ((K + 1 : ℕ) : ℝ) ≤
      reduceLogsumexp a - Real.log ((K + 1 : ℕ) : ℝ) := by
  have hK' : (0 : ℝ) < K := Nat.cast_pos.2 hK
  have hK1 : (0 : ℝ) < ((K + 1 : ℕ) : ℝ) := Nat.cast_pos.2 K.succ_pos
  rw [logmean_eq K.succ_pos]
  simp only [logmean_eq hK]
  have := strictConcaveOn_log_Ioi.concaveOn.le_map_sum (t := Finset.univ)
    (w := fun _ : Fin (K + 1) => (1 : ℝ) / ((K + 1 : ℕ) : ℝ))
    (p := fun j => (∑ i : Fin K, Real.exp (a (j.succAbove i))) / K)
    (fun _ _ => by positivity) (by simp; field_simp)
    (fun j _ => div_pos (sum_exp_pos hK fun i => a (j.succAbove i)) hK')
  simp only [smul_eq_mul, ← Finset.mul_sum] at this
  rw [one_div_mul_eq_div] at this
  refine this.trans (le_of_eq ?_)
  congr 1
  have hs : ∀ j : Fin (K + 1), ∑ i : Fin K, Real.exp (a (j.succAbove i)) = ∑ k, Real.exp (a k) - Real.exp (a j) := fun j => by
    rw [Fin.sum_univ_succAbove (fun k => Real.exp (a k)) j]; ring
  simp only [hs, ← Finset.sum_div, Finset.sum_sub_distrib, Finset.sum_const, Finset.card_univ, Fintype.card_fin, nsmul_eq_mul]
  push_cast
  field_simp
  ring

variable {ν : Measure X} [IsProbabilityMeasure ν] {ℓ : X → ℝ}

theorem integral_coord (i : Fin K) {f : X → ℝ} (hf : Integrable f ν) :
    Integrable (fun x : Fin K → X => f (x i)) (Measure.pi fun _ => ν) ∧
      ∫ x, f (x i) ∂(Measure.pi fun _ : Fin K => ν) = ∫ x, f x ∂ν := by
  have hmp := measurePreserving_eval (fun _ : Fin K => ν) i
  refine ⟨hmp.integrable_comp_of_integrable hf, ?_⟩
  conv_rhs => rw [← hmp.map_eq]
  rw [integral_map hmp.measurable.aemeasurable (by rw [hmp.map_eq]; exact hf.aestronglyMeasurable)]

/-- The importance weighted objective is integrable. -/
theorem integrable_logmean (hℓ : Measurable ℓ) (hi : Integrable ℓ ν) (he : Integrable (fun x => Real.exp (ℓ x)) ν)
    (hK : 0 < K) :
    Integrable (fun x : Fin K → X => reduceLogsumexp (fun k => ℓ (x k)) - Real.log K) (Measure.pi fun _ => ν) := by
  have hK' : (0 : ℝ) < K := Nat.cast_pos.2 hK
  have h1 : Integrable (fun x : Fin K → X => (∑ k, ℓ (x k)) / K) (Measure.pi fun _ => ν) :=
    (integrable_finsetSum _ fun k _ => (integral_coord k hi).1).div_const _
  have h2 : Integrable (fun x : Fin K → X => (∑ k, Real.exp (ℓ (x k))) / K) (Measure.pi fun _ => ν) :=
    (integrable_finsetSum _ fun k _ => (integral_coord k he).1).div_const _
  refine Integrable.mono' (h1.abs.add h2.abs) ?_ (Filter.Eventually.of_forall fun x => ?_)
  · unfold reduceLogsumexp
    exact (Measurable.sub_const (by fun_prop) _).aestronglyMeasurable
  · rw [Real.norm_eq_abs, abs_le]
    have hlo := (logmean_bounds hK fun k => ℓ (x k)).1
    have hhi : reduceLogsumexp (fun k => ℓ (x k)) - Real.log K ≤ (∑ k, Real.exp (ℓ (x k))) / K := by
      rw [logmean_eq hK]
      exact Real.log_le_self (div_nonneg (sum_exp_pos hK _).le hK'.le)
    have a1 := neg_abs_le ((∑ k, ℓ (x k)) / K)
    have a2 := abs_nonneg ((∑ k, Real.exp (ℓ (x k))) / K)
    have a3 := le_abs_self ((∑ k, Real.exp (ℓ (x k))) / K)
    have a4 := abs_nonneg ((∑ k, ℓ (x k)) / K)
    constructor
    · simp only [Pi.add_apply]; linarith
    · simp only [Pi.add_apply]; linarith

/-- One sample: the expected log weight. -/
theorem integral_logmean_one (hi : Integrable ℓ ν) :
    ∫ x : Fin 1 → X, (reduceLogsumexp (fun k => ℓ (x k)) - Real.log (1 : ℕ)) ∂(Measure.pi fun _ => ν) = ∫ x, ℓ x ∂ν := by
  rw [← (integral_coord (K := 1) 0 hi).2]
  congr 1
  funext x
  simp [reduceLogsumexp]

/-- More samples give a tighter bound. -/
theorem integral_logmean_mono (hℓ : Measurable ℓ) (hi : Integrable ℓ ν) (he : Integrable (fun x => Real.exp (ℓ x)) ν)
    (hK : 0 < K) :
    ∫ x : Fin K → X, (reduceLogsumexp (fun k => ℓ (x k)) - Real.log K) ∂(Measure.pi fun _ => ν) ≤
      ∫ x : Fin (K + 1) → X, (reduceLogsumexp (fun k => ℓ (x k)) - Real.log ((K + 1 : ℕ) : ℝ)) ∂(Measure.pi fun _ => ν) := by
  have hint := integrable_logmean hℓ hi he hK
  have hmp : ∀ j : Fin (K + 1), MeasurePreserving (fun (x : Fin (K + 1) → X) (i : Fin K) => x (j.succAbove i))
      (Measure.pi fun _ => ν) (Measure.pi fun _ => ν) := fun j =>
    (measurePreserving_snd (μ := ν) (ν := Measure.pi fun _ : Fin K => ν)).comp
      (measurePreserving_piFinSuccAbove (fun _ : Fin (K + 1) => ν) j)
  have hj : ∀ j : Fin (K + 1), Integrable (fun x : Fin (K + 1) → X =>
      reduceLogsumexp (fun k : Fin K => ℓ (x (j.succAbove k))) - Real.log K) (Measure.pi fun _ => ν) := fun j =>
    (hmp j).integrable_comp_of_integrable hint
  have hej : ∀ j : Fin (K + 1), ∫ x : Fin (K + 1) → X, (reduceLogsumexp (fun k : Fin K => ℓ (x (j.succAbove k))) - Real.log K)
      ∂(Measure.pi fun _ => ν) =
      ∫ x : Fin K → X, (reduceLogsumexp (fun k => ℓ (x k)) - Real.log K) ∂(Measure.pi fun _ => ν) := fun j => by
    conv_rhs => rw [← (hmp j).map_eq]
    rw [integral_map (hmp j).measurable.aemeasurable (by rw [(hmp j).map_eq]; exact hint.aestronglyMeasurable)]
  have hle := integral_mono ((integrable_finsetSum Finset.univ fun j _ => hj j).div_const ((K + 1 : ℕ) : ℝ))
    (integrable_logmean hℓ hi he K.succ_pos) (fun x => logmean_leave_one_out hK fun k => ℓ (x k))
  refine le_trans (le_of_eq ?_) hle
  rw [integral_div, integral_finsetSum _ fun j _ => hj j]
  simp only [hej, Finset.sum_const, Finset.card_univ, Fintype.card_fin, nsmul_eq_mul]
  have : ((K + 1 : ℕ) : ℝ) ≠ 0 := Nat.cast_ne_zero.2 K.succ_ne_zero
  field_simp

/-- Never above the log of the expected weight. -/
theorem integral_logmean_le (hℓ : Measurable ℓ) (hi : Integrable ℓ ν) (he : Integrable (fun x => Real.exp (ℓ x)) ν)
    (hK : 0 < K) :
    ∫ x : Fin K → X, (reduceLogsumexp (fun k => ℓ (x k)) - Real.log K) ∂(Measure.pi fun _ => ν) ≤
      Real.log (∫ x, Real.exp (ℓ x) ∂ν) := by
  have hK' : (0 : ℝ) < K := Nat.cast_pos.2 hK
  set c := ∫ x, Real.exp (ℓ x) ∂ν with hc
  have hc0 : 0 < c := integral_exp_pos he
  have hs : Integrable (fun x : Fin K → X => (∑ k, Real.exp (ℓ (x k))) / K) (Measure.pi fun _ => ν) :=
    (integrable_finsetSum _ fun k _ => (integral_coord k he).1).div_const _
  have hle : ∀ x : Fin K → X, reduceLogsumexp (fun k => ℓ (x k)) - Real.log K ≤
      (∑ k, Real.exp (ℓ (x k))) / K / c + (Real.log c - 1) := fun x => by
    rw [logmean_eq hK]
    have hp : 0 < (∑ k, Real.exp (ℓ (x k))) / K := div_pos (sum_exp_pos hK _) hK'
    have := Real.log_le_sub_one_of_pos (div_pos hp hc0)
    rw [Real.log_div hp.ne' hc0.ne'] at this
    linarith
  have := integral_mono (integrable_logmean hℓ hi he hK) ((hs.div_const c).add (integrable_const (Real.log c - 1))) hle
  refine this.trans (le_of_eq ?_)
  simp only [Pi.add_apply]
  rw [integral_add (hs.div_const c) (integrable_const _), integral_div, integral_div,
    integral_finsetSum _ fun k _ => (integral_coord k he).1]
  simp only [fun k : Fin K => (integral_coord k he).2, ← hc, Finset.sum_const, Finset.card_univ, Fintype.card_fin, nsmul_eq_mul,
    integral_const, probReal_univ, smul_eq_mul, one_mul]
  field_simp
  ring

/-- Self-normalised importance sampling is consistent. -/
theorem selfnorm_tendsto {Ω : Type*} [MeasurableSpace Ω] {P : Measure Ω} [IsProbabilityMeasure P] {x : ℕ → Ω → X}
    (hx : ∀ i, Measurable (x i)) (hind : Pairwise fun i j => IndepFun (x i) (x j) P) (hlaw : ∀ i, P.map (x i) = ν)
    (hℓ : Measurable ℓ) (he : Integrable (fun x => Real.exp (ℓ x)) ν) {g : X → ℝ} (hg : Measurable g)
    (hge : Integrable (fun x => Real.exp (ℓ x) * g x) ν) :
    ∀ᵐ ω ∂P, Filter.Tendsto (fun K : ℕ => reduceLogsumexp (fun k : Fin K => ℓ (x k ω)) - Real.log K) Filter.atTop
        (nhds (Real.log (∫ x, Real.exp (ℓ x) ∂ν))) ∧
      Filter.Tendsto (fun K : ℕ => ∑ k : Fin K, softmax (fun k : Fin K => ℓ (x k ω)) k * g (x k ω)) Filter.atTop
        (nhds ((∫ x, Real.exp (ℓ x) * g x ∂ν) / ∫ x, Real.exp (ℓ x) ∂ν)) := by
  have main : ∀ f : X → ℝ, Measurable f → Integrable f ν → ∀ᵐ ω ∂P, Filter.Tendsto
      (fun K : ℕ => (∑ k : Fin K, f (x k ω)) / K) Filter.atTop (nhds (∫ x, f x ∂ν)) := fun f hf hfi => by
    have h0 : Integrable (fun ω => f (x 0 ω)) P := by
      have : Integrable f (P.map (x 0)) := by rw [hlaw]; exact hfi
      exact this.comp_measurable (hx 0)
    have h1 := strong_law_ae_real (fun i ω => f (x i ω)) h0 (fun i j hij => (hind hij).comp hf hf) (fun i => by
      have : IdentDistrib (x i) (x 0) P P := ⟨(hx i).aemeasurable, (hx 0).aemeasurable, by rw [hlaw, hlaw]⟩
      exact this.comp hf)
    have e0 : ∫ ω, f (x 0 ω) ∂P = ∫ x, f x ∂ν := by
      rw [← hlaw 0, integral_map (hx 0).aemeasurable hf.aestronglyMeasurable]
    rw [e0] at h1
    filter_upwards [h1] with ω hω
    refine hω.congr fun K => ?_
    rw [Finset.sum_range]
  have hc0 : 0 < ∫ x, Real.exp (ℓ x) ∂ν := integral_exp_pos he
  filter_upwards [main _ (by fun_prop) he, main _ (by fun_prop) hge] with ω h1 h2
  constructor
  · have := (Real.continuousAt_log hc0.ne').tendsto.comp h1
    refine this.congr' ?_
    filter_upwards [Filter.eventually_gt_atTop 0] with K hK
    exact (logmean_eq hK _).symm
  · have := h2.div h1 hc0.ne'
    refine this.congr' ?_
    filter_upwards [Filter.eventually_gt_atTop 0] with K hK
    have hK' : (K : ℝ) ≠ 0 := Nat.cast_ne_zero.2 hK.ne'
    simp only [Pi.div_apply, softmax, div_mul_eq_mul_div, ← Finset.sum_div]
    rw [div_div_div_cancel_right₀ hK']

end bounds

/-! ### the law of the weights -/

/-- Changing the law at the conditioning points by a density changes the predictive process by the same density. -/
theorem predictive_withDensity {U S : Type*} [MeasurableSpace U] [MeasurableSpace S] {prior ν : Measure (U × S)}
    {q : Measure U} [IsProbabilityMeasure q] (hν : IsPredictive prior q ν) {r : U → ENNReal} (hr : Measurable r)
    (hp : prior.map Prod.fst = q.withDensity r) [IsProbabilityMeasure (prior.map Prod.fst)] :
    prior = ν.withDensity fun x => r x.1 := by
  obtain ⟨κ, hκ, hpr, rfl⟩ := hν
  rw [hpr, hp]
  have : IsProbabilityMeasure (q.withDensity r) := hp ▸ inferInstance
  ext s hs
  rw [Measure.compProd_apply hs, withDensity_apply _ hs, lintegral_withDensity_eq_lintegral_mul _ hr (by
    exact Kernel.measurable_kernel_prodMk_left hs), ← lintegral_indicator hs,
    Measure.lintegral_compProd ((show Measurable fun x : U × S => r x.1 from hr.comp measurable_fst).indicator hs)]
  refine lintegral_congr fun u => ?_
  have e : ∀ b, s.indicator (fun x : U × S => r x.1) (u, b) = (Prod.mk u ⁻¹' s).indicator (fun _ => r u) b := fun b => by
    by_cases h : (u, b) ∈ s
    · rw [Set.indicator_of_mem h, Set.indicator_of_mem (show b ∈ Prod.mk u ⁻¹' s from h)]
    · rw [Set.indicator_of_notMem h, Set.indicator_of_notMem (show b ∉ Prod.mk u ⁻¹' s from h)]
  simp only [e]
  rw [lintegral_indicator (measurable_prodMk_left hs), lintegral_const, Pi.mul_apply, Measure.restrict_apply_univ]

variable {n d o p : ℕ}

theorem measurable_logPdf (s : SSM n d) (h : s.Nondegenerate) : Measurable fun x : Ix n d → ℝ => s.logPdf (unstk x) := by
  simp only [SSM.logPdf_eq h]
  have e : ∀ x : Ix n d → ℝ, stk (unstk x) = x := fun x => rfl
  simp only [e]
  unfold gaussLogDensity dotProduct mulVec
  fun_prop

/-- The prior at the inducing points has density `p(u) / q(u)` with respect to `q`. -/
theorem ssm_withDensity {s q : SSM n d} (hs : s.Nondegenerate) (hq : q.Nondegenerate) :
    s.law = q.law.withDensity fun u => ENNReal.ofReal (Real.exp (s.logPdf (unstk u) - q.logPdf (unstk u))) := by
  have e : ∀ x : Ix n d → ℝ, stk (unstk x) = x := fun x => rfl
  have hm : ∀ {s : SSM n d}, s.Nondegenerate → s.law = volume.withDensity fun x =>
      ENNReal.ofReal (Real.exp (s.logPdf (unstk x))) := fun {s} hs => by
    rw [SSM.law_eq_gauss, gaussLaw_eq_withDensity (SSM.Kd_posDef hs)]
    congr 1; funext x
    rw [SSM.logPdf_eq hs, e]
  have m1 := measurable_logPdf s hs
  have m2 := measurable_logPdf q hq
  rw [hm hs, hm hq, ← withDensity_mul _ (by fun_prop) (by fun_prop)]
  congr 1
  funext x
  rw [Pi.mul_apply, ← ENNReal.ofReal_mul (Real.exp_pos _).le, ← Real.exp_add]
  congr 2
  ring

/-- The log ratio is integrable, and its expectation is minus the KL divergence. -/
theorem ssm_logratio {s q : SSM n d} (hs : s.Nondegenerate) (hq : q.Nondegenerate) (hkl : klDiv q.law s.law ≠ ⊤) :
    Integrable (fun u => s.logPdf (unstk u) - q.logPdf (unstk u)) q.law ∧
    ∫ u, (s.logPdf (unstk u) - q.logPdf (unstk u)) ∂q.law = -(klDiv q.law s.law).toReal := by
  have hps : IsProbabilityMeasure s.law := by rw [SSM.law_eq_gauss]; infer_instance
  have hpq : IsProbabilityMeasure q.law := by rw [SSM.law_eq_gauss]; infer_instance
  obtain ⟨hac, hint⟩ := klDiv_ne_top_iff.1 hkl
  have m1 := measurable_logPdf s hs
  have m2 := measurable_logPdf q hq
  have hrn : q.law.rnDeriv s.law =ᵐ[s.law] fun u => ENNReal.ofReal (Real.exp (q.logPdf (unstk u) - s.logPdf (unstk u))) := by
    conv_lhs => rw [ssm_withDensity hq hs]
    exact Measure.rnDeriv_withDensity _ (by fun_prop)
  have hllr : llr q.law s.law =ᵐ[q.law] fun u => q.logPdf (unstk u) - s.logPdf (unstk u) := by
    filter_upwards [hac.ae_le hrn] with u hu
    rw [llr_def]
    simp only [hu, ENNReal.toReal_ofReal (Real.exp_pos _).le, Real.log_exp]
  have e : (fun u => s.logPdf (unstk u) - q.logPdf (unstk u)) =ᵐ[q.law] fun u => -llr q.law s.law u := by
    filter_upwards [hllr] with u hu
    rw [hu]; ring
  refine ⟨hint.neg.congr e.symm, ?_⟩
  rw [integral_congr_ae e, integral_neg, toReal_klDiv hac hint]
  simp

end MF
