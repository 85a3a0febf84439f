import Verif.Lemmas.MomentMatch
import Verif.Lemmas.LogConcave
import Mathlib.MeasureTheory.Measure.CharacteristicFunction.Basic

/-!
# A log-concave factor reduces the variance of a Gaussian
-/

namespace MF
open MeasureTheory ProbabilityTheory MF.Spec
open scoped NNReal

/-- Two independent copies of `N(m, v)` are `a + b` and `a - b` with independent `a ~ N(m, v/2)`, `b ~ N(0, v/2)`. -/
theorem gaussian_rotation (m : ℝ) (v : ℝ≥0) : (gaussianReal m v).prod (gaussianReal m v) =
    ((gaussianReal m (v / 2)).prod (gaussianReal 0 (v / 2))).map fun p : ℝ × ℝ => (p.1 + p.2, p.1 - p.2) := by
  symm
  rw [← charFun_eq_prod_iff]
  intro t
  rw [charFun_apply, integral_map (by fun_prop) (by fun_prop), integral_map (by fun_prop) (by fun_prop)]
  have e : ∀ p : ℝ × ℝ, Complex.exp (↑(inner ℝ (WithLp.toLp 2 (p.1 + p.2, p.1 - p.2)) t) * Complex.I) =
      Complex.exp (↑(t.ofLp.1 + t.ofLp.2) * p.1 * Complex.I) * Complex.exp (↑(t.ofLp.1 - t.ofLp.2) * p.2 * Complex.I) := fun p => by
    rw [← Complex.exp_add]
    congr 1
    simp only [WithLp.prod_inner_apply, RCLike.inner_apply, conj_trivial]
    push_cast
    ring
  simp only [e]
  rw [integral_prod_mul (fun a : ℝ => Complex.exp (↑(t.ofLp.1 + t.ofLp.2) * a * Complex.I))
    (fun b : ℝ => Complex.exp (↑(t.ofLp.1 - t.ofLp.2) * b * Complex.I)), ← charFun_apply_real, ← charFun_apply_real]
  simp only [charFun_gaussianReal, ← Complex.exp_add]
  congr 1
  push_cast
  ring

/-- Averages of an even function that decreases with the distance from zero, weighted with the square. -/
theorem even_decreasing_average {h : ℝ → ℝ} (hc : Continuous h) {B : ℝ} (h0 : ∀ b, 0 ≤ h b) (hB : ∀ b, h b ≤ B)
    (hd : ∀ b c, |b| < |c| → h c < h b) {u : ℝ≥0} (hu : u ≠ 0) :
    ∫ b, (b ^ 2 - u) * h b ∂gaussianReal 0 u < 0 := by
  set β := gaussianReal 0 u with hβ
  have hup : (0 : ℝ) < u := lt_of_le_of_ne u.2 fun h => hu (NNReal.coe_eq_zero.1 h.symm)
  set κ : ℝ := Real.sqrt u with hκ
  have hκ2 : κ ^ 2 = u := Real.sq_sqrt u.2
  have hκ0 : 0 < κ := Real.sqrt_pos.2 hup
  have i2 : Integrable (fun b : ℝ => b ^ 2) β := (memLp_id_gaussianReal' (μ := 0) (v := u) 2 (by simp)).integrable_sq
  have iq : Integrable (fun b : ℝ => b ^ 2 - u) β := i2.sub (integrable_const _)
  have hbd : ∀ (f : ℝ → ℝ), Integrable f β → Integrable (fun b => f b * h b) β := fun f hf => by
    refine hf.mul_bdd (c := B) hc.aestronglyMeasurable (Filter.Eventually.of_forall fun b => ?_)
    rw [Real.norm_eq_abs, abs_of_nonneg (h0 b)]; exact hB b
  have hz : ∫ b, (b ^ 2 - (u : ℝ)) ∂β = 0 := by
    have e := variance_id_gaussianReal (μ := 0) (v := u)
    rw [variance_of_integral_eq_zero (by fun_prop) (by simp [integral_id_gaussianReal])] at e
    simp only [id_eq] at e
    rw [integral_sub i2 (integrable_const _), e, integral_const, probReal_univ, one_smul, sub_self]
  have hle : ∀ b : ℝ, (b ^ 2 - u) * (h b - h κ) ≤ 0 ∧ (|b| ≠ κ → (b ^ 2 - u) * (h b - h κ) < 0) := fun b => by
    rcases lt_trichotomy |b| κ with hb | hb | hb
    · have h1 : b ^ 2 < u := by rw [← hκ2, ← sq_abs]; exact pow_lt_pow_left₀ hb (abs_nonneg b) two_ne_zero
      have h2 := hd b κ (by rwa [abs_of_pos hκ0])
      have := mul_neg_of_neg_of_pos (sub_neg.2 h1) (sub_pos.2 h2)
      exact ⟨this.le, fun _ => this⟩
    · have h1 : b ^ 2 = u := by rw [← hκ2, ← sq_abs, hb]
      exact ⟨by rw [h1, sub_self, zero_mul], fun h => absurd hb h⟩
    · have h1 : (u : ℝ) < b ^ 2 := by rw [← hκ2, ← sq_abs b]; exact pow_lt_pow_left₀ hb hκ0.le two_ne_zero
      have h2 := hd κ b (by rwa [abs_of_pos hκ0])
      have := mul_neg_of_pos_of_neg (sub_pos.2 h1) (sub_neg.2 h2)
      exact ⟨this.le, fun _ => this⟩
  have hint : Integrable (fun b => (b ^ 2 - u) * (h b - h κ)) β := by
    have := (hbd _ iq).sub (iq.mul_const (h κ))
    refine this.congr (Filter.Eventually.of_forall fun b => ?_)
    simp only [Pi.sub_apply]; ring
  have e1 : ∫ b, (b ^ 2 - u) * (h b - h κ) ∂β = ∫ b, (b ^ 2 - u) * h b ∂β := by
    have : (fun b : ℝ => (b ^ 2 - u) * (h b - h κ)) = fun b => (b ^ 2 - u) * h b - (b ^ 2 - u) * h κ := by funext b; ring
    rw [this, integral_sub (hbd _ iq) (iq.mul_const _), integral_mul_const, hz, zero_mul, sub_zero]
  rw [← e1]
  have hn : 0 ≤ ∫ b, -((b ^ 2 - u) * (h b - h κ)) ∂β := integral_nonneg fun b => neg_nonneg.2 (hle b).1
  rw [integral_neg] at hn
  refine lt_of_le_of_ne (by linarith) fun h00 => ?_
  have hae := (integral_eq_zero_iff_of_nonneg (fun b => neg_nonneg.2 (hle b).1) hint.neg).1 (by rw [integral_neg, h00, neg_zero])
  have hfin : β {κ, -κ} = 0 := gaussianReal_absolutelyContinuous 0 hu ((Set.toFinite _).measure_zero volume)
  have hall : ∀ᵐ b ∂β, b ∈ ({κ, -κ} : Set ℝ) := hae.mono fun b hb => by
    by_contra hnot
    have : |b| ≠ κ := fun h => hnot (by
      rcases abs_cases b with ⟨h1, -⟩ | ⟨h1, -⟩
      · left; rw [← h, h1]
      · right; rw [Set.mem_singleton_iff, ← h, h1, neg_neg])
    have h2 := (hle b).2 this
    simp only [Pi.zero_apply, neg_eq_zero] at hb
    rw [hb] at h2
    exact lt_irrefl _ h2
  have h1 : β Set.univ = 0 := le_antisymm (by
    calc β Set.univ ≤ β {κ, -κ} + β {κ, -κ}ᶜ := measure_univ_le_add_compl _
      _ = 0 := by rw [hfin, show β {κ, -κ}ᶜ = 0 from hall, add_zero]) bot_le
  rw [measure_univ] at h1
  exact one_ne_zero h1

theorem strictConcave_pair {g : ℝ → ℝ} (hg : StrictConcaveOn ℝ Set.univ g) (a : ℝ) {b c : ℝ} (h : |b| < |c|) :
    g (a + c) + g (a - c) < g (a + b) + g (a - b) := by
  have hc : c ≠ 0 := abs_pos.1 ((abs_nonneg b).trans_lt h)
  have hr : |b / c| < 1 := by rw [abs_div, div_lt_one (abs_pos.2 hc)]; exact h
  obtain ⟨h1, h2⟩ := abs_lt.1 hr
  have hne : a + c ≠ a - c := fun he => hc (by linarith)
  have p1 : 0 < (1 + b / c) / 2 := by linarith
  have p2 : 0 < (1 - b / c) / 2 := by linarith
  have s1 := hg.2 (Set.mem_univ (a + c)) (Set.mem_univ (a - c)) hne p1 p2 (by ring)
  have s2 := hg.2 (Set.mem_univ (a + c)) (Set.mem_univ (a - c)) hne p2 p1 (by ring)
  simp only [smul_eq_mul] at s1 s2
  rw [show (1 + b / c) / 2 * (a + c) + (1 - b / c) / 2 * (a - c) = a + b by field_simp; ring] at s1
  rw [show (1 - b / c) / 2 * (a + c) + (1 + b / c) / 2 * (a - c) = a - b by field_simp; ring] at s2
  linarith

/-- A strictly log-concave factor makes a Gaussian strictly narrower. -/
theorem tilted_var_lt {g : ℝ → ℝ} (hg : StrictConcaveOn ℝ Set.univ g) {B : ℝ} (hB : ∀ f, g f ≤ B) {m v : ℝ} (hv : 0 < v)
    {τ : Measure ℝ} (hτ : IsBayesPosterior (gaussianReal m v.toNNReal) g τ) : Var[id; τ] < v := by
  have hc : Continuous g := continuousOn_univ.1 (hg.concaveOn.continuousOn isOpen_univ)
  rw [IsBayesPosterior.tilted hc.measurable hτ]
  set V : ℝ≥0 := v.toNNReal with hV
  have hVv : (V : ℝ) = v := Real.coe_toNNReal v hv.le
  set γ := gaussianReal m V with hγ
  have hwb : ∀ f, ‖Real.exp (g f)‖ ≤ Real.exp B := fun f => by
    rw [Real.norm_eq_abs, abs_of_pos (Real.exp_pos _)]; exact Real.exp_le_exp.2 (hB f)
  have hcw : Continuous fun f => Real.exp (g f) := Real.continuous_exp.comp hc
  have i1 : Integrable (fun f : ℝ => f) γ := (memLp_id_gaussianReal 1).integrable le_rfl
  have i2 : Integrable (fun f : ℝ => f ^ 2) γ := (memLp_id_gaussianReal' (μ := m) (v := V) 2 (by simp)).integrable_sq
  have hw : ∀ f : ℝ → ℝ, Integrable f γ → Integrable (fun x => f x * Real.exp (g x)) γ := fun f hf =>
    hf.mul_bdd (c := Real.exp B) hcw.aestronglyMeasurable (Filter.Eventually.of_forall hwb)
  have j0 : Integrable (fun x => Real.exp (g x)) γ := by simpa using hw (fun _ => 1) (integrable_const _)
  have j1 := hw _ i1
  have j2 := hw _ i2
  set Z := ∫ x, Real.exp (g x) ∂γ with hZ
  set A1 := ∫ x, x * Real.exp (g x) ∂γ with hA1
  set A2 := ∫ x, x ^ 2 * Real.exp (g x) ∂γ with hA2
  have hZ0 : 0 < Z := integral_exp_pos j0
  have hτp : IsProbabilityMeasure (γ.tilted g) := isProbabilityMeasure_tilted j0
  have hm1 : ∫ x, id x ∂γ.tilted g = A1 / Z := by
    rw [integral_tilted, hA1, ← integral_div]
    refine integral_congr_ae (Filter.Eventually.of_forall fun x => ?_)
    simp only [id_eq, smul_eq_mul]; ring
  have hm2 : ∫ x, (id ^ 2 : ℝ → ℝ) x ∂γ.tilted g = A2 / Z := by
    rw [integral_tilted, hA2, ← integral_div]
    refine integral_congr_ae (Filter.Eventually.of_forall fun x => ?_)
    simp only [Pi.pow_apply, id_eq, smul_eq_mul]; ring
  have hL2 : MemLp (id : ℝ → ℝ) 2 (γ.tilted g) := by
    refine (memLp_two_iff_integrable_sq (by fun_prop)).2 ?_
    rw [integrable_tilted_iff j0]
    refine j2.congr (Filter.Eventually.of_forall fun x => ?_)
    simp only [id_eq, smul_eq_mul]; ring
  rw [variance_eq_sub hL2, hm1, hm2]
  suffices H : A2 * Z - A1 ^ 2 < v * Z ^ 2 by
    rw [show A2 / Z - (A1 / Z) ^ 2 = (A2 * Z - A1 ^ 2) / Z ^ 2 by field_simp, div_lt_iff₀ (by positivity)]
    exact H
  -- two independent copies
  have k1 : Integrable (fun p : ℝ × ℝ => (p.1 ^ 2 * Real.exp (g p.1)) * Real.exp (g p.2)) (γ.prod γ) := j2.mul_prod j0
  have k2 : Integrable (fun p : ℝ × ℝ => (p.1 * Real.exp (g p.1)) * (p.2 * Real.exp (g p.2))) (γ.prod γ) := j1.mul_prod j1
  have k3 : Integrable (fun p : ℝ × ℝ => Real.exp (g p.1) * (p.2 ^ 2 * Real.exp (g p.2))) (γ.prod γ) := j0.mul_prod j2
  have k4 : Integrable (fun p : ℝ × ℝ => Real.exp (g p.1) * Real.exp (g p.2)) (γ.prod γ) := j0.mul_prod j0
  set F : ℝ × ℝ → ℝ := fun p => ((p.1 - p.2) ^ 2 - 2 * v) * (Real.exp (g p.1) * Real.exp (g p.2)) with hF
  have hFe : F = fun p => (p.1 ^ 2 * Real.exp (g p.1)) * Real.exp (g p.2) - 2 * ((p.1 * Real.exp (g p.1)) * (p.2 * Real.exp (g p.2))) +
      Real.exp (g p.1) * (p.2 ^ 2 * Real.exp (g p.2)) - 2 * v * (Real.exp (g p.1) * Real.exp (g p.2)) := by
    funext p; simp only [hF]; ring
  have hFi : Integrable F (γ.prod γ) := by
    rw [hFe]; exact ((k1.sub (k2.const_mul 2)).add k3).sub (k4.const_mul (2 * v))
  have hFv : ∫ p, F p ∂γ.prod γ = 2 * (A2 * Z - A1 ^ 2) - 2 * v * Z ^ 2 := by
    have q1 : Integrable (fun p : ℝ × ℝ => (p.1 ^ 2 * Real.exp (g p.1)) * Real.exp (g p.2) -
        2 * ((p.1 * Real.exp (g p.1)) * (p.2 * Real.exp (g p.2)))) (γ.prod γ) := k1.sub (k2.const_mul 2)
    have q2 : Integrable (fun p : ℝ × ℝ => (p.1 ^ 2 * Real.exp (g p.1)) * Real.exp (g p.2) -
        2 * ((p.1 * Real.exp (g p.1)) * (p.2 * Real.exp (g p.2))) + Real.exp (g p.1) * (p.2 ^ 2 * Real.exp (g p.2))) (γ.prod γ) := q1.add k3
    rw [hFe]
    refine (integral_sub q2 (k4.const_mul (2 * v))).trans ?_
    rw [integral_add q1 k3, integral_sub k1 (k2.const_mul 2), integral_const_mul, integral_const_mul,
      integral_prod_mul (fun x => x ^ 2 * Real.exp (g x)) (fun x => Real.exp (g x)),
      integral_prod_mul (fun x => x * Real.exp (g x)) (fun x => x * Real.exp (g x)),
      integral_prod_mul (fun x => Real.exp (g x)) (fun x => x ^ 2 * Real.exp (g x)),
      integral_prod_mul (fun x => Real.exp (g x)) (fun x => Real.exp (g x))]
    ring
  suffices H : ∫ p, F p ∂γ.prod γ < 0 by rw [hFv] at H; linarith
  have hFm : AEStronglyMeasurable F (γ.prod γ) := hFi.aestronglyMeasurable
  rw [hγ, gaussian_rotation, integral_map (by fun_prop) (by rw [← gaussian_rotation]; exact hFm)]
  have hFi' : Integrable (fun p : ℝ × ℝ => F (p.1 + p.2, p.1 - p.2)) ((gaussianReal m (V / 2)).prod (gaussianReal 0 (V / 2))) := by
    have := hFi
    rw [hγ, gaussian_rotation] at this
    exact (integrable_map_measure (by rw [← gaussian_rotation]; exact hFm) (by fun_prop)).1 this
  rw [integral_prod _ hFi']
  have hu : V / 2 ≠ 0 := by
    rw [← NNReal.coe_ne_zero]; push_cast; rw [hVv]; positivity
  have hin : ∀ a : ℝ, ∫ b, F (a + b, a - b) ∂gaussianReal 0 (V / 2) < 0 := fun a => by
    have e : (fun b : ℝ => F (a + b, a - b)) = fun b => 4 * ((b ^ 2 - ((V / 2 : ℝ≥0) : ℝ)) * (Real.exp (g (a + b)) * Real.exp (g (a - b)))) := by
      funext b
      simp only [hF]
      push_cast
      rw [hVv]
      ring
    rw [e, integral_const_mul]
    refine mul_neg_of_pos_of_neg (by norm_num) (even_decreasing_average (B := Real.exp B * Real.exp B) ?_ (fun b => by positivity)
      (fun b => ?_) (fun b c hbc => ?_) hu)
    · fun_prop
    · exact mul_le_mul (Real.exp_le_exp.2 (hB _)) (Real.exp_le_exp.2 (hB _)) (Real.exp_pos _).le (Real.exp_pos _).le
    · rw [← Real.exp_add, ← Real.exp_add, Real.exp_lt_exp]
      exact strictConcave_pair hg a hbc
  have hn : 0 ≤ ∫ a, -(∫ b, F (a + b, a - b) ∂gaussianReal 0 (V / 2)) ∂gaussianReal m (V / 2) := integral_nonneg fun a => by
    exact neg_nonneg.2 (hin a).le
  rw [integral_neg] at hn
  refine lt_of_le_of_ne (by linarith) fun h00 => ?_
  have hae := (integral_eq_zero_iff_of_nonneg (fun a => neg_nonneg.2 (hin a).le) hFi'.integral_prod_left.neg).1
    (by rw [integral_neg, h00, neg_zero])
  obtain ⟨a, ha⟩ := hae.exists
  have := hin a
  simp only [Pi.zero_apply, neg_eq_zero] at ha
  rw [ha] at this
  exact lt_irrefl _ this

end MF
