import Verif.Model.PiecewiseVariational
import Verif.Props.PiecewiseModels
import Verif.Props.CVI

/-!
# Lemmas for the variational models over piecewise kernels
-/

namespace MF
open Matrix Spec MeasureTheory ProbabilityTheory InformationTheory
variable {n d o p m : ℕ}
variable {ker : Fin (m + 1) → Stationary o d} {k : Fin (m + 1) → ℝ → ℝ → Mat o o} {cp : Fin m → ℝ}

/-- The prior at the conditioning times and the same times again: the states twice. -/
theorem PWValid.prior_dup {K : Piecewise o d} {ts : Fin (n + 1) → ℝ} (h : PWValid ker k cp K ts) :
    pwPrior ker cp ts ts = (gpLaw (fun _ => 0) (pwStateCov ker cp (ts 0)) ts).map fun x => (x, x) := by
  have h0 : ∀ i, ts 0 ≤ ts i := fun i => h.times.monotone (Fin.zero_le i)
  have hc := gaussLaw_comp (h.psd ts h0) (fun i : Fin (n + 1) × Fin d => (0 : Vec d) i.2)
    (fun i : (Fin (n + 1) ⊕ Fin (n + 1)) × Fin d => (Sum.elim id id i.1, i.2))
  have e : gpLaw (fun _ => 0) (pwStateCov ker cp (ts 0)) (Sum.elim ts ts) =
      (gpLaw (fun _ => 0) (pwStateCov ker cp (ts 0)) ts).map
        (fun x => x ∘ fun i : (Fin (n + 1) ⊕ Fin (n + 1)) × Fin d => (Sum.elim id id i.1, i.2)) := by
    unfold gpLaw
    rw [hc]
    congr 1
    ext ⟨i, a⟩ ⟨j, b⟩
    rcases i with i | i <;> rcases j with j | j <;> rfl
  unfold pwPrior
  rw [e, Measure.map_map measurable_atTimes (by fun_prop)]
  rfl

/-- Predicting at the conditioning times returns the marginals of `q`. -/
theorem PWValid.predict_at_training {c : PWProcess n o d} (h : PWValid ker k cp c.kernel c.times)
    (hq : c.q.Nondegenerate) : ∃ r, c.predictState c.times = .ok r ∧ ∀ i, r i = (c.q.mus i, blk c.q.Kd i i) := by
  have h0 : ∀ i, c.times 0 ≤ c.times i := fun i => h.times.monotone (Fin.zero_le i)
  obtain ⟨r, hr, hpsd, ν, hν, hm⟩ := C57_predict_state h hq h.times.monotone h0
    fun i => h.times.monotone (Fin.le_last i)
  refine ⟨r, hr, fun i => ?_⟩
  have hpq : IsProbabilityMeasure c.q.law := by rw [SSM.law_eq_gauss]; infer_instance
  obtain ⟨s, hs, hnd, -, -⟩ := h.ssm
  obtain ⟨kl, -, hkl', -, -⟩ := C13_kl_divergence c.q s hq hnd h.two (h.core 0).pos
  have hpp : IsProbabilityMeasure (pwPrior ker cp c.times c.times) := by
    rw [h.prior_dup]
    have : IsProbabilityMeasure (gpLaw (fun _ => (0 : Vec d)) (pwStateCov ker cp (c.times 0)) c.times) := by
      unfold gpLaw; infer_instance
    exact Measure.isProbabilityMeasure_map (by fun_prop)
  obtain ⟨hprob, hkν⟩ := klDiv_predictive (q := c.q.law) hν
  have hac : ν ≪ pwPrior ker cp c.times c.times := by
    have : klDiv ν (pwPrior ker cp c.times c.times) ≠ ⊤ := by
      rw [hkν, ← (h.prior_fst h0 hs).1, show klDiv c.q.law s.law = _ from hkl']
      exact ENNReal.ofReal_ne_top
    exact (klDiv_ne_top_iff.1 this).1
  have hdup : ∀ᵐ x ∂pwPrior ker cp c.times c.times, x.1 = x.2 := by
    rw [h.prior_dup, ae_map_iff (by fun_prop) (measurableSet_eq_fun measurable_fst measurable_snd)]
    exact Filter.Eventually.of_forall fun _ => rfl
  have hdup := hac.ae_le hdup
  have hfst : ν.map Prod.fst = c.q.law := by
    obtain ⟨κ, hκ, -, rfl⟩ := hν
    exact Measure.fst_compProd _ _
  have e1 : ν.map (fun x => fun a : Fin d => x.2 (i, a)) = c.q.law.map fun x a => x (i, a) := by
    rw [← hfst, Measure.map_map (by fun_prop) measurable_fst]
    refine Measure.map_congr ?_
    filter_upwards [hdup] with x hx
    simp only [Function.comp_apply, hx]
  have e2 : (c.q.law.map fun x (a : Fin d) => x (i, a)) = gaussLaw (c.q.mus i) (blk c.q.Kd i i) := by
    rw [SSM.law_eq_gauss]
    exact gaussLaw_comp c.q.Kd_posSemidef _ fun a : Fin d => (i, a)
  rw [hm i, e2] at e1
  obtain ⟨a1, a2⟩ := (SSM.gaussLaw_inj (hpsd i) (c.q.Kd_posSemidef.submatrix fun a : Fin d => (i, a))).1 e1
  exact Prod.ext a1 a2

theorem PWValid.predict_ok {c : PWProcess n o d} (h : PWValid ker k cp c.kernel c.times) (hq : c.q.Nondegenerate) :
    ∃ f, c.predictFDiag c.times = .ok f ∧ ∀ i a,
      (f i).1 a = (pwEmission ker cp (c.times i) *ᵥ c.q.mus i) a + c.meanFunction (c.times i) a ∧
      (f i).2 a = (outMat (pwOut ker cp) c.times * c.q.Kd * (outMat (pwOut ker cp) c.times)ᵀ) (i, a) (i, a) := by
  obtain ⟨r, hr, hrv⟩ := h.predict_at_training hq
  obtain ⟨f, hf, hfv⟩ := (h.predictF h.times.monotone (fun i => h.times.monotone (Fin.zero_le i))
    (fun i => h.times.monotone (Fin.le_last i)) hr).2
  refine ⟨f, hf, fun i a => ⟨?_, ?_⟩⟩
  · rw [(hfv i).1, hrv i]; rfl
  · rw [(hfv i).2 a, hrv i, outMat_conj_diag]
    rfl

theorem pwLatent_eq_latentOf (mf : ℝ → Vec o) (ts : Fin (n + 1) → ℝ) :
    pwLatent ker cp mf ts = latentOf (pwOut ker cp) mf ts := rfl

/-- The prior pushed to the outputs. -/
theorem PWValid.prior_outputs {K : Piecewise o d} {ts : Fin (n + 1) → ℝ} (h : PWValid ker k cp K ts) (mf : ℝ → Vec o)
    {s : SSM n d} (hs : K.stateSpaceModel approxInf ts = .ok s) :
    s.law.map (pwLatent ker cp mf ts) = gpLaw mf (pwKernel ker cp (ts 0)) ts ∧
    ∀ {lik}, ExactLikelihood lik → ∀ y : Fin (n + 1) → Vec o,
      evidence s.law (fun x => outputLogLik lik y (pwLatent ker cp mf ts x)) =
        evidence (gpLaw mf (pwKernel ker cp (ts 0)) ts) (outputLogLik lik y) := by
  obtain ⟨s', hs', -, h1, h2⟩ := h.ssm
  obtain rfl : s = s' := Except.ok.inj (hs.symm.trans hs')
  have hl : s.law.map (pwLatent ker cp mf ts) = gpLaw mf (pwKernel ker cp (ts 0)) ts := by
    rw [pwLatent_eq_latentOf, SSM.law_eq_gauss, latentOf_eq, gaussLaw_map_affine s.Kd_posSemidef, h1, h2, mulVec_zero,
      add_zero, h.out_conj]
    rfl
  refine ⟨hl, fun {lik} hlik y => ?_⟩
  rw [← hl]
  unfold evidence
  have hml : Measurable (pwLatent ker cp mf ts) := measurable_latentOf (pwOut ker cp) mf ts
  rw [lintegral_map _ hml]
  have := measurable_outputLogLik hlik y
  fun_prop

theorem PWCVI.emissions_ok {ker : Fin (m + 1) → Stationary 1 d} {k : Fin (m + 1) → ℝ → ℝ → Mat 1 1} {c : PWCVI n d}
    (h : PWValid ker k cp c.kernel c.times) : c.emissions = .ok fun i => (pwOut ker cp).emission (c.times i) := by
  unfold PWCVI.emissions
  rw [pw_emissions ker cp h.made h.one h.times.monotone (fun q => (h.range q).1) (fun q => (h.range q).2)]
  simp only [Bind.bind, Except.bind, toFin_map]
  rfl

/-- `dist_q`, generically. -/
theorem PWCVI.distQ_cases {ker : Fin (m + 1) → Stationary 1 d} {k : Fin (m + 1) → ℝ → ℝ → Mat 1 1} {c : PWCVI n d}
    (h : PWValid ker k cp c.kernel c.times) {s : SSM n d} (hs : c.kernel.stateSpaceModel approxInf c.times = .ok s)
    (hnd : s.Nondegenerate) (h0 : stk s.mus = 0) :
    let θ₂ : Fin (n + 1) → Vec 1 := fun t a => c.sites.nat2 t a 0
    let M := denseSym (backProjectNats c.sites.nat1 θ₂ fun t => (pwOut ker cp).emission (c.times t)).2 (0 : Fin n → Mat d d)
    ((s.Kd⁻¹ - (2 : ℝ) • M).PosDef → ∃ q, c.distQ = .ok q ∧ q.Nondegenerate ∧
      IsBayesPosterior s.law (fun x => siteLogLik (fun t => c.sites.nat1 t 0) (fun t => c.sites.nat2 t 0 0)
        (latent1 (pwOut ker cp) c.times x)) q.law) ∧
    (¬ (s.Kd⁻¹ - (2 : ℝ) • M).PosDef → c.distQ = .error .invalidArgument) := by
  intro θ₂ M
  have hdq : c.distQ = naturalsToSSM
      (backProjectNats c.sites.nat1 θ₂ fun t => (pwOut ker cp).emission (c.times t)).1
      (fun b => (-(1 / 2) : ℝ) • s.precD b +
        (backProjectNats c.sites.nat1 θ₂ fun t => (pwOut ker cp).emission (c.times t)).2 b)
      (fun k => -s.precS k + (2 : ℝ) • (0 : Fin n → Mat d d) k) := by
    unfold PWCVI.distQ PWCVI.distP
    rw [hs]
    simp only [bind, Except.bind, SSM.precision_eq hnd h.two, PWCVI.emissions_ok h, Option.getD_some, Pi.zero_apply,
      smul_zero, add_zero]
    rfl
  obtain ⟨h1, h2⟩ := naturals_posterior hnd h0 h.two (h.core 0).pos
    (backProjectNats c.sites.nat1 θ₂ fun t => (pwOut ker cp).emission (c.times t)).1
    (backProjectNats c.sites.nat1 θ₂ fun t => (pwOut ker cp).emission (c.times t)).2 (0 : Fin n → Mat d d)
    (backProject_symm _ _ _ _)
  constructor
  · intro hP
    obtain ⟨q, hq, hqn, -, -, hb, -⟩ := h1 hP
    refine ⟨q, hdq.trans hq, hqn, ?_⟩
    simp only [backProject_quad] at hb
    exact hb
  · intro hP
    exact hdq.trans (h2 hP)

end MF
