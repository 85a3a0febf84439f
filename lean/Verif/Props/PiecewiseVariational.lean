import Verif.Lemmas.PiecewiseVariational

/-!
# C74: variational models over piecewise kernels

`VariationalGaussianProcess` and `CVIGaussianProcess` whose kernel is a `PiecewiseKernel`. Specification vocabulary:
that of C33, C34 (`evidence`, `IsBayesPosterior`, `klDiv`, `siteLogLik`, `outputLogLik`) and of C57 (`pwKernel`, the
covariance function of the piecewise process; `pwEmission`, `pwLatent`, its outputs).
-/

namespace MF
open Matrix Spec MeasureTheory ProbabilityTheory InformationTheory
variable {n d o p m : ℕ}

section VGP
variable {ker : Fin (m + 1) → Stationary o d} {k : Fin (m + 1) → ℝ → ℝ → Mat o o} {cp : Fin m → ℝ}

/-- C74: at the conditioning times themselves, `predict_state` returns the marginals of `q`, and `predict_f` their images
under the emissions plus the mean function, whatever the piecewise prior. -/
theorem C74_training_marginals {c : PWProcess n o d} (h : PWValid ker k cp c.kernel c.times) (hq : c.q.Nondegenerate) :
    ∃ r f, c.predictState c.times = .ok r ∧ c.predictF c.times = .ok f ∧ ∀ i,
      (r i).2.PosSemidef ∧ c.q.law.map (fun x => unstk x i) = gaussLaw (r i).1 (r i).2 ∧
      (f i).1 = pwEmission ker cp (c.times i) *ᵥ (r i).1 + c.meanFunction (c.times i) ∧
      (f i).2 = pwEmission ker cp (c.times i) * (r i).2 * (pwEmission ker cp (c.times i))ᵀ := by
  obtain ⟨r, hr, hrv⟩ := h.predict_at_training hq
  obtain ⟨f, hf, hfv⟩ := (h.predictF h.times.monotone (fun i => h.times.monotone (Fin.zero_le i))
    (fun i => h.times.monotone (Fin.le_last i)) hr).1
  refine ⟨r, f, hr, hf, fun i => ⟨?_, ?_, (hfv i).1, (hfv i).2⟩⟩
  · rw [hrv i]
    exact c.q.Kd_posSemidef.submatrix fun a : Fin d => (i, a)
  · rw [hrv i, SSM.law_eq_gauss]
    exact gaussLaw_comp c.q.Kd_posSemidef _ fun a : Fin d => (i, a)

/-- The computed value: expected log likelihood under `q` minus the KL divergence from the prior. -/
theorem PWVGP.elbo_value {v : PWVGP n o d} (h : PWValid ker k cp v.kernel v.times) (hq : v.q.Nondegenerate)
    (hlik : ExactLikelihood v.likelihood) :
    ∃ (s : SSM n d) (e kl : ℝ), v.distP = .ok s ∧ s.Nondegenerate ∧
      v.elbo = .ok e ∧ v.loss = .ok (-e) ∧ klDiv v.q.law s.law = ENNReal.ofReal kl ∧ 0 ≤ kl ∧
      Integrable (fun x => outputLogLik v.likelihood v.observations (pwLatent ker cp v.meanFunction v.times x))
        v.q.law ∧
      e = (∫ x, outputLogLik v.likelihood v.observations (pwLatent ker cp v.meanFunction v.times x) ∂v.q.law)
        - kl := by
  obtain ⟨s, hs, hnd, -, -⟩ := h.ssm
  obtain ⟨kl, hkl, hkl', hkl0, -⟩ := C13_kl_divergence v.q s hq hnd h.two (h.core 0).pos
  obtain ⟨f, hf, hfv⟩ := PWValid.predict_ok (c := v.posterior) h hq
  have hC : (outMat (pwOut ker cp) v.times * v.q.Kd * (outMat (pwOut ker cp) v.times)ᵀ).PosSemidef :=
    posSemidef_conj' v.q.Kd_posSemidef _
  obtain ⟨hi, hv⟩ := integral_outputLogLik hlik v.observations
    (fun i => ((pwOut ker cp).emission (v.times i.1) *ᵥ v.q.mus i.1) i.2 + v.meanFunction (v.times i.1) i.2) hC
  rw [← latentOf_gauss] at hi hv
  rw [integral_map (measurable_latentOf _ _ _).aemeasurable
    (measurable_outputLogLik hlik _).aestronglyMeasurable] at hv
  have hve : (∑ i, v.likelihood.varExps (f i).1 (f i).2 (v.observations i)) =
      ∫ x, outputLogLik v.likelihood v.observations (pwLatent ker cp v.meanFunction v.times x) ∂v.q.law := by
    rw [pwLatent_eq_latentOf, hv]
    refine Finset.sum_congr rfl fun i _ => Finset.sum_congr rfl fun a _ => ?_
    rw [(hfv i a).1, (hfv i a).2]
    rfl
  have he : v.elbo = .ok ((∫ x, outputLogLik v.likelihood v.observations
      (pwLatent ker cp v.meanFunction v.times x) ∂v.q.law) - kl) := by
    unfold PWVGP.elbo PWVGP.distP
    simp only [show v.posterior.times = v.times from rfl] at hf
    rw [hf, hs]
    simp only [bind, Except.bind, hkl, pure, Except.pure, hve]
  refine ⟨s, _, kl, hs, hnd, he, ?_, hkl', hkl0, hi.comp_measurable (measurable_latentOf _ _ _), rfl⟩
  unfold PWVGP.loss
  rw [he]
  rfl

/-- C74: `log p(y) = elbo() + KL(q ‖ posterior)` for every `q`, data set and likelihood with exact variational
expectations, whenever the posterior exists, `p(y)` being the evidence of the Gaussian process model with the covariance
function of the piecewise process. Hence `elbo()` is a lower bound, with equality exactly when `q` is the posterior. -/
theorem C74_vgp_elbo {v : PWVGP n o d} (h : PWValid ker k cp v.kernel v.times) (hq : v.q.Nondegenerate)
    (hlik : ExactLikelihood v.likelihood) :
    ∃ (s : SSM n d) (e : ℝ), v.distP = .ok s ∧ v.elbo = .ok e ∧ v.loss = .ok (-e) ∧
      ∀ post, IsBayesPosterior s.law
          (fun x => outputLogLik v.likelihood v.observations (pwLatent ker cp v.meanFunction v.times x)) post →
        klDiv v.q.law post ≠ ⊤ ∧
        Real.log (evidence (gpLaw v.meanFunction (pwKernel ker cp (v.times 0)) v.times)
          (outputLogLik v.likelihood v.observations)).toReal = e + (klDiv v.q.law post).toReal ∧
        e ≤ Real.log (evidence (gpLaw v.meanFunction (pwKernel ker cp (v.times 0)) v.times)
          (outputLogLik v.likelihood v.observations)).toReal ∧
        (e = Real.log (evidence (gpLaw v.meanFunction (pwKernel ker cp (v.times 0)) v.times)
          (outputLogLik v.likelihood v.observations)).toReal ↔ v.q.law = post) := by
  obtain ⟨s, e, kl, hs, hnd, he, hl, hkl, hkl0, hi, hev⟩ := PWVGP.elbo_value h hq hlik
  refine ⟨s, e, hs, he, hl, fun post hpost => ?_⟩
  have hpq : IsProbabilityMeasure v.q.law := by rw [SSM.law_eq_gauss]; infer_instance
  have hps : IsProbabilityMeasure s.law := by rw [SSM.law_eq_gauss]; infer_instance
  have hml : Measurable (pwLatent ker cp v.meanFunction v.times) := measurable_latentOf (pwOut ker cp) _ _
  have hm := (measurable_outputLogLik hlik v.observations).comp hml
  obtain ⟨h1, h2⟩ := elbo_identity hm hpost (by rw [hkl]; exact ENNReal.ofReal_ne_top) hi
  simp only [Function.comp_def] at h2
  rw [(h.prior_outputs v.meanFunction hs).2 hlik, hkl, ENNReal.toReal_ofReal hkl0, ← hev] at h2
  have hpp : IsProbabilityMeasure post := by
    rw [IsBayesPosterior.tilted hm hpost]
    exact isProbabilityMeasure_tilted (IsBayesPosterior.integrable_exp hm hpost)
  refine ⟨h1, h2, by rw [h2]; linarith [ENNReal.toReal_nonneg (a := klDiv v.q.law post)], ?_⟩
  rw [h2, ← klDiv_eq_zero_iff]
  constructor
  · intro h3
    have h0 : (klDiv v.q.law post).toReal = 0 := by linarith
    exact (ENNReal.toReal_eq_zero_iff _).1 h0 |>.resolve_right h1
  · intro h3
    rw [h3]; simp

/-- The regression model with the same data and noise variance `σ2`. -/
noncomputable def PWVGP.toGPR (v : PWVGP n o d) (σ2 : ℝ) : PWGPR n o d :=
  ⟨v.times, v.observations, v.kernel, v.meanFunction, Real.sqrt σ2 • 1⟩

theorem noiseFactor_sqrt {σ2 : ℝ} (hσ : 0 < σ2) : NoiseFactor (Real.sqrt σ2 • (1 : Mat o o)) := by
  refine ⟨fun i j hij => ?_, fun i => ?_⟩
  · simp [hij.ne]
  · simpa using (Real.sqrt_pos.2 hσ).ne'

/-- The evidence of regression, over states and over outputs. -/
theorem PWGPR.evidence_gaussian {g : PWGPR n o d} (h : PWValid ker k cp g.kernel g.times) {σ2 : ℝ} (hσ : 0 < σ2)
    (hf : g.cholObsCov = Real.sqrt σ2 • 1) :
    ∃ (s : SSM n d) (r : ℝ) (c : PWProcess n o d), g.kernel.stateSpaceModel approxInf g.times = .ok s ∧
      g.logLikelihood = .ok r ∧ g.posterior = .ok c ∧
      evidence s.law (fun x => outputLogLik (gaussianLikelihood σ2) g.observations
        (pwLatent ker cp g.meanFunction g.times x)) = ENNReal.ofReal (Real.exp r) ∧
      IsBayesPosterior s.law (fun x => outputLogLik (gaussianLikelihood σ2) g.observations
        (pwLatent ker cp g.meanFunction g.times x)) c.q.law := by
  have hnf : NoiseFactor g.cholObsCov := hf ▸ noiseFactor_sqrt hσ
  have hll := obsLogLik_residuals (K := pwOut ker cp) hσ g.meanFunction g.times g.observations
  obtain ⟨s, c, hs, hc, -, -, -, -, hb⟩ := PWGPR.posterior_ok h hnf
  obtain ⟨s', hnd, hs', -, -, hk⟩ := PWGPR.kalman_ok h
  obtain rfl : s = s' := Except.ok.inj (hs.symm.trans hs')
  obtain ⟨r, hr, hev, -⟩ := C19_log_likelihood s (fun i => pwEmission ker cp (g.times i))
    (fun i => g.observations i - g.meanFunction (g.times i)) g.cholObsCov hnd hnf h.two (h.core 0).pos
  rw [hf] at hb hev
  refine ⟨s, r, c, hs, ?_, hc, ?_, ?_⟩
  · unfold PWGPR.logLikelihood
    rw [hk]
    exact hr
  · rw [pwLatent_eq_latentOf, ← hll]
    exact hev
  · rw [pwLatent_eq_latentOf, ← hll]
    exact hb

/-- C74 for a Gaussian likelihood of variance `σ2`: with `L` the log marginal likelihood and `c` the posterior computed by
`GaussianProcessRegression` with the same piecewise kernel, `L = elbo() + KL(q ‖ c)`; `elbo() ≤ L`, with equality exactly
when `q` and the exact posterior have the same law. -/
theorem C74_vgp_gaussian {v : PWVGP n o d} (h : PWValid ker k cp v.kernel v.times) (hq : v.q.Nondegenerate) {σ2 : ℝ}
    (hσ : 0 < σ2) (hlik : v.likelihood = gaussianLikelihood σ2) :
    ∃ (e L : ℝ) (c : PWProcess n o d), v.elbo = .ok e ∧ v.loss = .ok (-e) ∧
      (v.toGPR σ2).logLikelihood = .ok L ∧ (v.toGPR σ2).posterior = .ok c ∧
      klDiv v.q.law c.q.law ≠ ⊤ ∧ L = e + (klDiv v.q.law c.q.law).toReal ∧ e ≤ L ∧
      (e = L ↔ v.q.law = c.q.law) := by
  have hex : ExactLikelihood v.likelihood := hlik ▸ gaussianLikelihood_exact σ2
  obtain ⟨s, e, hs, he, hl, hall⟩ := C74_vgp_elbo h hq hex
  obtain ⟨s', r, c, hs', hL, hc, hev, hb⟩ := PWGPR.evidence_gaussian (g := v.toGPR σ2) h hσ rfl
  obtain rfl : s = s' := Except.ok.inj (hs.symm.trans hs')
  have hrl : r = Real.log (evidence (gpLaw v.meanFunction (pwKernel ker cp (v.times 0)) v.times)
      (outputLogLik v.likelihood v.observations)).toReal := by
    rw [← (h.prior_outputs v.meanFunction hs).2 hex, hlik]
    rw [show evidence s.law (fun x => outputLogLik (gaussianLikelihood σ2) v.observations
        (pwLatent ker cp v.meanFunction v.times x)) = _ from hev,
      ENNReal.toReal_ofReal (Real.exp_pos _).le, Real.log_exp]
  obtain ⟨h1, h2, h3, h4⟩ := hall c.q.law (by rw [hlik]; exact hb)
  rw [← hrl] at h2 h3 h4
  exact ⟨e, r, c, he, hl, hL, hc, h1, h2, h3, h4⟩

/-- C74, the constructor: without an initial distribution `q` starts at the piecewise prior, and `elbo()` is then the prior
expectation of the log likelihood; with one, `q` starts there. A missing mean function is zero. -/
theorem C74_vgp_init {times : Fin (n + 1) → ℝ} {y : Fin (n + 1) → Vec o} {K : Piecewise o d}
    (h : PWValid ker k cp K times) {lik} (hlik : ExactLikelihood lik) (mf : Option (ℝ → Vec o)) :
    (∃ v e, PWVGP.init times y K lik mf none = .ok v ∧ v.q.Nondegenerate ∧ v.kernel = K ∧ v.times = times ∧
      v.meanFunction = mf.getD (fun _ => 0) ∧
      v.elbo = .ok e ∧ e = ∫ f, outputLogLik lik y f ∂gpLaw (mf.getD fun _ => 0) (pwKernel ker cp (times 0)) times) ∧
    (∀ q0 : SSM n d, q0.Nondegenerate → ∃ v, PWVGP.init times y K lik mf (some q0) = .ok v ∧ v.kernel = K ∧
      v.times = times ∧ v.q = q0 ∧ v.meanFunction = mf.getD (fun _ => 0)) := by
  have hcopy : ∀ s : SSM n d, s.Nondegenerate → s.createTrainableCopy = s := by
    intro s hs
    unfold SSM.createTrainableCopy
    rw [show tril s.cholP0 = s.cholP0 from (hs 0).1.tril_eq,
      show (fun k => tril (s.cholQ k)) = s.cholQ from funext fun k => (hs k.succ).1.tril_eq]
  constructor
  · obtain ⟨s, hs, hnd, -, -⟩ := h.ssm
    obtain ⟨s', e, kl, hs', -, he, -, hkl, hkl0, -, hev⟩ := PWVGP.elbo_value
      (v := (⟨times, y, K, lik, mf.getD fun _ => 0, s⟩ : PWVGP n o d)) h hnd hlik
    obtain rfl : s = s' := Except.ok.inj (hs.symm.trans hs')
    refine ⟨_, e, ?_, hnd, rfl, rfl, rfl, he, ?_⟩
    · unfold PWVGP.init
      simp only [hs, bind, Except.bind, pure, Except.pure, hcopy s hnd]
    · have hps : IsProbabilityMeasure s.law := by rw [SSM.law_eq_gauss]; infer_instance
      have hz : kl = 0 := by
        change klDiv s.law s.law = _ at hkl
        rw [klDiv_self] at hkl
        exact le_antisymm (ENNReal.ofReal_eq_zero.1 hkl.symm) hkl0
      rw [hev, hz, sub_zero, ← (h.prior_outputs (mf.getD fun _ => 0) hs).1,
        integral_map (φ := pwLatent ker cp (mf.getD fun _ => 0) times)
          (measurable_latentOf (pwOut ker cp) _ _).aemeasurable
          (measurable_outputLogLik hlik _).aestronglyMeasurable]
  · intro q0 hq0
    refine ⟨⟨times, y, K, lik, mf.getD fun _ => 0, q0⟩, ?_, rfl, rfl, rfl, rfl⟩
    unfold PWVGP.init
    simp only [bind, Except.bind, pure, Except.pure, hcopy q0 hq0]

end VGP

section CVI
variable {ker : Fin (m + 1) → Stationary 1 d} {k : Fin (m + 1) → ℝ → ℝ → Mat 1 1} {cp : Fin m → ℝ}

/-- The latent value at each time: `f_t = H(t) x_t`, `H` the emission of the kernel in force at `t`. -/
noncomputable def pwLatent1 (ker : Fin (m + 1) → Stationary 1 d) (cp : Fin m → ℝ) (ts : Fin (n + 1) → ℝ)
    (x : Fin (n + 1) × Fin d → ℝ) (t : Fin (n + 1)) : ℝ :=
  (pwEmission ker cp (ts t) *ᵥ unstk x t) 0

theorem pwLatent1_eq (ts : Fin (n + 1) → ℝ) : pwLatent1 ker cp ts = latent1 (pwOut ker cp) ts := by
  funext x t
  rw [latent1_eq]
  rfl

/-- C74: `dist_q` is the piecewise prior times the sites whenever it can be built; it can be built for all sites with
`nat2 ≤ 0`. Otherwise it raises. -/
theorem C74_cvi_dist_q {c : PWCVI n d} (h : PWValid ker k cp c.kernel c.times) : ∃ s : SSM n d, c.distP = .ok s ∧
    (∀ q, c.distQ = .ok q → q.Nondegenerate ∧
      IsBayesPosterior s.law (fun x => siteLogLik (fun t => c.sites.nat1 t 0) (fun t => c.sites.nat2 t 0 0)
        (pwLatent1 ker cp c.times x)) q.law) ∧
    ((∀ t, c.sites.nat2 t 0 0 ≤ 0) → ∃ q, c.distQ = .ok q) ∧
    ((∃ q, c.distQ = .ok q) ∨ c.distQ = .error .invalidArgument) := by
  obtain ⟨s, hs, hnd, h0, -⟩ := h.ssm
  obtain ⟨h1, h2⟩ := PWCVI.distQ_cases h hs hnd h0
  have hem := (Classical.em _).imp h1 h2
  rw [pwLatent1_eq]
  refine ⟨s, hs, fun q hq => ?_, fun hneg => ?_, ?_⟩
  · rcases hem with ⟨q', hq', hn', hb⟩ | he
    · obtain rfl : q = q' := Except.ok.inj (hq.symm.trans hq')
      exact ⟨hn', hb⟩
    · rw [he] at hq; cases hq
  · obtain ⟨q, hq, -⟩ := h1 (backProject_posDef _ _ _ _ hneg (SSM.Kd_posDef hnd).inv)
    exact ⟨q, hq⟩
  · exact hem.imp (fun ⟨q', hq', _⟩ => ⟨q', hq'⟩) id

/-- C74: for sites with `nat2 < 0`, `dist_q` and the Kalman filter of `posterior_kalman` have the same law, and `elbo()` is
the log evidence of the model whose likelihood is replaced by the sites. -/
theorem C74_cvi_kalman {c : PWCVI n d} (h : PWValid ker k cp c.kernel c.times) (hneg : ∀ t, c.sites.nat2 t 0 0 < 0) :
    ∃ (s q q' : SSM n d) (f : KF n d 1) (e : ℝ), c.distP = .ok s ∧ c.distQ = .ok q ∧
      c.posteriorKalman = .ok f ∧ f.posteriorSSM = .ok q' ∧ q'.Nondegenerate ∧ q.law = q'.law ∧
      c.elbo = .ok e ∧ c.loss = .ok (-e) ∧
      evidence s.law (fun x => ∑ t, (gaussianLikelihood (-1 / (2 * c.sites.nat2 t 0 0))).logProb
        (pwLatent1 ker cp c.times x t) (-c.sites.nat1 t 0 / (2 * c.sites.nat2 t 0 0))) =
          ENNReal.ofReal (Real.exp e) := by
  obtain ⟨s, hs, hnd, -, -⟩ := h.ssm
  obtain ⟨s', hs', hq1, hq2, -⟩ := C74_cvi_dist_q h
  obtain rfl : s = s' := Except.ok.inj (hs.symm.trans hs')
  obtain ⟨q, hq⟩ := hq2 fun t => (hneg t).le
  obtain ⟨q', r, hq', hq'n, hr, hb, -, hev⟩ := C20_sites s (fun t => (pwOut ker cp).emission (c.times t)) c.sites.means
    c.sites.precisions hnd (fun t => (C20_univariate_sites c.sites hneg t).1) h.two (h.core 0).pos
  have hk : c.posteriorKalman = .ok (kalmanFilterWithSites s (fun t => (pwOut ker cp).emission (c.times t)) c.sites.means
      c.sites.precisions) := by
    unfold PWCVI.posteriorKalman PWCVI.distP
    rw [hs, PWCVI.emissions_ok h]; rfl
  have he : c.elbo = .ok r := by
    unfold PWCVI.elbo
    rw [hk]; exact hr
  rw [sites_obsLogLik _ _ _ hneg] at hb hev
  rw [pwLatent1_eq] at hq1 ⊢
  refine ⟨s, q, q', _, r, hs, hq, hk, hq', hq'n, ?_, he, by unfold PWCVI.loss; rw [he]; rfl, hev⟩
  obtain ⟨cst, hc⟩ := siteLogLik_gaussian (θ₁ := fun t => c.sites.nat1 t 0) hneg
  have hbq := (hq1 q hq).2
  have hm : Measurable fun x => siteLogLik (fun t => c.sites.nat1 t 0) (fun t => c.sites.nat2 t 0 0)
      (latent1 (pwOut ker cp) c.times x) := (measurable_siteLogLik _ _).comp (latent1_measurable _ _)
  have := IsBayesPosterior.add_const hm (-cst) hbq
  simp only [hc, add_neg_cancel_comm] at this
  exact IsBayesPosterior.unique this hb

/-- C74: one `update_sites()`: every site moves from `θ` to `(1 - r) θ + r g`, where `g` is taken at the marginal mean and
variance of `f_t` under `dist_q`; nothing else changes. The mean function plays no role. -/
theorem C74_cvi_update {c : PWCVI n d} (h : PWValid ker k cp c.kernel c.times) {q} (hq : c.distQ = .ok q) :
    ∃ (c' : PWCVI n d) (μ v : Fin (n + 1) → ℝ), c.updateSites = .ok c' ∧
      (∀ t, 0 ≤ v t ∧ q.law.map (fun x => pwLatent1 ker cp c.times x t) = gaussianReal (μ t) (v t).toNNReal) ∧
      c' = { c with sites := c'.sites } ∧
      ∀ t, c'.sites.nat1 t 0 = (1 - c.learningRate) * c.sites.nat1 t 0 +
          c.learningRate * (localGradients c.likelihood (μ t) (v t) (c.observations t 0)).1 ∧
        c'.sites.nat2 t 0 0 = (1 - c.learningRate) * c.sites.nat2 t 0 0 +
          c.learningRate * (localGradients c.likelihood (μ t) (v t) (c.observations t 0)).2 := by
  obtain ⟨s, hs, hq1, -⟩ := C74_cvi_dist_q h
  have hqn := (hq1 q hq).1
  obtain ⟨f, hf, hfv⟩ := PWValid.predict_ok (c := (⟨q, c.kernel, c.times, fun _ => 0⟩ : PWProcess n 1 d)) h hqn
  have hC : (outMat (pwOut ker cp) c.times * q.Kd * (outMat (pwOut ker cp) c.times)ᵀ).PosSemidef :=
    posSemidef_conj' q.Kd_posSemidef _
  refine ⟨{ c with sites := ⟨fun t a => (1 - c.learningRate) * c.sites.nat1 t a + c.learningRate *
        (localGradients c.likelihood ((f t).1 a) ((f t).2 a) (c.observations t a)).1,
      fun t => Matrix.of fun a b => (1 - c.learningRate) * c.sites.nat2 t a b + c.learningRate *
        (localGradients c.likelihood ((f t).1 a) ((f t).2 a) (c.observations t a)).2⟩ },
    fun t => (f t).1 0, fun t => (f t).2 0, ?_, fun t => ⟨?_, ?_⟩, ?_, fun t => ⟨rfl, rfl⟩⟩
  · unfold PWCVI.updateSites PWCVI.posterior
    rw [hq]
    simp only [bind, Except.bind, pure, Except.pure] at hf ⊢
    rw [hf]
  · beta_reduce; rw [(hfv t 0).2]; exact hC.diag_nonneg
  · have := congrArg (fun μ => μ.map fun x : Fin (n + 1) × Fin 1 → ℝ => x (t, 0))
      (latentOf_gauss (pwOut ker cp) (fun _ => 0) c.times q)
    rw [gaussLaw_eval hC, Measure.map_map (measurable_pi_apply _) (measurable_latentOf _ _ _)] at this
    beta_reduce
    rw [(hfv t 0).1, (hfv t 0).2, pwLatent1_eq]
    exact this
  · rfl

/-- C74: `classic_elbo()` is `log p(y) - KL(dist_q ‖ posterior)` (zero mean function), for every state of the sites that
has a `dist_q`. -/
theorem C74_cvi_classic_elbo {c : PWCVI n d} (h : PWValid ker k cp c.kernel c.times) (hlik : ExactLikelihood c.likelihood)
    {q} (hq : c.distQ = .ok q) :
    ∃ (s : SSM n d) (e : ℝ), c.distP = .ok s ∧ c.classicElbo = .ok e ∧
      ∀ post, IsBayesPosterior s.law
          (fun x => outputLogLik c.likelihood c.observations (pwLatent ker cp (fun _ => 0) c.times x)) post →
        klDiv q.law post ≠ ⊤ ∧
        Real.log (evidence (gpLaw (fun _ => 0) (pwKernel ker cp (c.times 0)) c.times)
          (outputLogLik c.likelihood c.observations)).toReal = e + (klDiv q.law post).toReal := by
  obtain ⟨s, hs, hq1, -⟩ := C74_cvi_dist_q h
  have hqn := (hq1 q hq).1
  obtain ⟨s', e, hs', he, -, hall⟩ := C74_vgp_elbo
    (v := ⟨c.times, c.observations, c.kernel, c.likelihood, fun _ => 0, q⟩) h hqn hlik
  obtain rfl : s = s' := Except.ok.inj (hs.symm.trans hs')
  refine ⟨s, e, hs, ?_, fun post hp => ⟨(hall post hp).1, (hall post hp).2.1⟩⟩
  rw [← he]
  unfold PWCVI.classicElbo PWCVI.posterior PWCVI.distP PWVGP.elbo PWVGP.distP PWVGP.posterior
  rw [hq]
  simp only [bind, Except.bind, pure, Except.pure]

theorem PWCVI.update_gaussian {c c' : PWCVI n d} {σ2 : ℝ} (hσ : σ2 ≠ 0) (hlik : c.likelihood = gaussianLikelihood σ2)
    (h : c.updateSites = .ok c') : c' = { c with sites := c'.sites } ∧ ∀ t,
      c'.sites.nat1 t 0 = (1 - c.learningRate) * c.sites.nat1 t 0 + c.learningRate * (c.observations t 0 / σ2) ∧
      c'.sites.nat2 t 0 0 = (1 - c.learningRate) * c.sites.nat2 t 0 0 + c.learningRate * (-1 / (2 * σ2)) := by
  unfold PWCVI.updateSites at h
  simp only [bind, Except.bind, pure, Except.pure] at h
  cases hp : c.posterior with
  | error e => rw [hp] at h; cases h
  | ok post =>
    rw [hp] at h
    simp only at h
    cases hf : post.predictFDiag c.times with
    | error e => rw [hf] at h; cases h
    | ok f =>
      rw [hf] at h
      simp only [hlik, localGradients_gaussian hσ] at h
      cases h
      exact ⟨by simp [hlik], fun t => ⟨rfl, rfl⟩⟩

/-- C74: after `j` calls of `update_sites()` with learning rate `r` and a Gaussian likelihood of variance `σ2`, every site
is `(1-r)^j · initial + (1 - (1-r)^j) · exact`, the exact site being `(y/σ2, -1/(2σ2))`. -/
theorem C74_cvi_k_steps {σ2 : ℝ} (hσ : σ2 ≠ 0) (j : ℕ) {c c' : PWCVI n d} (hlik : c.likelihood = gaussianLikelihood σ2)
    (h : PWCVI.updates j c = .ok c') :
    c' = { c with sites := c'.sites } ∧ ∀ t,
      c'.sites.nat1 t 0 = (1 - c.learningRate) ^ j * c.sites.nat1 t 0 +
        (1 - (1 - c.learningRate) ^ j) * (c.observations t 0 / σ2) ∧
      c'.sites.nat2 t 0 0 = (1 - c.learningRate) ^ j * c.sites.nat2 t 0 0 +
        (1 - (1 - c.learningRate) ^ j) * (-1 / (2 * σ2)) := by
  induction j generalizing c with
  | zero =>
    cases h
    exact ⟨rfl, fun t => ⟨by simp, by simp⟩⟩
  | succ j ih =>
    unfold PWCVI.updates at h
    simp only [bind, Except.bind] at h
    cases hu : c.updateSites with
    | error e => rw [hu] at h; cases h
    | ok c1 =>
      rw [hu] at h
      obtain ⟨h1, h2⟩ := PWCVI.update_gaussian hσ hlik hu
      have hl1 : c1.likelihood = gaussianLikelihood σ2 := by rw [h1]; exact hlik
      obtain ⟨h3, h4⟩ := ih hl1 h
      have hr : c1.learningRate = c.learningRate := by rw [h1]
      have ho : c1.observations = c.observations := by rw [h1]
      refine ⟨by rw [h3, h1], fun t => ⟨?_, ?_⟩⟩
      · rw [(h4 t).1, (h2 t).1, hr, ho]; ring
      · rw [(h4 t).2, (h2 t).2, hr]; ring

/-- C74: with `0 ≤ r ≤ 1` and a Gaussian likelihood, starting from sites with `nat2 ≤ 0` (the constructor's have), all
updates succeed. -/
theorem C74_cvi_updates_succeed {σ2 : ℝ} (hσ : 0 < σ2) (j : ℕ) {c : PWCVI n d} (h : PWValid ker k cp c.kernel c.times)
    (hlik : c.likelihood = gaussianLikelihood σ2) (h0 : 0 ≤ c.learningRate) (h1 : c.learningRate ≤ 1)
    (hneg : ∀ t, c.sites.nat2 t 0 0 ≤ 0) : ∃ c', PWCVI.updates j c = .ok c' := by
  induction j generalizing c with
  | zero => exact ⟨c, rfl⟩
  | succ j ih =>
    obtain ⟨s, hs, -, hq, -⟩ := C74_cvi_dist_q h
    obtain ⟨q, hq⟩ := hq hneg
    obtain ⟨c1, μ, v, hu, -⟩ := C74_cvi_update h hq
    obtain ⟨e1, e2⟩ := PWCVI.update_gaussian hσ.ne' hlik hu
    have hv : PWValid ker k cp c1.kernel c1.times := by rw [e1]; exact h
    obtain ⟨c', hc'⟩ := ih hv (by rw [e1]; exact hlik) (by rw [e1]; exact h0) (by rw [e1]; exact h1) fun t => by
      rw [(e2 t).2]
      have a1 := mul_nonpos_of_nonneg_of_nonpos (sub_nonneg.2 h1) (hneg t)
      have a2 : c.learningRate * (-1 / (2 * σ2)) ≤ 0 := by
        refine mul_nonpos_of_nonneg_of_nonpos h0 ?_
        exact div_nonpos_of_nonpos_of_nonneg (by norm_num) (by positivity)
      linarith
    refine ⟨c', ?_⟩
    unfold PWCVI.updates
    rw [hu]
    exact hc'

/-- The regression model with the same data, noise variance `σ2` and mean function zero. -/
noncomputable def PWCVI.toGPR (c : PWCVI n d) (σ2 : ℝ) : PWGPR n 1 d :=
  ⟨c.times, c.observations, c.kernel, fun _ => 0, Real.sqrt σ2 • 1⟩

/-- C74: at the exact sites, `dist_q`, `elbo()` and `classic_elbo()` are the posterior and the log marginal likelihood of
`GaussianProcessRegression` with the same piecewise kernel (mean function zero). -/
theorem C74_cvi_exact_sites {c : PWCVI n d} (h : PWValid ker k cp c.kernel c.times) {σ2 : ℝ} (hσ : 0 < σ2)
    (hlik : c.likelihood = gaussianLikelihood σ2)
    (h1 : ∀ t, c.sites.nat1 t 0 = c.observations t 0 / σ2) (h2 : ∀ t, c.sites.nat2 t 0 0 = -1 / (2 * σ2)) :
    ∃ (q : SSM n d) (L : ℝ) (p : PWProcess n 1 d), c.distQ = .ok q ∧ (c.toGPR σ2).posterior = .ok p ∧
      (c.toGPR σ2).logLikelihood = .ok L ∧ q.law = p.q.law ∧ c.elbo = .ok L ∧ c.classicElbo = .ok L := by
  have hneg : ∀ t, c.sites.nat2 t 0 0 < 0 := fun t => by
    rw [h2]; exact div_neg_of_neg_of_pos (by norm_num) (by positivity)
  obtain ⟨s, q, q', f, e, hs, hq, -, -, -, -, he, -, hev⟩ := C74_cvi_kalman h hneg
  obtain ⟨s', hs', hq1, -⟩ := C74_cvi_dist_q h
  obtain rfl : s = s' := Except.ok.inj (hs.symm.trans hs')
  obtain ⟨hqn, hqb⟩ := hq1 q hq
  obtain ⟨e', L, p, hve, -, hL, hp, -, -, -, hiff⟩ := C74_vgp_gaussian
    (v := ⟨c.times, c.observations, c.kernel, c.likelihood, fun _ => 0, q⟩) h hqn hσ hlik
  obtain ⟨s', r, p', hs', hL', hp', hrev, hb⟩ := PWGPR.evidence_gaussian (g := c.toGPR σ2) h hσ rfl
  obtain rfl : s = s' := Except.ok.inj (hs.symm.trans hs')
  obtain rfl : p = p' := Except.ok.inj (hp.symm.trans hp')
  obtain rfl : L = r := Except.ok.inj (hL.symm.trans hL')
  have hsite : ∀ t, -1 / (2 * c.sites.nat2 t 0 0) = σ2 ∧
      -c.sites.nat1 t 0 / (2 * c.sites.nat2 t 0 0) = c.observations t 0 := fun t => by
    rw [h1, h2]; constructor <;> field_simp
  have hlikeq : ∀ x : Ix n d → ℝ, (∑ t, (gaussianLikelihood (-1 / (2 * c.sites.nat2 t 0 0))).logProb
        (pwLatent1 ker cp c.times x t) (-c.sites.nat1 t 0 / (2 * c.sites.nat2 t 0 0))) =
      outputLogLik (gaussianLikelihood σ2) c.observations (pwLatent ker cp (fun _ => 0) c.times x) := fun x => by
    unfold outputLogLik
    refine Finset.sum_congr rfl fun t _ => ?_
    rw [(hsite t).1, (hsite t).2, Fin.sum_univ_one, pwLatent1_eq]
    rfl
  simp only [hlikeq] at hev
  obtain ⟨cst, hc⟩ := siteLogLik_gaussian (θ₁ := fun t => c.sites.nat1 t 0) hneg
  have hm : Measurable fun x => siteLogLik (fun t => c.sites.nat1 t 0) (fun t => c.sites.nat2 t 0 0)
      (pwLatent1 ker cp c.times x) := by
    rw [pwLatent1_eq]
    exact (measurable_siteLogLik _ _).comp (latent1_measurable _ _)
  have hqb' := IsBayesPosterior.add_const hm (-cst) hqb
  simp only [hc, add_neg_cancel_comm, hlikeq] at hqb'
  have hlaw : q.law = p.q.law := IsBayesPosterior.unique hqb' hb
  have her : e = L := by
    have := congrArg ENNReal.toReal (hev.symm.trans hrev)
    rw [ENNReal.toReal_ofReal (Real.exp_pos _).le, ENNReal.toReal_ofReal (Real.exp_pos _).le] at this
    exact Real.exp_injective this
  refine ⟨q, L, p, hq, hp, hL, hlaw, by rw [he, her], ?_⟩
  have : e' = L := hiff.2 hlaw
  rw [← this, ← hve]
  unfold PWCVI.classicElbo PWCVI.posterior PWCVI.distP PWVGP.elbo PWVGP.distP PWVGP.posterior
  rw [hq]
  simp only [bind, Except.bind, pure, Except.pure]

/-- C74: with learning rate 1 a single update (or any positive number of them), from any sites with `nat2 ≤ 0`, reaches
the exact posterior under the piecewise prior, and `elbo()` is then the log marginal likelihood. -/
theorem C74_cvi_one_step {c : PWCVI n d} (h : PWValid ker k cp c.kernel c.times) {σ2 : ℝ} (hσ : 0 < σ2)
    (hlik : c.likelihood = gaussianLikelihood σ2) (hr : c.learningRate = 1) (hneg : ∀ t, c.sites.nat2 t 0 0 ≤ 0) (j : ℕ) :
    ∃ (c' : PWCVI n d) (q : SSM n d) (L : ℝ) (p : PWProcess n 1 d), PWCVI.updates (j + 1) c = .ok c' ∧
      c'.distQ = .ok q ∧ (c.toGPR σ2).posterior = .ok p ∧ (c.toGPR σ2).logLikelihood = .ok L ∧ q.law = p.q.law ∧
      c'.elbo = .ok L ∧ c'.classicElbo = .ok L := by
  obtain ⟨c', hc'⟩ := C74_cvi_updates_succeed hσ (j + 1) h hlik (by rw [hr]; norm_num) hr.le hneg
  obtain ⟨e1, e2⟩ := C74_cvi_k_steps hσ.ne' (j + 1) hlik hc'
  have hv : PWValid ker k cp c'.kernel c'.times := by rw [e1]; exact h
  have ho : c'.observations = c.observations := by rw [e1]
  obtain ⟨q, L, p, h1, h2, h3, h4, h5, h6⟩ := C74_cvi_exact_sites hv hσ (by rw [e1]; exact hlik)
    (fun t => by rw [(e2 t).1, hr, ho]; simp) (fun t => by rw [(e2 t).2, hr]; simp)
  have hg : c'.toGPR σ2 = c.toGPR σ2 := by rw [e1]; rfl
  rw [hg] at h2 h3
  exact ⟨c', q, L, p, hc', h1, h2, h3, h4, h5, h6⟩

/-- C74: the constructor's sites and its default mean function; the mean function is never used. -/
theorem C74_cvi_init (times : Fin (n + 1) → ℝ) (y : Fin (n + 1) → Vec 1) (K : Piecewise 1 d) (lik : ScalarLikelihood)
    (mf : Option (ℝ → Vec 1)) (r : ℝ) :
    (∀ t, (PWCVI.init times y K lik mf r).sites.nat1 t = 0 ∧
      (PWCVI.init times y K lik mf r).sites.nat2 t 0 0 = -(1 / 10000000000)) ∧
    (PWCVI.init times y K lik mf r).distQ = (PWCVI.init times y K lik none r).distQ ∧
    (PWCVI.init times y K lik mf r).elbo = (PWCVI.init times y K lik none r).elbo ∧
    (PWCVI.init times y K lik mf r).classicElbo = (PWCVI.init times y K lik none r).classicElbo := by
  refine ⟨fun t => ⟨rfl, ?_⟩, rfl, rfl, rfl⟩
  show (-1e-10 : ℝ) = _
  norm_num

end CVI

/-- Non-vacuity of the hypotheses of C74: on the kernel of `exists_pwValid`, with data on both sides of the change point,
a variational model with a `q` that is not the prior and a Poisson likelihood, and a CVI model with a Gaussian one. -/
example : ∃ (ker : Fin 2 → Stationary 1 1) (k : Fin 2 → ℝ → ℝ → Mat 1 1) (v : PWVGP 2 1 1) (c : PWCVI 2 1) (e L : ℝ),
    PWValid ker k (fun _ : Fin 1 => (0 : ℝ)) v.kernel v.times ∧ v.q.Nondegenerate ∧ v.q.mu0 ≠ 0 ∧
    ExactLikelihood v.likelihood ∧ v.elbo = .ok e ∧
    PWValid ker k (fun _ : Fin 1 => (0 : ℝ)) c.kernel c.times ∧ c.likelihood = gaussianLikelihood 2 ∧
    c.learningRate = 1 ∧ (∀ t, c.sites.nat2 t 0 0 ≤ 0) ∧ c.observations 0 ≠ c.observations 1 ∧
    (c.toGPR 2).logLikelihood = .ok L ∧ ∃ c', c.updateSites = .ok c' ∧ c'.elbo = .ok L := by
  obtain ⟨K, ker, k, hV, -⟩ := exists_pwValid
  have hq : SSM.Nondegenerate (⟨![1], 1, fun _ => 1, fun _ => 0, fun _ => 1⟩ : SSM 2 1) := by
    intro i
    refine Fin.cases ?_ (fun i => ?_) i <;>
    exact ⟨fun a b hab => Matrix.one_apply_ne hab.ne, fun a => (Matrix.one_apply_eq (α := ℝ) a).trans_ne one_ne_zero⟩
  obtain ⟨s, e, -, he, -⟩ := C74_vgp_elbo (v := ⟨![-1, 0, 1], fun i => ![(i : ℝ)], K, poissonLikelihood, fun t => ![t],
    ⟨![1], 1, fun _ => 1, fun _ => 0, fun _ => 1⟩⟩) hV hq poissonLikelihood_exact
  have hneg : ∀ t, (PWCVI.init ![-1, 0, 1] (fun i => ![(i : ℝ)]) K (gaussianLikelihood 2) none 1).sites.nat2 t 0 0 ≤ 0 :=
    fun t => by show (-1e-10 : ℝ) ≤ 0; norm_num
  obtain ⟨c', q, L, p, hu, -, -, hL, -, hel, -⟩ := C74_cvi_one_step
    (c := PWCVI.init ![-1, 0, 1] (fun i => ![(i : ℝ)]) K (gaussianLikelihood 2) none 1) hV two_pos rfl rfl hneg 0
  refine ⟨ker, k, _, _, e, L, hV, hq, ?_, poissonLikelihood_exact, he, hV, rfl, rfl, hneg, ?_, hL, c', ?_, hel⟩
  · intro h; have := congrFun h 0; simp at this
  · intro h; have := congrFun h 0; simp [PWCVI.init] at this
  · unfold PWCVI.updates at hu
    simp only [bind, Except.bind] at hu
    cases h' : (PWCVI.init ![-1, 0, 1] (fun i => ![(i : ℝ)]) K (gaussianLikelihood 2) none 1).updateSites with
    | error e => rw [h'] at hu; cases hu
    | ok c1 => rw [h'] at hu; cases hu; rfl

end MF
