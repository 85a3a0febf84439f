import Verif.Lemmas.VGP

/-!
# C33: `VariationalGaussianProcess`

Specification vocabulary: `evidence`, `IsBayesPosterior` (`Spec/LinearGaussian`), Mathlib's `klDiv`,
`gpLaw` (`Spec/Kernel`), `ExactLikelihood`, `outputLogLik` (`Spec/Likelihood`).
-/

namespace MF
open Matrix Spec MeasureTheory ProbabilityTheory InformationTheory
variable {n d o p : ℕ}

/-- The hypotheses on a model: a kernel expression with noise throughout, jitter zero, strictly
increasing times within `±1e10`, a non-degenerate `q` (any), at least two times. -/
structure VGP.Valid (v : VGP n o d) (k : ℝ → ℝ → Mat o o) : Prop where
  builds : Builds v.kernel k
  noise : NoiseTag v.kernel true
  jitter : v.kernel.jitter = 0
  times : StrictMono v.times
  lower : -10000000000 < v.times 0
  upper : v.times (Fin.last n) ≤ 10000000000
  two : 0 < n
  q : v.q.Nondegenerate

/-- C33: the latent outputs of the state prior are the Gaussian process prior with the model's mean
function, so evidence and lower bound may be read in either space. -/
theorem C33_prior {K : Stationary o d} {k} (hK : Builds K k) (hj : K.jitter = 0) (m : ℝ → Vec o)
    {ts : Fin (n + 1) → ℝ} {s : SSM n d} (hs : K.stateSpaceModel ts = .ok s) :
    s.law.map (latentOf K m ts) = gpLaw m k ts ∧
    ∀ {lik}, ExactLikelihood lik → ∀ y : Fin (n + 1) → Vec o,
      evidence s.law (fun x => outputLogLik lik y (latentOf K m ts x)) =
        evidence (gpLaw m k ts) (outputLogLik lik y) := by
  obtain ⟨hc, -, hD⟩ := Builds.good hK
  obtain ⟨h1, h2⟩ := kernel_moments hK hj hs
  have hl : s.law.map (latentOf K m ts) = gpLaw m k ts := by
    rw [SSM.law_eq_gauss, latentOf_eq, gaussLaw_map_affine s.Kd_posSemidef, h1, h2, mulVec_zero, add_zero,
      outMat_conj hD]
    rfl
  refine ⟨hl, fun {lik} hlik y => ?_⟩
  rw [← hl]
  unfold evidence
  rw [lintegral_map _ (measurable_latentOf K m ts)]
  have := measurable_outputLogLik hlik y
  fun_prop

theorem VGP.predict_ok {c : CondProcess n o d} {k} (hK : Builds c.kernel k) (hN : NoiseTag c.kernel true)
    (hj : c.kernel.jitter = 0) (ht : StrictMono c.times) (hl : -10000000000 < c.times 0)
    (hu : c.times (Fin.last n) ≤ 10000000000) (hn : 0 < n) (hq : c.q.Nondegenerate) :
    ∃ f, c.predictFDiag c.times = .ok f ∧ ∀ i a,
      (f i).1 a = (c.kernel.emission (c.times i) *ᵥ c.q.mus i) a + c.meanFunction (c.times i) a ∧
      (f i).2 a = (outMat c.kernel c.times * c.q.Kd * (outMat c.kernel c.times)ᵀ) (i, a) (i, a) := by
  obtain ⟨hc, -, -⟩ := Builds.good hK
  obtain ⟨r, hr⟩ := C22_succeeds hK hN hq hn ht.monotone (new := c.times)
    (fun j => lt_of_lt_of_le hl (ht.monotone (Fin.zero_le _))) (fun j => (ht.monotone (Fin.le_last _)).trans hu)
  have hrj : ∀ i, r i = (c.q.mus i, blk c.q.Kd i i) := fun i =>
    C22_at_training hK hj hq hn ht.monotone hl hr (SSM.marginalMeans_eq hn)
      (SSM.marginalCovariances_eq hq hn hc.pos) i i rfl (fun i' hi => ht hi) rfl rfl
  obtain ⟨f, _, hf, -, hfv⟩ := (C45_formulas hr 0).2
  refine ⟨f, hf, fun i a => ?_⟩
  obtain ⟨h1, h2, -⟩ := hfv i
  rw [h1, h2, hrj, outMat_conj_diag]
  exact ⟨rfl, rfl⟩

/-- The computed value: expected log likelihood under `q` minus the KL divergence from the prior. -/
theorem VGP.elbo_value {v : VGP n o d} {k} (h : v.Valid k) (hlik : ExactLikelihood v.likelihood) :
    ∃ (s : SSM n d) (e kl : ℝ), v.kernel.stateSpaceModel v.times = .ok s ∧ s.Nondegenerate ∧
      v.elbo = .ok e ∧ v.loss = .ok (-e) ∧ klDiv v.q.law s.law = ENNReal.ofReal kl ∧ 0 ≤ kl ∧
      Integrable (fun x => outputLogLik v.likelihood v.observations (latentOf v.kernel v.meanFunction v.times x))
        v.q.law ∧
      e = (∫ x, outputLogLik v.likelihood v.observations (latentOf v.kernel v.meanFunction v.times x) ∂v.q.law)
        - kl := by
  obtain ⟨hc, -, -⟩ := Builds.good h.builds
  obtain ⟨s, hs, hnd⟩ := kernel_ssm_nondegenerate h.builds h.noise h.two h.times
  obtain ⟨kl, hkl, hkl', hkl0, -⟩ := C13_kl_divergence v.q s h.q hnd h.two hc.pos
  obtain ⟨f, hf, hfv⟩ := VGP.predict_ok (c := v.posterior) h.builds h.noise h.jitter h.times h.lower h.upper
    h.two h.q
  have hC : (outMat v.kernel v.times * v.q.Kd * (outMat v.kernel v.times)ᵀ).PosSemidef :=
    posSemidef_conj' v.q.Kd_posSemidef _
  obtain ⟨hi, hv⟩ := integral_outputLogLik hlik v.observations
    (fun i => (v.kernel.emission (v.times i.1) *ᵥ v.q.mus i.1) i.2 + v.meanFunction (v.times i.1) i.2) hC
  rw [← latentOf_gauss] at hi hv
  rw [integral_map (measurable_latentOf _ _ _).aemeasurable
    (measurable_outputLogLik hlik _).aestronglyMeasurable] at hv
  have hve : (∑ i, v.likelihood.varExps (f i).1 (f i).2 (v.observations i)) =
      ∫ x, outputLogLik v.likelihood v.observations (latentOf v.kernel v.meanFunction v.times x) ∂v.q.law := by
    rw [hv]
    refine Finset.sum_congr rfl fun i _ => Finset.sum_congr rfl fun a _ => ?_
    rw [(hfv i a).1, (hfv i a).2]
    rfl
  have he : v.elbo = .ok ((∫ x, outputLogLik v.likelihood v.observations
      (latentOf v.kernel v.meanFunction v.times x) ∂v.q.law) - kl) := by
    unfold VGP.elbo VGP.distP
    simp only [show v.posterior.times = v.times from rfl] at hf
    rw [hf, hs]
    simp only [bind, Except.bind, hkl, pure, Except.pure, hve]
  refine ⟨s, _, kl, hs, hnd, he, ?_, hkl', hkl0, hi.comp_measurable (measurable_latentOf _ _ _), rfl⟩
  unfold VGP.loss
  rw [he]
  rfl

/-- C33: `log p(y) = elbo() + KL(q ‖ posterior)` for every `q`, every data set and every likelihood with exact
variational expectations, whenever the posterior exists. Hence `elbo()` is a lower bound, with equality
exactly when `q` is the posterior; `loss()` is its negative. -/
theorem C33_elbo {v : VGP n o d} {k} (h : v.Valid k) (hlik : ExactLikelihood v.likelihood) :
    ∃ (s : SSM n d) (e : ℝ), v.kernel.stateSpaceModel v.times = .ok s ∧ v.elbo = .ok e ∧ v.loss = .ok (-e) ∧
      ∀ post, IsBayesPosterior s.law
          (fun x => outputLogLik v.likelihood v.observations (latentOf v.kernel v.meanFunction v.times x)) post →
        klDiv v.q.law post ≠ ⊤ ∧
        Real.log (evidence (gpLaw v.meanFunction k v.times)
          (outputLogLik v.likelihood v.observations)).toReal = e + (klDiv v.q.law post).toReal ∧
        e ≤ Real.log (evidence (gpLaw v.meanFunction k v.times)
          (outputLogLik v.likelihood v.observations)).toReal ∧
        (e = Real.log (evidence (gpLaw v.meanFunction k v.times)
          (outputLogLik v.likelihood v.observations)).toReal ↔ v.q.law = post) := by
  obtain ⟨s, e, kl, hs, hnd, he, hl, hkl, hkl0, hi, hev⟩ := VGP.elbo_value h hlik
  refine ⟨s, e, hs, he, hl, fun post hpost => ?_⟩
  have hpq : IsProbabilityMeasure v.q.law := by rw [SSM.law_eq_gauss]; infer_instance
  have hps : IsProbabilityMeasure s.law := by rw [SSM.law_eq_gauss]; infer_instance
  have hm := (measurable_outputLogLik hlik v.observations).comp (measurable_latentOf v.kernel v.meanFunction v.times)
  obtain ⟨h1, h2⟩ := elbo_identity hm hpost (by rw [hkl]; exact ENNReal.ofReal_ne_top) hi
  simp only [Function.comp_def] at h2
  rw [(C33_prior h.builds h.jitter v.meanFunction hs).2 hlik, hkl, ENNReal.toReal_ofReal hkl0, ← hev] at h2
  have hpp : IsProbabilityMeasure post := by
    rw [IsBayesPosterior.tilted hm hpost]
    exact isProbabilityMeasure_tilted (IsBayesPosterior.integrable_exp hm hpost)
  refine ⟨h1, h2, by rw [h2]; linarith [ENNReal.toReal_nonneg (a := klDiv v.q.law post)], ?_⟩
  rw [h2, ← klDiv_eq_zero_iff]
  constructor
  · intro h3
    have h0 : (klDiv v.q.law post).toReal = 0 := by linarith
    exact (ENNReal.toReal_eq_zero_iff _).1 h0 |>.resolve_right h1
  · intro h3
    rw [h3]; simp

/-- C33: the posterior exists whenever the likelihood is bounded above in the latent value. -/
theorem C33_posterior_exists {v : VGP n o d} {s : SSM n d} (hlik : ExactLikelihood v.likelihood)
    (hb : ∀ y, ∃ B, ∀ f, v.likelihood.logProb f y ≤ B) :
    ∃ post, IsBayesPosterior s.law
      (fun x => outputLogLik v.likelihood v.observations (latentOf v.kernel v.meanFunction v.times x)) post := by
  choose B hB using hb
  have hps : IsProbabilityMeasure s.law := by rw [SSM.law_eq_gauss]; infer_instance
  refine exists_bayes ((measurable_outputLogLik hlik _).comp (measurable_latentOf _ _ _))
    (B := ∑ i, ∑ a, B (v.observations i a)) fun x => ?_
  exact Finset.sum_le_sum fun i _ => Finset.sum_le_sum fun a _ => hB _ _

/-! ### Gaussian likelihood -/

theorem gaussLogDensity_iso {σ2 : ℝ} (hσ : 0 < σ2) (m y : Vec o) :
    gaussLogDensity m (σ2 • (1 : Mat o o)) y = ∑ a, (gaussianLikelihood σ2).logProb (m a) (y a) := by
  unfold gaussLogDensity
  rw [show (σ2 • (1 : Mat o o))⁻¹ = σ2⁻¹ • (1 : Mat o o) from by
      refine Matrix.inv_eq_left_inv ?_
      rw [smul_mul_smul_comm, Matrix.mul_one, inv_mul_cancel₀ hσ.ne', one_smul],
    smul_mulVec, one_mulVec, det_smul, det_one, mul_one, Real.log_pow, dotProduct_smul, smul_eq_mul]
  simp only [gaussianLikelihood, dotProduct, Pi.sub_apply]
  rw [← Finset.mul_sum, Finset.sum_add_distrib, Finset.sum_const, Finset.card_univ, ← Finset.sum_div]
  have : ∑ x, (m x - y x) ^ 2 = ∑ x, (y x - m x) * (y x - m x) := Finset.sum_congr rfl fun x _ => by ring
  rw [this]
  simp only [Fintype.card_fin, nsmul_eq_mul]
  field_simp
  ring

/-- The regression model with the same data and noise variance `σ2`. -/
noncomputable def VGP.toGPR (v : VGP n o d) (σ2 : ℝ) : GPR n o d :=
  ⟨v.times, v.observations, v.kernel, v.meanFunction, Real.sqrt σ2 • 1⟩

theorem obsLogLik_residuals {K : Stationary o d} {σ2 : ℝ} (hσ : 0 < σ2) (m : ℝ → Vec o) (ts : Fin (n + 1) → ℝ)
    (y : Fin (n + 1) → Vec o) :
    obsLogLik (fun i => K.emission (ts i)) id
      (fun _ => (Real.sqrt σ2 • (1 : Mat o o)) * (Real.sqrt σ2 • (1 : Mat o o))ᵀ) (fun i => y i - m (ts i)) =
    fun x => outputLogLik (gaussianLikelihood σ2) y (latentOf K m ts x) := by
  funext x
  unfold obsLogLik outputLogLik
  refine Finset.sum_congr rfl fun i _ => ?_
  have e : (Real.sqrt σ2 • (1 : Mat o o)) * (Real.sqrt σ2 • (1 : Mat o o))ᵀ = σ2 • 1 := by
    rw [transpose_smul, transpose_one, smul_mul_smul_comm, Matrix.mul_one, Real.mul_self_sqrt hσ.le]
  rw [e]
  have := gaussLogDensity_iso hσ (fun a => latentOf K m ts x (i, a)) (y i)
  rw [← this]
  unfold gaussLogDensity
  have e2 : y i - m (ts i) - K.emission (ts i) *ᵥ unstk x (id i) = y i - fun a => latentOf K m ts x (i, a) := by
    funext a
    simp only [latentOf, Pi.sub_apply, id]
    ring
  rw [e2]

/-- C33 for a Gaussian likelihood of variance `σ2`: with `L` the log marginal likelihood and `c` the posterior
computed by `GaussianProcessRegression` on the same data, `L = elbo() + KL(q ‖ c)`; `elbo() ≤ L`, with equality exactly when
`q` and the exact posterior have the same law. -/
theorem C33_gaussian {v : VGP n o d} {k} (h : v.Valid k) {σ2 : ℝ} (hσ : 0 < σ2)
    (hlik : v.likelihood = gaussianLikelihood σ2) :
    ∃ (e L : ℝ) (c : CondProcess n o d), v.elbo = .ok e ∧ v.loss = .ok (-e) ∧
      (v.toGPR σ2).logLikelihood = .ok L ∧ (v.toGPR σ2).posterior = .ok c ∧
      klDiv v.q.law c.q.law ≠ ⊤ ∧ L = e + (klDiv v.q.law c.q.law).toReal ∧ e ≤ L ∧
      (e = L ↔ v.q.law = c.q.law) := by
  have hex : ExactLikelihood v.likelihood := hlik ▸ gaussianLikelihood_exact σ2
  have hnf : NoiseFactor (Real.sqrt σ2 • (1 : Mat o o)) := by
    refine ⟨fun i j hij => ?_, fun i => ?_⟩
    · simp [hij.ne]
    · simpa using (Real.sqrt_pos.2 hσ).ne'
  have hg : (v.toGPR σ2).Valid k := ⟨h.builds, h.noise, h.jitter, h.times, hnf, h.two⟩
  obtain ⟨s, e, hs, he, hl, hall⟩ := C33_elbo h hex
  obtain ⟨s', c, hs', hc, -, -, -, -, hb⟩ := GPR.posterior_ok hg
  obtain rfl : s = s' := Except.ok.inj (hs.symm.trans hs')
  have hll := obsLogLik_residuals (K := v.kernel) hσ v.meanFunction v.times v.observations
  have hb' : IsBayesPosterior s.law (fun x => outputLogLik v.likelihood v.observations
      (latentOf v.kernel v.meanFunction v.times x)) c.q.law := by
    rw [hlik, ← hll]; exact hb
  obtain ⟨s', hnd, hs', hk⟩ := GPR.kalman_ok hg
  obtain rfl : s = s' := Except.ok.inj (hs.symm.trans hs')
  obtain ⟨hco, -, -⟩ := Builds.good h.builds
  obtain ⟨r, hr, hev, -⟩ := C19_log_likelihood s (fun i => v.kernel.emission (v.times i))
    (fun i => v.observations i - v.meanFunction (v.times i)) (Real.sqrt σ2 • 1) hnd hnf h.two hco.pos
  have hL : (v.toGPR σ2).logLikelihood = .ok r := by
    unfold GPR.logLikelihood
    rw [hk]
    exact hr
  have hrl : r = Real.log (evidence (gpLaw v.meanFunction k v.times)
      (outputLogLik v.likelihood v.observations)).toReal := by
    rw [← (C33_prior h.builds h.jitter v.meanFunction hs).2 hex, hlik, ← hll]
    have : evidence s.law (obsLogLik (fun i => v.kernel.emission (v.times i)) id
      (fun _ => (Real.sqrt σ2 • (1 : Mat o o)) * (Real.sqrt σ2 • (1 : Mat o o))ᵀ)
      (fun i => v.observations i - v.meanFunction (v.times i))) = ENNReal.ofReal (Real.exp r) := hev
    rw [this, ENNReal.toReal_ofReal (Real.exp_pos _).le, Real.log_exp]
  obtain ⟨h1, h2, h3, h4⟩ := hall _ hb'
  rw [← hrl] at h2 h3 h4
  exact ⟨e, r, c, he, hl, hL, hc, h1, h2, h3, h4⟩

/-- C33, the constructor: without an initial distribution `q` starts at the prior, and `elbo()` is then the prior
expectation of the log likelihood (no KL term); with one, `q` starts at that distribution. A missing mean function is zero. -/
theorem C33_init {times : Fin (n + 1) → ℝ} {y : Fin (n + 1) → Vec o} {K : Stationary o d} {k} (hK : Builds K k)
    (hN : NoiseTag K true) (hj : K.jitter = 0) (ht : StrictMono times) (h0 : -10000000000 < times 0)
    (h1 : times (Fin.last n) ≤ 10000000000) (hn : 0 < n) {lik} (hlik : ExactLikelihood lik) (m : Option (ℝ → Vec o)) :
    (∃ v e, VGP.init times y K lik m none = .ok v ∧ v.Valid k ∧ v.meanFunction = m.getD (fun _ => 0) ∧
      v.elbo = .ok e ∧ e = ∫ f, outputLogLik lik y f ∂gpLaw (m.getD fun _ => 0) k times) ∧
    (∀ q0 : SSM n d, q0.Nondegenerate → ∃ v, VGP.init times y K lik m (some q0) = .ok v ∧ v.Valid k ∧
      v.q = q0 ∧ v.meanFunction = m.getD (fun _ => 0)) := by
  have hcopy : ∀ s : SSM n d, s.Nondegenerate → s.createTrainableCopy = s := by
    intro s hs
    unfold SSM.createTrainableCopy
    rw [show tril s.cholP0 = s.cholP0 from (hs 0).1.tril_eq,
      show (fun k => tril (s.cholQ k)) = s.cholQ from funext fun k => (hs k.succ).1.tril_eq]
  constructor
  · obtain ⟨s, hs, hnd⟩ := kernel_ssm_nondegenerate hK hN hn ht
    have hv : VGP.Valid (⟨times, y, K, lik, m.getD fun _ => 0, s⟩ : VGP n o d) k :=
      ⟨hK, hN, hj, ht, h0, h1, hn, hnd⟩
    obtain ⟨s', e, kl, hs', -, he, -, hkl, hkl0, -, hev⟩ := VGP.elbo_value hv hlik
    obtain rfl : s = s' := Except.ok.inj (hs.symm.trans hs')
    refine ⟨_, e, ?_, hv, rfl, he, ?_⟩
    · unfold VGP.init
      simp only [hs, bind, Except.bind, pure, Except.pure, hcopy s hnd]
    · have hps : IsProbabilityMeasure s.law := by rw [SSM.law_eq_gauss]; infer_instance
      have hz : kl = 0 := by
        change klDiv s.law s.law = _ at hkl
        rw [klDiv_self] at hkl
        exact le_antisymm (ENNReal.ofReal_eq_zero.1 hkl.symm) hkl0
      rw [hev, hz, sub_zero, ← (C33_prior hK hj (m.getD fun _ => 0) hs).1,
        integral_map (measurable_latentOf _ _ _).aemeasurable
          (measurable_outputLogLik hlik _).aestronglyMeasurable]
  · intro q0 hq0
    refine ⟨⟨times, y, K, lik, m.getD fun _ => 0, q0⟩, ?_, ⟨hK, hN, hj, ht, h0, h1, hn, hq0⟩, rfl, rfl⟩
    unfold VGP.init
    simp only [bind, Except.bind, pure, Except.pure, hcopy q0 hq0]

/-- Non-vacuity: Matérn 3/2 kernel, three times, count data with a Poisson likelihood (whose log density is
bounded above at every count), a `q` that is not the prior. -/
example : ∃ (v : VGP 2 1 2) (k : ℝ → ℝ → Mat 1 1), v.Valid k ∧ ExactLikelihood v.likelihood ∧
    v.q.mu0 ≠ 0 ∧ v.observations 1 ≠ 0 := by
  obtain ⟨K, hK⟩ := (C28_constructors (o := 1) 2 3 1 1 1 0).2.1.2 (by norm_num)
  refine ⟨⟨![0, 1, 3], fun i => ![(i : ℝ)], K, poissonLikelihood, fun t => ![t],
    ⟨![1, 0], 1, fun _ => 1, fun _ => 0, fun _ => 1⟩⟩, _,
    ⟨.leaf (.matern32 hK), .matern32 hK, by rw [(kernelInit_ok hK).2.2]; rfl, ?_, ?_, ?_, by norm_num, ?_⟩,
    poissonLikelihood_exact, ?_, ?_⟩
  · refine Fin.strictMono_iff_lt_succ.2 fun i => ?_
    fin_cases i <;> simp <;> norm_num
  · show -10000000000 < (0 : ℝ); norm_num
  · show (3 : ℝ) ≤ 10000000000; norm_num
  · intro i
    refine Fin.cases ?_ (fun i => ?_) i <;>
    exact ⟨fun a b hab => Matrix.one_apply_ne hab.ne, fun a => (Matrix.one_apply_eq (α := ℝ) a).trans_ne one_ne_zero⟩
  · intro h; have := congrFun h 0; simp at this
  · intro h; have := congrFun h 0; simp at this

/-- Non-vacuity of the boundedness hypothesis of `C33_posterior_exists`: the Gaussian likelihood. -/
example (σ2 : ℝ) (hσ : 0 < σ2) : ∀ y, ∃ B, ∀ f, (gaussianLikelihood σ2).logProb f y ≤ B := fun y =>
  ⟨-(1 / 2) * (Real.log (2 * Real.pi) + Real.log σ2), fun f => by
    have : 0 ≤ (f - y) ^ 2 / σ2 := by positivity
    simp only [gaussianLikelihood]; linarith⟩

end MF
