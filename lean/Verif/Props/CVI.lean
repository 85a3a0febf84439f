import Verif.Lemmas.CVI

/-!
# C34: `CVIGaussianProcess`

Specification vocabulary: `siteLogLik` (`Spec/Sites`), `IsBayesPosterior`, `evidence` (`Spec/LinearGaussian`),
`outputLogLik`, `ExactLikelihood` (`Spec/Likelihood`), `gpLaw` (`Spec/Kernel`). `latent1 K ts x t = H(t) x_t`.
-/

namespace MF
open Matrix Spec MeasureTheory ProbabilityTheory InformationTheory
variable {n d o p : ℕ}

/-- The hypotheses on a model: a kernel expression with noise throughout, jitter zero, strictly increasing times
within `±1e10`, at least two times. Nothing is assumed of the sites. -/
structure CVI.Valid (c : CVI n d) (k : ℝ → ℝ → Mat 1 1) : Prop where
  builds : Builds c.kernel k
  noise : NoiseTag c.kernel true
  jitter : c.kernel.jitter = 0
  times : StrictMono c.times
  lower : -10000000000 < c.times 0
  upper : c.times (Fin.last n) ≤ 10000000000
  two : 0 < n

/-! ### the variational distribution -/

/-- C34: `dist_q` is the prior times the sites, `q(s) ∝ p(s) ∏ₖ exp(nat1ₖ fₖ + nat2ₖ fₖ²)`, whenever it can be
built; it can be built for all sites with `nat2 ≤ 0` (and for some others). Otherwise it raises. -/
theorem C34_dist_q {c : CVI n d} {k} (h : c.Valid k) : ∃ s : SSM n d, c.kernel.stateSpaceModel c.times = .ok s ∧
    (∀ q, c.distQ = .ok q → q.Nondegenerate ∧
      IsBayesPosterior s.law (fun x => siteLogLik (fun t => c.sites.nat1 t 0) (fun t => c.sites.nat2 t 0 0)
        (latent1 c.kernel c.times x)) q.law) ∧
    ((∀ t, c.sites.nat2 t 0 0 ≤ 0) → ∃ q, c.distQ = .ok q) ∧
    ((∃ q, c.distQ = .ok q) ∨ c.distQ = .error .invalidArgument) := by
  obtain ⟨s, hs, hnd⟩ := kernel_ssm_nondegenerate h.builds h.noise h.two h.times
  obtain ⟨hco, -, -⟩ := Builds.good h.builds
  obtain ⟨h1, h2⟩ := CVI.distQ_cases hs hnd (kernel_moments h.builds h.jitter hs).1 h.two hco.pos
  have hem := (Classical.em _).imp h1 h2
  refine ⟨s, hs, fun q hq => ?_, fun hneg => ?_, ?_⟩
  · rcases hem with ⟨q', hq', hn', hb⟩ | he
    · obtain rfl : q = q' := Except.ok.inj (hq.symm.trans hq')
      exact ⟨hn', hb⟩
    · rw [he] at hq; cases hq
  · obtain ⟨q, hq, -⟩ := h1 (backProject_posDef _ _ _ _ hneg (SSM.Kd_posDef hnd).inv)
    exact ⟨q, hq⟩
  · exact hem.imp (fun ⟨q', hq', _⟩ => ⟨q', hq'⟩) id

theorem siteLogLik_gaussian {θ₁ θ₂ : Fin (n + 1) → ℝ} (hneg : ∀ t, θ₂ t < 0) : ∃ cst : ℝ, ∀ f : Fin (n + 1) → ℝ,
    siteLogLik θ₁ θ₂ f = cst + ∑ t, (gaussianLikelihood (-1 / (2 * θ₂ t))).logProb (f t) (-θ₁ t / (2 * θ₂ t)) := by
  refine ⟨-∑ t, (gaussianLikelihood (-1 / (2 * θ₂ t))).logProb 0 (-θ₁ t / (2 * θ₂ t)), fun f => ?_⟩
  unfold siteLogLik
  rw [neg_add_eq_sub, ← Finset.sum_sub_distrib]
  refine Finset.sum_congr rfl fun t _ => ?_
  have := (hneg t).ne
  simp only [gaussianLikelihood]
  field_simp
  ring

theorem sites_obsLogLik (K : Stationary 1 d) (ts : Fin (n + 1) → ℝ) (s : UnivariateSites (n + 1))
    (hneg : ∀ t, s.nat2 t 0 0 < 0) :
    obsLogLik (fun i => K.emission (ts i)) id (fun t => (s.precisions t)⁻¹) s.means =
      fun x => ∑ t, (gaussianLikelihood (-1 / (2 * s.nat2 t 0 0))).logProb (latent1 K ts x t)
        (-s.nat1 t 0 / (2 * s.nat2 t 0 0)) := by
  funext x
  unfold obsLogLik
  refine Finset.sum_congr rfl fun t _ => ?_
  obtain ⟨-, h1, h2, -⟩ := C20_univariate_sites s hneg t
  have hv : 0 < -1 / (2 * s.nat2 t 0 0) := div_pos_of_neg_of_neg (by norm_num) (by linarith [hneg t])
  have e : (s.precisions t)⁻¹ = (-1 / (2 * s.nat2 t 0 0)) • (1 : Mat 1 1) := by
    ext i j; fin_cases i; fin_cases j
    simpa using h2
  change gaussLogDensity (K.emission (ts t) *ᵥ unstk x t) (s.precisions t)⁻¹ (s.means t) = _
  rw [e, gaussLogDensity_iso hv, Fin.sum_univ_one, h1, latent1_eq]

/-- C34: for sites with `nat2 < 0`, `dist_q` and the Kalman filter of `posterior_kalman` have the same law, and
`elbo()` is the log evidence of the model whose likelihood is replaced by the sites
(`loss()` is its negative). -/
theorem C34_kalman {c : CVI n d} {k} (h : c.Valid k) (hneg : ∀ t, c.sites.nat2 t 0 0 < 0) :
    ∃ (s q q' : SSM n d) (f : KF n d 1) (e : ℝ), c.kernel.stateSpaceModel c.times = .ok s ∧ c.distQ = .ok q ∧
      c.posteriorKalman = .ok f ∧ f.posteriorSSM = .ok q' ∧ q'.Nondegenerate ∧ q.law = q'.law ∧
      c.elbo = .ok e ∧ c.loss = .ok (-e) ∧
      evidence s.law (fun x => ∑ t, (gaussianLikelihood (-1 / (2 * c.sites.nat2 t 0 0))).logProb
        (latent1 c.kernel c.times x t) (-c.sites.nat1 t 0 / (2 * c.sites.nat2 t 0 0))) =
          ENNReal.ofReal (Real.exp e) := by
  obtain ⟨s, hs, hnd⟩ := kernel_ssm_nondegenerate h.builds h.noise h.two h.times
  obtain ⟨hco, -, -⟩ := Builds.good h.builds
  obtain ⟨s', hs', hq1, hq2, -⟩ := C34_dist_q h
  obtain rfl : s = s' := Except.ok.inj (hs.symm.trans hs')
  obtain ⟨q, hq⟩ := hq2 fun t => (hneg t).le
  obtain ⟨q', r, hq', hq'n, hr, hb, -, hev⟩ := C20_sites s (fun t => c.kernel.emission (c.times t)) c.sites.means
    c.sites.precisions hnd (fun t => (C20_univariate_sites c.sites hneg t).1) h.two hco.pos
  have hk : c.posteriorKalman = .ok (kalmanFilterWithSites s (fun t => c.kernel.emission (c.times t)) c.sites.means
      c.sites.precisions) := by
    unfold CVI.posteriorKalman CVI.distP
    rw [hs]; rfl
  have he : c.elbo = .ok r := by
    unfold CVI.elbo
    rw [hk]; exact hr
  rw [sites_obsLogLik _ _ _ hneg] at hb hev
  refine ⟨s, q, q', _, r, hs, hq, hk, hq', hq'n, ?_, he, by unfold CVI.loss; rw [he]; rfl, hev⟩
  obtain ⟨cst, hc⟩ := siteLogLik_gaussian (θ₁ := fun t => c.sites.nat1 t 0) hneg
  have hbq := (hq1 q hq).2
  have hm : Measurable fun x => siteLogLik (fun t => c.sites.nat1 t 0) (fun t => c.sites.nat2 t 0 0)
      (latent1 c.kernel c.times x) := (measurable_siteLogLik _ _).comp (latent1_measurable _ _)
  have := IsBayesPosterior.add_const hm (-cst) hbq
  simp only [hc, add_neg_cancel_comm] at this
  exact IsBayesPosterior.unique this hb

/-! ### the update -/

/-- C34: the direction of the update is the gradient of the variational expectation with respect to the expectation
parameters `(μ, σ² + μ²)`. -/
theorem C34_gradient {lik : ScalarLikelihood} {m v y : ℝ} {L : ℝ × ℝ →L[ℝ] ℝ}
    (h : HasFDerivAt (fun x : ℝ × ℝ => lik.varExp x.1 x.2 y) L (m, v)) :
    HasFDerivAt (fun η : ℝ × ℝ => lik.varExp η.1 (η.2 - η.1 ^ 2) y)
      ((localGradients lik m v y).1 • ContinuousLinearMap.fst ℝ ℝ ℝ +
        (localGradients lik m v y).2 • ContinuousLinearMap.snd ℝ ℝ ℝ) (m, v + m ^ 2) := by
  have h1 : HasDerivAt (fun m' => lik.varExp m' v y) (L (1, 0)) m := by
    have hi : HasDerivAt (fun m' : ℝ => (m', v)) ((1 : ℝ), (0 : ℝ)) m :=
      (hasDerivAt_id m).prodMk (hasDerivAt_const m v)
    exact HasFDerivAt.comp_hasDerivAt m (f := fun m' : ℝ => (m', v)) h hi
  have h2 : HasDerivAt (fun v' => lik.varExp m v' y) (L (0, 1)) v := by
    have hi : HasDerivAt (fun v' : ℝ => (m, v')) ((0 : ℝ), (1 : ℝ)) v :=
      (hasDerivAt_const v m).prodMk (hasDerivAt_id v)
    exact HasFDerivAt.comp_hasDerivAt v (f := fun v' : ℝ => (m, v')) h hi
  have hg : HasFDerivAt (fun η : ℝ × ℝ => (η.1, η.2 - η.1 ^ 2))
      ((ContinuousLinearMap.fst ℝ ℝ ℝ).prod (ContinuousLinearMap.snd ℝ ℝ ℝ -
        (2 * m) • ContinuousLinearMap.fst ℝ ℝ ℝ)) (m, v + m ^ 2) := by
    refine HasFDerivAt.prodMk hasFDerivAt_fst (HasFDerivAt.sub hasFDerivAt_snd ?_)
    have := (hasFDerivAt_fst (𝕜 := ℝ) (E := ℝ) (F := ℝ) (p := (m, v + m ^ 2))).pow 2
    refine this.congr_fderiv ?_
    ext <;> simp
  have hp : ((m, v) : ℝ × ℝ) = (fun η : ℝ × ℝ => (η.1, η.2 - η.1 ^ 2)) (m, v + m ^ 2) := by simp
  rw [hp] at h
  have hc := h.comp (m, v + m ^ 2) hg
  refine hc.congr_fderiv ?_
  have hL : ∀ a b : ℝ, L (a, b) = a * L (1, 0) + b * L (0, 1) := by
    intro a b
    have : ((a, b) : ℝ × ℝ) = a • (1, 0) + b • (0, 1) := by simp
    rw [this, map_add, map_smul, map_smul]; rfl
  ext
  · simp only [localGradients, gradMeanVarToExpectation, h1.deriv, h2.deriv]
    simp
    rw [hL 1]
    ring
  · simp only [localGradients, gradMeanVarToExpectation, h1.deriv, h2.deriv]
    simp

/-- C34: one `update_sites()`: every site moves from `θ` to `(1 - r) θ + r g`, where `g` is taken at the marginal
mean and variance of `f_t` under `dist_q`; nothing else changes. The mean function plays no role. -/
theorem C34_update {c : CVI n d} {k} (h : c.Valid k) {q} (hq : c.distQ = .ok q) :
    ∃ (c' : CVI n d) (m v : Fin (n + 1) → ℝ), c.updateSites = .ok c' ∧
      (∀ t, 0 ≤ v t ∧ q.law.map (fun x => latent1 c.kernel c.times x t) = gaussianReal (m t) (v t).toNNReal) ∧
      c' = { c with sites := c'.sites } ∧
      ∀ t, c'.sites.nat1 t 0 = (1 - c.learningRate) * c.sites.nat1 t 0 +
          c.learningRate * (localGradients c.likelihood (m t) (v t) (c.observations t 0)).1 ∧
        c'.sites.nat2 t 0 0 = (1 - c.learningRate) * c.sites.nat2 t 0 0 +
          c.learningRate * (localGradients c.likelihood (m t) (v t) (c.observations t 0)).2 := by
  obtain ⟨s, hs, hq1, -⟩ := C34_dist_q h
  have hqn := (hq1 q hq).1
  obtain ⟨f, hf, hfv⟩ := VGP.predict_ok (c := (⟨q, c.kernel, c.times, fun _ => 0⟩ : CondProcess n 1 d))
    h.builds h.noise h.jitter h.times h.lower h.upper h.two hqn
  have hC : (outMat c.kernel c.times * q.Kd * (outMat c.kernel c.times)ᵀ).PosSemidef :=
    posSemidef_conj' q.Kd_posSemidef _
  refine ⟨{ c with sites := ⟨fun t a => (1 - c.learningRate) * c.sites.nat1 t a + c.learningRate *
        (localGradients c.likelihood ((f t).1 a) ((f t).2 a) (c.observations t a)).1,
      fun t => Matrix.of fun a b => (1 - c.learningRate) * c.sites.nat2 t a b + c.learningRate *
        (localGradients c.likelihood ((f t).1 a) ((f t).2 a) (c.observations t a)).2⟩ },
    fun t => (f t).1 0, fun t => (f t).2 0, ?_, fun t => ⟨?_, ?_⟩, ?_, fun t => ⟨rfl, rfl⟩⟩
  · unfold CVI.updateSites CVI.posterior
    rw [hq]
    simp only [bind, Except.bind, pure, Except.pure] at hf ⊢
    rw [hf]
  · beta_reduce; rw [(hfv t 0).2]; exact hC.diag_nonneg
  · have := congrArg (fun μ => μ.map fun x : Fin (n + 1) × Fin 1 → ℝ => x (t, 0))
      (latentOf_gauss c.kernel (fun _ => 0) c.times q)
    rw [gaussLaw_eval hC, Measure.map_map (measurable_pi_apply _) (measurable_latentOf _ _ _)] at this
    beta_reduce
    rw [(hfv t 0).1, (hfv t 0).2]
    exact this
  · rfl

/-- C34: the mean function passed to the constructor is never used: models that differ only there behave alike.
(The exact posterior below is that of regression with mean function zero.) -/
theorem C34_mean_function_ignored (c : CVI n d) (m : ℝ → Vec 1) :
    ({ c with meanFunction := m } : CVI n d).distQ = c.distQ ∧ ({ c with meanFunction := m } : CVI n d).elbo = c.elbo ∧
    ({ c with meanFunction := m } : CVI n d).classicElbo = c.classicElbo ∧
    ({ c with meanFunction := m } : CVI n d).posterior = c.posterior ∧
    ({ c with meanFunction := m } : CVI n d).updateSites =
      c.updateSites.map (fun c' => { c' with meanFunction := m }) := by
  refine ⟨rfl, rfl, rfl, rfl, ?_⟩
  unfold CVI.updateSites
  have e : ({ c with meanFunction := m } : CVI n d).posterior = c.posterior := rfl
  rw [e]
  simp only [bind, Except.bind, pure, Except.pure]
  cases c.posterior with
  | error e => rfl
  | ok post =>
    simp only
    cases post.predictFDiag c.times with
    | error e => rfl
    | ok f => rfl

/-! ### the classic ELBO -/

/-- C34: `classic_elbo()` is `log p(y) - KL(dist_q ‖ posterior)` (zero mean function), for every state of the
sites that has a `dist_q`. -/
theorem C34_classic_elbo {c : CVI n d} {k} (h : c.Valid k) (hlik : ExactLikelihood c.likelihood) {q}
    (hq : c.distQ = .ok q) :
    ∃ (s : SSM n d) (e : ℝ), c.kernel.stateSpaceModel c.times = .ok s ∧ c.classicElbo = .ok e ∧
      ∀ post, IsBayesPosterior s.law
          (fun x => outputLogLik c.likelihood c.observations (latentOf c.kernel (fun _ => 0) c.times x)) post →
        klDiv q.law post ≠ ⊤ ∧
        Real.log (evidence (gpLaw (fun _ => 0) k c.times) (outputLogLik c.likelihood c.observations)).toReal =
          e + (klDiv q.law post).toReal := by
  obtain ⟨s, hs, hq1, -⟩ := C34_dist_q h
  have hqn := (hq1 q hq).1
  obtain ⟨s', e, hs', he, -, hall⟩ := C33_elbo (v := ⟨c.times, c.observations, c.kernel, c.likelihood, fun _ => 0, q⟩)
    (k := k) ⟨h.builds, h.noise, h.jitter, h.times, h.lower, h.upper, h.two, hqn⟩ hlik
  obtain rfl : s = s' := Except.ok.inj (hs.symm.trans hs')
  refine ⟨s, e, hs, ?_, fun post hp => ⟨(hall post hp).1, (hall post hp).2.1⟩⟩
  rw [← he]
  unfold CVI.classicElbo CVI.posterior CVI.distP VGP.elbo VGP.distP VGP.posterior
  rw [hq]
  simp only [bind, Except.bind, pure, Except.pure]

/-! ### Gaussian likelihood -/

/-- For a Gaussian likelihood the update direction is the exact site, whatever the current `q`. -/
theorem localGradients_gaussian {σ2 : ℝ} (hσ : σ2 ≠ 0) (m v y : ℝ) :
    localGradients (gaussianLikelihood σ2) m v y = (y / σ2, -1 / (2 * σ2)) := by
  have h1 : HasDerivAt (fun m => (gaussianLikelihood σ2).varExp m v y) ((y - m) / σ2) m := by
    have h0 : HasDerivAt (fun m => (y - m) ^ 2) (-(2 * (y - m))) m := by
      exact ((((hasDerivAt_id m).const_sub y).pow 2)).congr_deriv (by simp)
    have := (((h0.add_const v).const_mul (1 / 2 : ℝ)).div_const σ2).const_sub
      (-(1 / 2) * Real.log (2 * Real.pi) - 1 / 2 * Real.log σ2)
    refine this.congr_deriv ?_
    ring
  have h2 : HasDerivAt (fun v => (gaussianLikelihood σ2).varExp m v y) (-1 / (2 * σ2)) v := by
    have := ((((hasDerivAt_id v).const_add ((y - m) ^ 2)).const_mul (1 / 2 : ℝ)).div_const σ2).const_sub
      (-(1 / 2) * Real.log (2 * Real.pi) - 1 / 2 * Real.log σ2)
    refine this.congr_deriv ?_
    field_simp
  simp only [localGradients, gradMeanVarToExpectation, h1.deriv, h2.deriv, Prod.mk.injEq, and_true]
  field_simp
  ring

theorem CVI.update_gaussian {c c' : CVI n d} {σ2 : ℝ} (hσ : σ2 ≠ 0) (hlik : c.likelihood = gaussianLikelihood σ2)
    (h : c.updateSites = .ok c') : c' = { c with sites := c'.sites } ∧ ∀ t,
      c'.sites.nat1 t 0 = (1 - c.learningRate) * c.sites.nat1 t 0 + c.learningRate * (c.observations t 0 / σ2) ∧
      c'.sites.nat2 t 0 0 = (1 - c.learningRate) * c.sites.nat2 t 0 0 + c.learningRate * (-1 / (2 * σ2)) := by
  unfold CVI.updateSites at h
  simp only [bind, Except.bind, pure, Except.pure] at h
  cases hp : c.posterior with
  | error e => rw [hp] at h; cases h
  | ok post =>
    rw [hp] at h
    simp only at h
    cases hf : post.predictFDiag c.times with
    | error e => rw [hf] at h; cases h
    | ok f =>
      rw [hf] at h
      simp only [hlik, localGradients_gaussian hσ] at h
      cases h
      exact ⟨by simp [hlik], fun t => ⟨rfl, rfl⟩⟩

/-- C34: after `k` calls of `update_sites()` with learning rate `r` and a Gaussian likelihood of variance `σ2`, every
site is `(1-r)^k · initial + (1 - (1-r)^k) · exact`, the exact site being `(y/σ2, -1/(2σ2))`. -/
theorem C34_k_steps {σ2 : ℝ} (hσ : σ2 ≠ 0) (k : ℕ) {c c' : CVI n d} (hlik : c.likelihood = gaussianLikelihood σ2)
    (h : CVI.updates k c = .ok c') :
    c' = { c with sites := c'.sites } ∧ ∀ t,
      c'.sites.nat1 t 0 = (1 - c.learningRate) ^ k * c.sites.nat1 t 0 +
        (1 - (1 - c.learningRate) ^ k) * (c.observations t 0 / σ2) ∧
      c'.sites.nat2 t 0 0 = (1 - c.learningRate) ^ k * c.sites.nat2 t 0 0 +
        (1 - (1 - c.learningRate) ^ k) * (-1 / (2 * σ2)) := by
  induction k generalizing c with
  | zero =>
    cases h
    exact ⟨rfl, fun t => ⟨by simp, by simp⟩⟩
  | succ k ih =>
    unfold CVI.updates at h
    simp only [bind, Except.bind] at h
    cases hu : c.updateSites with
    | error e => rw [hu] at h; cases h
    | ok c1 =>
      rw [hu] at h
      obtain ⟨h1, h2⟩ := CVI.update_gaussian hσ hlik hu
      have hl1 : c1.likelihood = gaussianLikelihood σ2 := by rw [h1]; exact hlik
      obtain ⟨h3, h4⟩ := ih hl1 h
      have hr : c1.learningRate = c.learningRate := by rw [h1]
      have ho : c1.observations = c.observations := by rw [h1]
      refine ⟨by rw [h3, h1], fun t => ⟨?_, ?_⟩⟩
      · rw [(h4 t).1, (h2 t).1, hr, ho]; ring
      · rw [(h4 t).2, (h2 t).2, hr]; ring

/-- C34: with `0 ≤ r ≤ 1` and a Gaussian likelihood, starting from sites with `nat2 ≤ 0` (the constructor's
have), all updates succeed. -/
theorem C34_updates_succeed {σ2 : ℝ} (hσ : 0 < σ2) (k : ℕ) {c : CVI n d} {kf} (h : c.Valid kf)
    (hlik : c.likelihood = gaussianLikelihood σ2) (h0 : 0 ≤ c.learningRate) (h1 : c.learningRate ≤ 1)
    (hneg : ∀ t, c.sites.nat2 t 0 0 ≤ 0) : ∃ c', CVI.updates k c = .ok c' := by
  induction k generalizing c with
  | zero => exact ⟨c, rfl⟩
  | succ k ih =>
    obtain ⟨s, hs, -, hq, -⟩ := C34_dist_q h
    obtain ⟨q, hq⟩ := hq hneg
    obtain ⟨c1, m, v, hu, -⟩ := C34_update h hq
    obtain ⟨e1, e2⟩ := CVI.update_gaussian hσ.ne' hlik hu
    have hv : c1.Valid kf := by
      rw [e1]; exact ⟨h.builds, h.noise, h.jitter, h.times, h.lower, h.upper, h.two⟩
    obtain ⟨c', hc'⟩ := ih hv (by rw [e1]; exact hlik) (by rw [e1]; exact h0) (by rw [e1]; exact h1) fun t => by
      rw [(e2 t).2]
      have a1 := mul_nonpos_of_nonneg_of_nonpos (sub_nonneg.2 h1) (hneg t)
      have a2 : c.learningRate * (-1 / (2 * σ2)) ≤ 0 := by
        refine mul_nonpos_of_nonneg_of_nonpos h0 ?_
        exact div_nonpos_of_nonpos_of_nonneg (by norm_num) (by positivity)
      linarith
    refine ⟨c', ?_⟩
    unfold CVI.updates
    rw [hu]
    exact hc'

/-- The regression model with the same data, noise variance `σ2` and mean function zero. -/
noncomputable def CVI.toGPR (c : CVI n d) (σ2 : ℝ) : GPR n 1 d :=
  ⟨c.times, c.observations, c.kernel, fun _ => 0, Real.sqrt σ2 • 1⟩

/-- C34: at the exact sites, `dist_q` and `elbo()` are the posterior and the log marginal likelihood of
`GaussianProcessRegression` (mean function zero), and so is `classic_elbo()`. -/
theorem C34_exact_sites {c : CVI n d} {k} (h : c.Valid k) {σ2 : ℝ} (hσ : 0 < σ2)
    (hlik : c.likelihood = gaussianLikelihood σ2)
    (h1 : ∀ t, c.sites.nat1 t 0 = c.observations t 0 / σ2) (h2 : ∀ t, c.sites.nat2 t 0 0 = -1 / (2 * σ2)) :
    ∃ (q : SSM n d) (L : ℝ) (p : CondProcess n 1 d), c.distQ = .ok q ∧ (c.toGPR σ2).posterior = .ok p ∧
      (c.toGPR σ2).logLikelihood = .ok L ∧ q.law = p.q.law ∧ c.elbo = .ok L ∧ c.classicElbo = .ok L := by
  have hneg : ∀ t, c.sites.nat2 t 0 0 < 0 := fun t => by
    rw [h2]; exact div_neg_of_neg_of_pos (by norm_num) (by positivity)
  obtain ⟨s, q, q', f, e, hs, hq, -, -, -, -, he, -, hev⟩ := C34_kalman h hneg
  obtain ⟨s', hs', hq1, -⟩ := C34_dist_q h
  obtain rfl : s = s' := Except.ok.inj (hs.symm.trans hs')
  obtain ⟨hqn, hqb⟩ := hq1 q hq
  have hv : VGP.Valid (⟨c.times, c.observations, c.kernel, c.likelihood, fun _ => 0, q⟩ : VGP n 1 d) k :=
    ⟨h.builds, h.noise, h.jitter, h.times, h.lower, h.upper, h.two, hqn⟩
  obtain ⟨e', L, p, hve, -, hL, hp, -, -, -, hiff⟩ := C33_gaussian hv hσ hlik
  obtain ⟨hnf, hg⟩ : NoiseFactor (Real.sqrt σ2 • (1 : Mat 1 1)) ∧ (c.toGPR σ2).Valid k := by
    have hnf : NoiseFactor (Real.sqrt σ2 • (1 : Mat 1 1)) := by
      refine ⟨fun i j hij => ?_, fun i => ?_⟩
      · simp [hij.ne]
      · simpa using (Real.sqrt_pos.2 hσ).ne'
    exact ⟨hnf, h.builds, h.noise, h.jitter, h.times, hnf, h.two⟩
  have hsite : ∀ t, -1 / (2 * c.sites.nat2 t 0 0) = σ2 ∧
      -c.sites.nat1 t 0 / (2 * c.sites.nat2 t 0 0) = c.observations t 0 := fun t => by
    rw [h1, h2]; constructor <;> field_simp
  have hlikeq : ∀ x : Ix n d → ℝ, (∑ t, (gaussianLikelihood (-1 / (2 * c.sites.nat2 t 0 0))).logProb
        (latent1 c.kernel c.times x t) (-c.sites.nat1 t 0 / (2 * c.sites.nat2 t 0 0))) =
      outputLogLik (gaussianLikelihood σ2) c.observations (latentOf c.kernel (fun _ => 0) c.times x) := fun x => by
    unfold outputLogLik
    refine Finset.sum_congr rfl fun t _ => ?_
    rw [(hsite t).1, (hsite t).2, Fin.sum_univ_one]
    rfl
  simp only [hlikeq] at hev
  -- law
  have hll := obsLogLik_residuals (K := c.kernel) hσ (fun _ => 0) c.times c.observations
  obtain ⟨s', p', hs', hp', -, -, -, -, hb⟩ := GPR.posterior_ok hg
  obtain rfl : s = s' := Except.ok.inj (hs.symm.trans hs')
  obtain rfl : p = p' := Except.ok.inj (hp.symm.trans hp')
  have hb' : IsBayesPosterior s.law (fun x => outputLogLik (gaussianLikelihood σ2) c.observations
      (latentOf c.kernel (fun _ => 0) c.times x)) p.q.law := by
    rw [← hll]; exact hb
  obtain ⟨cst, hc⟩ := siteLogLik_gaussian (θ₁ := fun t => c.sites.nat1 t 0) hneg
  have hm : Measurable fun x => siteLogLik (fun t => c.sites.nat1 t 0) (fun t => c.sites.nat2 t 0 0)
      (latent1 c.kernel c.times x) := (measurable_siteLogLik _ _).comp (latent1_measurable _ _)
  have hqb' := IsBayesPosterior.add_const hm (-cst) hqb
  simp only [hc, add_neg_cancel_comm, hlikeq] at hqb'
  have hlaw : q.law = p.q.law := IsBayesPosterior.unique hqb' hb'
  -- log likelihood
  obtain ⟨s', hnd, hs', hk⟩ := GPR.kalman_ok hg
  obtain rfl : s = s' := Except.ok.inj (hs.symm.trans hs')
  obtain ⟨hco, -, -⟩ := Builds.good h.builds
  obtain ⟨r, hr, hevr, -⟩ := C19_log_likelihood s (fun i => c.kernel.emission (c.times i))
    (fun i => c.observations i - (fun _ => 0) (c.times i)) (Real.sqrt σ2 • 1) hnd hnf h.two hco.pos
  have hLr : L = r := by
    have : (c.toGPR σ2).logLikelihood = .ok r := by
      unfold GPR.logLikelihood
      rw [hk]
      exact hr
    exact Except.ok.inj (hL.symm.trans this)
  have hrev : evidence s.law (obsLogLik (fun i => c.kernel.emission (c.times i)) id
      (fun _ => (Real.sqrt σ2 • (1 : Mat 1 1)) * (Real.sqrt σ2 • (1 : Mat 1 1))ᵀ)
      (fun i => c.observations i - (fun _ => 0) (c.times i))) = ENNReal.ofReal (Real.exp r) := hevr
  rw [hll, hev] at hrev
  have her : e = r := by
    have := congrArg ENNReal.toReal hrev
    rw [ENNReal.toReal_ofReal (Real.exp_pos _).le, ENNReal.toReal_ofReal (Real.exp_pos _).le] at this
    exact Real.exp_injective this
  refine ⟨q, L, p, hq, hp, hL, hlaw, by rw [he, her, hLr], ?_⟩
  have : e' = L := hiff.2 hlaw
  rw [← this, ← hve]
  unfold CVI.classicElbo CVI.posterior CVI.distP VGP.elbo VGP.distP VGP.posterior
  rw [hq]
  simp only [bind, Except.bind, pure, Except.pure]

/-- C34: with learning rate 1 a single update (or any positive number of them), from any sites with `nat2 ≤ 0`,
reaches the exact posterior, and `elbo()` is then the log marginal likelihood. -/
theorem C34_one_step {c : CVI n d} {kf} (h : c.Valid kf) {σ2 : ℝ} (hσ : 0 < σ2)
    (hlik : c.likelihood = gaussianLikelihood σ2) (hr : c.learningRate = 1) (hneg : ∀ t, c.sites.nat2 t 0 0 ≤ 0) (k : ℕ) :
    ∃ (c' : CVI n d) (q : SSM n d) (L : ℝ) (p : CondProcess n 1 d), CVI.updates (k + 1) c = .ok c' ∧ c'.distQ = .ok q ∧
      (c.toGPR σ2).posterior = .ok p ∧ (c.toGPR σ2).logLikelihood = .ok L ∧ q.law = p.q.law ∧ c'.elbo = .ok L ∧
      c'.classicElbo = .ok L := by
  obtain ⟨c', hc'⟩ := C34_updates_succeed hσ (k + 1) h hlik (by rw [hr]; norm_num) hr.le hneg
  obtain ⟨e1, e2⟩ := C34_k_steps hσ.ne' (k + 1) hlik hc'
  have hv : c'.Valid kf := by
    rw [e1]; exact ⟨h.builds, h.noise, h.jitter, h.times, h.lower, h.upper, h.two⟩
  have ho : c'.observations = c.observations := by rw [e1]
  obtain ⟨q, L, p, h1, h2, h3, h4, h5, h6⟩ := C34_exact_sites hv hσ (by rw [e1]; exact hlik)
    (fun t => by rw [(e2 t).1, hr, ho]; simp) (fun t => by rw [(e2 t).2, hr]; simp)
  have hg : c'.toGPR σ2 = c.toGPR σ2 := by rw [e1]; rfl
  rw [hg] at h2 h3
  exact ⟨c', q, L, p, hc', h1, h2, h3, h4, h5, h6⟩

/-- C34: damped updates (`0 < r ≤ 1`) converge to the exact sites. -/
theorem C34_converges {σ2 : ℝ} (hσ : 0 < σ2) {c : CVI n d} (hlik : c.likelihood = gaussianLikelihood σ2)
    (h0 : 0 < c.learningRate) (h1 : c.learningRate ≤ 1) (cs : ℕ → CVI n d)
    (hcs : ∀ k, CVI.updates k c = .ok (cs k)) (t : Fin (n + 1)) :
    Filter.Tendsto (fun k => (cs k).sites.nat1 t 0) Filter.atTop (nhds (c.observations t 0 / σ2)) ∧
    Filter.Tendsto (fun k => (cs k).sites.nat2 t 0 0) Filter.atTop (nhds (-1 / (2 * σ2))) := by
  have hp : Filter.Tendsto (fun k : ℕ => (1 - c.learningRate) ^ k) Filter.atTop (nhds 0) :=
    tendsto_pow_atTop_nhds_zero_of_lt_one (by linarith) (by linarith)
  have key : ∀ a b : ℝ, Filter.Tendsto (fun k : ℕ => (1 - c.learningRate) ^ k * a + (1 - (1 - c.learningRate) ^ k) * b)
      Filter.atTop (nhds b) := fun a b => by
    have := (hp.mul_const a).add ((hp.const_sub 1).mul_const b)
    simpa using this
  constructor
  · simp only [fun k => ((C34_k_steps hσ.ne' k hlik (hcs k)).2 t).1]
    exact key _ _
  · simp only [fun k => ((C34_k_steps hσ.ne' k hlik (hcs k)).2 t).2]
    exact key _ _

/-! ### `elbo()` away from the fixed point -/

/-- C34, finding: `elbo()` is not a lower bound of the log marginal likelihood away from the fixed point. For the
sites set by the constructor it does not depend on the data, and for every kernel, every times and noise there are data
whose log marginal likelihood is smaller. -/
theorem C34_elbo_not_a_bound {times : Fin (n + 1) → ℝ} {K : Stationary 1 d} {k} {σ2 : ℝ} (hσ : 0 < σ2)
    (h : (CVI.init times (fun _ => 0) K (gaussianLikelihood σ2) none).Valid k) :
    ∃ e, (∀ y, (CVI.init times y K (gaussianLikelihood σ2) none).elbo = .ok e) ∧
      ∃ y L, ((CVI.init times y K (gaussianLikelihood σ2) none).toGPR σ2).logLikelihood = .ok L ∧ L < e := by
  obtain ⟨s, q, q', f, e, -, -, -, -, -, -, he, -⟩ := C34_kalman h (fun t => by
    show (-1e-10 : ℝ) < 0; norm_num)
  refine ⟨e, fun y => he, ?_⟩
  have hnf : NoiseFactor (Real.sqrt σ2 • (1 : Mat 1 1)) := by
    refine ⟨fun i j hij => ?_, fun i => ?_⟩
    · simp [hij.ne]
    · simpa using (Real.sqrt_pos.2 hσ).ne'
  have hgv : ∀ y, ((CVI.init times y K (gaussianLikelihood σ2) none).toGPR σ2).Valid k := fun y =>
    ⟨h.builds, h.noise, h.jitter, h.times, hnf, h.two⟩
  set S := gpGram k times + blkDiag (fun _ : Fin (n + 1) => (Real.sqrt σ2 • (1 : Mat 1 1)) * (Real.sqrt σ2 • (1 : Mat 1 1))ᵀ)
    with hS
  have hSp : S.PosDef := PosDef.posSemidef_add (gpGram_psd h.builds _) (posDef_blkDiag fun _ => hnf.posDef)
  have hLy := fun y => (C32_log_likelihood (hgv y)).1
  have hpos : 0 < S⁻¹ (0, 0) (0, 0) := hSp.inv.diag_pos
  set cst : ℝ := -(1 / 2) * Real.log S.det - (Fintype.card (Fin (n + 1) × Fin 1) / 2) * Real.log (2 * Real.pi) with hcst
  -- choose a large first observation
  set a : ℝ := Real.sqrt (2 * (|cst - e| + 1) / S⁻¹ (0, 0) (0, 0)) with ha
  have ha2 : a ^ 2 * S⁻¹ (0, 0) (0, 0) = 2 * (|cst - e| + 1) := by
    rw [ha, Real.sq_sqrt (by positivity)]
    field_simp
  refine ⟨fun t _ => if t = 0 then a else 0, _, hLy _, ?_⟩
  have hval : gaussLogDensity (meanVec (fun _ => (0 : Vec 1)) times) S
      (stk fun (t : Fin (n + 1)) (_ : Fin 1) => if t = 0 then a else 0) = -(1 / 2) * (a ^ 2 * S⁻¹ (0, 0) (0, 0)) + cst := by
    unfold gaussLogDensity
    have e1 : (stk fun (t : Fin (n + 1)) (_ : Fin 1) => if t = 0 then a else 0) - meanVec (fun _ => (0 : Vec 1)) times =
        Pi.single (0, 0) a := by
      funext i
      obtain ⟨t, b⟩ := i
      obtain rfl : b = 0 := Subsingleton.elim _ _
      by_cases ht : t = 0
      · subst ht; simp [stk, meanVec]
      · simp [stk, meanVec, ht, Pi.single_apply]
    rw [e1, mulVec_single, single_dotProduct, hcst]
    simp only [Pi.smul_apply, MulOpposite.smul_eq_mul_unop, MulOpposite.unop_op, col_apply]
    ring
  have hgoal : gaussLogDensity (meanVec (fun _ => (0 : Vec 1)) times) S
      (stk fun (t : Fin (n + 1)) (_ : Fin 1) => if t = 0 then a else 0) < e := by
    rw [hval, ha2]
    have := neg_abs_le (cst - e)
    have := le_abs_self (cst - e)
    linarith
  exact hgoal

/-- Non-vacuity: the model built by the constructor for a Matérn 3/2 kernel and three data satisfies the hypotheses, and
its sites have `nat2 ≤ 0`. -/
example : ∃ (c : CVI 2 2) (k : ℝ → ℝ → Mat 1 1), c.Valid k ∧ c.likelihood = gaussianLikelihood 2 ∧
    (∀ t, c.sites.nat2 t 0 0 ≤ 0) ∧ c.learningRate = 1 ∧ c.observations 1 0 ≠ 0 := by
  obtain ⟨K, hK⟩ := (C28_constructors (o := 1) 2 3 1 1 1 0).2.1.2 (by norm_num)
  refine ⟨CVI.init ![0, 1, 3] (fun i => ![(i : ℝ)]) K (gaussianLikelihood 2) none 1, _,
    ⟨.leaf (.matern32 hK), .matern32 hK, by show K.jitter = 0; rw [(kernelInit_ok hK).2.2]; rfl, ?_, ?_, ?_, by norm_num⟩,
    rfl, fun t => by show (-1e-10 : ℝ) ≤ 0; norm_num, rfl, ?_⟩
  · refine Fin.strictMono_iff_lt_succ.2 fun i => ?_
    fin_cases i <;> simp [CVI.init] <;> norm_num
  · show -10000000000 < (0 : ℝ); norm_num
  · show (3 : ℝ) ≤ 10000000000; norm_num
  · show (![((1 : Fin 3) : ℝ)] : Vec 1) 0 ≠ 0
    simp

end MF
