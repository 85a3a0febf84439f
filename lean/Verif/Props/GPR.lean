import Verif.Lemmas.GPR

/-!
# C32: `GaussianProcessRegression`

Specification vocabulary (`Spec/GPR`): `gpGram`, `crossCov`, `gpPostMean`, `gpPostCov` are the dense
(Rasmussen & Williams) formulas; `gpLaw` is the Gaussian process prior at finitely many times.
-/

namespace MF
open Matrix Spec MeasureTheory ProbabilityTheory
variable {n d o p : ℕ}

/-- C32, the specification itself: the dense formulas are the Bayes posterior of a Gaussian process
prior, jointly at the data times and any new times. -/
theorem C32_dense_is_bayes {K : Stationary o d} {k} (hK : Builds K k) (m : ℝ → Vec o) {T S : Type} [Fintype T]
    [DecidableEq T] [Fintype S] [DecidableEq S] (ts : T → ℝ) (new : S → ℝ)
    {R : Matrix (T × Fin o) (T × Fin o) ℝ} (hR : R.PosDef) (y : T × Fin o → ℝ) :
    IsBayesPosterior (gpLaw m k (Sum.elim ts new))
      (fun f => gaussLogDensity (fun i : T × Fin o => f (.inl i.1, i.2)) R y)
      (gaussLaw (fun i : (T ⊕ S) × Fin o => gpPostMean m k ts R y (Sum.elim ts new i.1) i.2)
        (Matrix.of fun i j => gpPostCov k ts R (Sum.elim ts new i.1) (Sum.elim ts new j.1) i.2 j.2)) ∧
    evidence (gpLaw m k (Sum.elim ts new))
      (fun f => gaussLogDensity (fun i : T × Fin o => f (.inl i.1, i.2)) R y) =
        ENNReal.ofReal (Real.exp (gaussLogDensity (meanVec m ts) (gpGram k ts + R) y)) :=
  (dense_bayes m (Builds.good hK).2.2.symm ts new (gpGram_psd hK _) hR y).2

/-- The hypotheses on a regression model: a kernel expression with noise throughout (the Matérn family and
what is built from it), jitter zero, strictly increasing times, a valid noise factor. -/
structure GPR.Valid (g : GPR n o d) (k : ℝ → ℝ → Mat o o) : Prop where
  builds : Builds g.kernel k
  noise : NoiseTag g.kernel true
  jitter : g.kernel.jitter = 0
  times : StrictMono g.times
  factor : NoiseFactor g.cholObsCov
  two : 0 < n

/-- The block diagonal observation noise of the model. -/
noncomputable def GPR.noiseCov (g : GPR n o d) : Matrix (Fin (n + 1) × Fin o) (Fin (n + 1) × Fin o) ℝ :=
  blkDiag fun _ => g.cholObsCov * g.cholObsCovᵀ

theorem GPR.kalman_ok {g : GPR n o d} {k} (h : g.Valid k) : ∃ s : SSM n d, s.Nondegenerate ∧
    g.kernel.stateSpaceModel g.times = .ok s ∧
    g.kalman = .ok (kalmanFilter s (fun i => g.kernel.emission (g.times i))
      (fun i => g.observations i - g.meanFunction (g.times i)) g.cholObsCov) := by
  obtain ⟨s, hs, hnd⟩ := kernel_ssm_nondegenerate h.builds h.noise h.two h.times
  refine ⟨s, hnd, hs, ?_⟩
  unfold GPR.kalman
  rw [hs]
  rfl

theorem obsMatrix_id_eq_outMat (K : Stationary o d) (ts : Fin (n + 1) → ℝ) :
    obsMatrix (fun i => K.emission (ts i)) id = outMat K ts := by
  ext i j
  simp only [obsMatrix, ofBlk, outMat, Matrix.of_apply, id]
  by_cases h : i.1 = j.1
  · rw [if_pos h, if_pos h.symm]
  · rw [if_neg h, if_neg (Ne.symm h)]; rfl

theorem kernel_moments {K : Stationary o d} {k} (hK : Builds K k) (hj : K.jitter = 0)
    {ts : Fin (n + 1) → ℝ} {s : SSM n d} (hs : K.stateSpaceModel ts = .ok s) :
    stk s.mus = 0 ∧ s.Kd = Matrix.of fun i j : Fin (n + 1) × Fin d =>
      stateCov (K.stateTransitions 0) K.Pinf (ts i.1) (ts j.1) i.2 j.2 := by
  obtain ⟨hc, -, -⟩ := Builds.good hK
  have h := (C23_prior_is_kernel hK hj hs (Fin.elim0 : Fin 0 → ℝ)).2
  rw [SSM.law_eq_gauss] at h
  exact (SSM.gaussLaw_inj s.Kd_posSemidef (hc.statProc.psd_any ts)).1 h

/-- C32: `log_likelihood()` is the dense marginal log likelihood `log N(y; m(X), K_XX + I ⊗ R)`, and
`loss()` its negative. -/
theorem C32_log_likelihood {g : GPR n o d} {k} (h : g.Valid k) :
    g.logLikelihood = .ok (gaussLogDensity (meanVec g.meanFunction g.times) (gpGram k g.times + g.noiseCov)
        (stk g.observations)) ∧
    g.loss = .ok (-(gaussLogDensity (meanVec g.meanFunction g.times) (gpGram k g.times + g.noiseCov)
        (stk g.observations))) := by
  obtain ⟨s, hnd, hs, hk⟩ := GPR.kalman_ok h
  obtain ⟨hc, -, hD⟩ := Builds.good h.builds
  obtain ⟨r, hr, -, hv⟩ := C19_log_likelihood s (fun i => g.kernel.emission (g.times i))
    (fun i => g.observations i - g.meanFunction (g.times i)) g.cholObsCov hnd h.factor h.two hc.pos
  have hv := hv s.mus s.Kd ⟨s.mus_isMeans, s.Kd_isJointCov⟩
  obtain ⟨h1, h2⟩ := kernel_moments h.builds h.jitter hs
  rw [h1, h2, mulVec_zero, obsMatrix_id_eq_outMat, outMat_conj hD] at hv
  have e : r = gaussLogDensity (meanVec g.meanFunction g.times) (gpGram k g.times + g.noiseCov)
        (stk g.observations) := by
    rw [hv]
    unfold gaussLogDensity GPR.noiseCov
    rw [sub_zero]
    rfl
  have hl : g.logLikelihood = .ok r := by
    unfold GPR.logLikelihood
    rw [hk]
    exact hr
  refine ⟨by rw [hl, e], ?_⟩
  unfold GPR.loss
  rw [hl, e]
  rfl

/-- Outputs at the data times and at the new times. -/
noncomputable def outputsAt (K : Stationary o d) (ts : Fin (n + 1) → ℝ) (new : Fin p → ℝ)
    (x : (Fin (n + 1) × Fin d → ℝ) × (Fin p × Fin d → ℝ)) : (Fin (n + 1) ⊕ Fin p) × Fin o → ℝ :=
  fun i => (K.emission (Sum.elim ts new i.1) *ᵥ
    Sum.elim (fun t a => x.1 (t, a)) (fun s a => x.2 (s, a)) i.1) i.2

theorem measurable_outputsAt (K : Stationary o d) (ts : Fin (n + 1) → ℝ) (new : Fin p → ℝ) :
    Measurable (outputsAt K ts new) := by
  refine measurable_pi_lambda _ fun i => ?_
  unfold outputsAt
  simp only [mulVec, dotProduct]
  refine Finset.measurable_sum _ fun a _ => ?_
  rcases i with ⟨t | t, b⟩ <;> simp only [Sum.elim_inl, Sum.elim_inr] <;> fun_prop

theorem measurable_logDensity_comp {X ι : Type*} [MeasurableSpace X] [Fintype ι] [DecidableEq ι] {f : X → ι → ℝ}
    (hf : Measurable f) (R : Matrix ι ι ℝ) (y : ι → ℝ) : Measurable fun x => gaussLogDensity (f x) R y := by
  simp only [gaussLogDensity_comm _ y]
  exact (measurable_gaussLogDensity y R).comp hf

/-- If `q` is the Bayes posterior of the states at the data times given `y`, then the outputs of the
process `q(u) p(s | u)` at data times and new times have the dense posterior as their law. -/
theorem outputs_posterior {K : Stationary o d} {k} (hK : Builds K k) (hj : K.jitter = 0)
    {ts : Fin (n + 1) → ℝ} {s : SSM n d} (hs : K.stateSpaceModel ts = .ok s) {R : Fin (n + 1) → Mat o o}
    (hR : ∀ i, (R i).PosDef) (y : Fin (n + 1) → Vec o) {q : Measure (Fin (n + 1) × Fin d → ℝ)}
    (hb : IsBayesPosterior (stateLaw s) (obsLogLik (fun i => K.emission (ts i)) id R y) q) (new : Fin p → ℝ)
    {ν} (hν : IsPredictive (priorLaw K ts new) q ν) :
    ν.map (outputsAt K ts new) =
      gaussLaw (fun i => gpPostMean (fun _ => 0) k ts (blkDiag R) (stk y) (Sum.elim ts new i.1) i.2)
        (Matrix.of fun i j => gpPostCov k ts (blkDiag R) (Sum.elim ts new i.1) (Sum.elim ts new j.1) i.2 j.2) := by
  have hp := gpLaw_isProb (fun _ => (0 : Vec d)) (stateCov (K.stateTransitions 0) K.Pinf) (Sum.elim ts new)
  have hpr : IsProbabilityMeasure (priorLaw K ts new) :=
    Measure.isProbabilityMeasure_map measurable_atTimes.aemeasurable
  have hll : obsLogLik (fun i => K.emission (ts i)) id R y = fun x =>
      gaussLogDensity (outMat K ts *ᵥ x) (blkDiag R) (stk y) := funext fun x => by
    rw [obsLogLik_eq (fun i => K.emission (ts i)) id hR, obsMatrix_id_eq_outMat]
  have hb' : IsBayesPosterior ((priorLaw K ts new).map Prod.fst)
      (fun x => gaussLogDensity (outMat K ts *ᵥ x) (blkDiag R) (stk y)) q := by
    rw [← (C23_prior_is_kernel hK hj hs new).1, ← hll]
    exact hb
  have hB := C23_bayes (measurable_logDensity_comp (measurable_mulVec _) _ _) hb' hν
  have hB2 : IsBayesPosterior (priorLaw K ts new) (fun x => gaussLogDensity
      (fun i : Fin (n + 1) × Fin o => outputsAt K ts new x (.inl i.1, i.2)) (blkDiag R) (stk y)) ν := by
    have e : ∀ x : (Fin (n + 1) × Fin d → ℝ) × (Fin p × Fin d → ℝ), outMat K ts *ᵥ x.1 =
        fun i : Fin (n + 1) × Fin o => outputsAt K ts new x (.inl i.1, i.2) := fun x => by
      rw [outMat_mulVec]; rfl
    simp only [e] at hB
    exact hB
  have hsel : Measurable fun (f : (Fin (n + 1) ⊕ Fin p) × Fin o → ℝ) (i : Fin (n + 1) × Fin o) =>
      f (.inl i.1, i.2) := measurable_pi_lambda _ fun i => measurable_pi_apply _
  have hB3 := IsBayesPosterior.map (ℓ := fun f : (Fin (n + 1) ⊕ Fin p) × Fin o → ℝ =>
      gaussLogDensity (fun i : Fin (n + 1) × Fin o => f (.inl i.1, i.2)) (blkDiag R) (stk y))
    (measurable_outputsAt K ts new) (measurable_logDensity_comp hsel (blkDiag R) (stk y)) hB2
  have hpm : (priorLaw K ts new).map (outputsAt K ts new) = gpLaw (fun _ => 0) k (Sum.elim ts new) := by
    rw [← output_gpLaw hK, priorLaw, Measure.map_map (measurable_outputsAt _ _ _) measurable_atTimes]
    congr 1
    funext x i
    rcases i with ⟨t | t, b⟩ <;> rfl
  rw [hpm] at hB3
  exact IsBayesPosterior.unique hB3 (C32_dense_is_bayes hK (fun _ => 0) ts new (posDef_blkDiag hR) (stk y)).1

theorem GPR.posterior_ok {g : GPR n o d} {k} (h : g.Valid k) : ∃ (s : SSM n d) (c : CondProcess n o d),
    g.kernel.stateSpaceModel g.times = .ok s ∧ g.posterior = .ok c ∧ c.q.Nondegenerate ∧
    c.kernel = g.kernel ∧ c.times = g.times ∧ c.meanFunction = g.meanFunction ∧
    IsBayesPosterior (stateLaw s) (obsLogLik (fun i => g.kernel.emission (g.times i)) id
      (fun _ => g.cholObsCov * g.cholObsCovᵀ) fun i => g.observations i - g.meanFunction (g.times i)) c.q.law := by
  obtain ⟨s, hnd, hs, hk⟩ := GPR.kalman_ok h
  obtain ⟨q, hq, hqn, hb, -⟩ := C18_posterior s (fun i => g.kernel.emission (g.times i))
    (fun i => g.observations i - g.meanFunction (g.times i)) g.cholObsCov hnd h.factor h.two
  refine ⟨s, ⟨q, g.kernel, g.times, g.meanFunction⟩, hs, ?_, hqn, rfl, rfl, rfl, hb⟩
  unfold GPR.posterior
  rw [hk]
  simp only [bind, Except.bind, hq, pure, Except.pure]

theorem gpPostMean_shift (m : ℝ → Vec o) (k : ℝ → ℝ → Mat o o) (ts : Fin (n + 1) → ℝ)
    (R : Matrix (Fin (n + 1) × Fin o) (Fin (n + 1) × Fin o) ℝ) (y : Fin (n + 1) → Vec o) (t : ℝ) :
    gpPostMean (fun _ => 0) k ts R (stk fun i => y i - m (ts i)) t + m t = gpPostMean m k ts R (stk y) t := by
  have e : (stk fun i => y i - m (ts i)) - meanVec (fun _ => (0 : Vec o)) ts = stk y - meanVec m ts := by
    funext i
    simp [stk, meanVec]
  unfold gpPostMean
  rw [e, zero_add, add_comm]

/-- C32: the posterior process predicts the dense GP posterior mean (mean function included) and
covariance, at every query in the closed range of the data times (at the data times in particular). -/
theorem C32_posterior {g : GPR n o d} {k} (h : g.Valid k) (ht0 : -10000000000 < g.times 0)
    (ht1 : g.times (Fin.last n) ≤ 10000000000) : ∃ c, g.posterior = .ok c ∧ c.q.Nondegenerate ∧
    ∀ {p : ℕ} (new : Fin p → ℝ), (∀ j, g.times 0 ≤ new j) → (∀ j, new j ≤ g.times (Fin.last n)) →
      ∃ f, c.predictF new = .ok f ∧ ∀ j,
        (f j).1 = gpPostMean g.meanFunction k g.times g.noiseCov (stk g.observations) (new j) ∧
        (f j).2 = gpPostCov k g.times g.noiseCov (new j) (new j) := by
  obtain ⟨s, c, hs, hc, hqn, hck, hct, hcm, hb⟩ := GPR.posterior_ok h
  refine ⟨c, hc, hqn, fun {p} new h0 h1 => ?_⟩
  obtain ⟨hco, -, hD⟩ := Builds.good h.builds
  have hR : ∀ i : Fin (n + 1), (g.cholObsCov * g.cholObsCovᵀ).PosDef := fun _ => h.factor.posDef
  have hmono := h.times.monotone
  obtain ⟨r, hr⟩ := C22_succeeds (c := c) (k := k) (by rw [hck]; exact h.builds) (by rw [hck]; exact h.noise) hqn h.two
    (by rw [hct]; exact hmono) (new := new) (fun j => lt_of_lt_of_le ht0 (h0 j)) (fun j => (h1 j).trans ht1)
  obtain ⟨f, hf, hfv⟩ := (C45_formulas hr 0).1
  refine ⟨f, hf, fun j => ?_⟩
  have hdense := fun (p : ℕ) (new : Fin p → ℝ) => (dense_bayes (fun _ => 0) hD.symm g.times new
    (gpGram_psd h.builds _) (posDef_blkDiag hR) (stk fun i => g.observations i - g.meanFunction (g.times i))).1
  -- the law of `emission * state` at the query
  have key : (gaussLaw (r j).1 (r j).2).map (fun x => g.kernel.emission (new j) *ᵥ x) =
      gaussLaw (gpPostMean (fun _ => 0) k g.times g.noiseCov
        (stk fun i => g.observations i - g.meanFunction (g.times i)) (new j))
        (gpPostCov k g.times g.noiseCov (new j) (new j)) := by
    have hr1 := predictState_single hqn h.two hco.pos hr j
    obtain ⟨ν, hν, hm⟩ := C23_interior (c := c) (k := k) (by rw [hck]; exact h.builds)
      (by rw [hck]; exact h.jitter) hqn h.two (by rw [hct]; exact hmono) (by rw [hct]; exact ht0)
      (by rw [hct]; exact ht1) (fun _ => by rw [hct]; exact h0 j) (fun _ => by rw [hct]; exact h1 j) hr1
    rw [hck, hct] at hν
    have ho := outputs_posterior h.builds h.jitter hs hR _ hb (fun _ : Fin 1 => new j) hν
    have hm0 := hm 0
    have := congrArg (fun μ => μ.map (fun x => x ∘ fun a : Fin o => ((Sum.inr 0 : Fin (n + 1) ⊕ Fin 1), a))) ho
    rw [gaussLaw_comp (hdense 1 _), Measure.map_map (by fun_prop) (measurable_outputsAt _ _ _)] at this
    rw [← hm0, Measure.map_map (measurable_mulVec _) (by fun_prop)]
    exact this
  have hps := C45_state_psd (c := c) (k := k) (by rw [hck]; exact h.builds) hqn h.two (by rw [hct]; exact hmono)
    (fun j => lt_of_lt_of_le ht0 (h0 j)) (fun j => (h1 j).trans ht1) hr j
  have hpost : (gpPostCov k g.times g.noiseCov (new j) (new j)).PosSemidef :=
    (hdense p new).submatrix fun a : Fin o => ((Sum.inr j : Fin (n + 1) ⊕ Fin p), a)
  have haff := gaussLaw_map_affine hps (r j).1 (0 : Vec o) (g.kernel.emission (new j))
  simp only [zero_add] at haff
  rw [haff] at key
  have hH : (g.kernel.emission (new j) * (r j).2 * (g.kernel.emission (new j))ᵀ).PosSemidef :=
    posSemidef_conj' hps _
  obtain ⟨e1, e2⟩ := (SSM.gaussLaw_inj hH hpost).1 key
  obtain ⟨f1, f2⟩ := hfv j
  rw [hck] at f1 f2
  rw [f1, f2, hcm, e1, e2, gpPostMean_shift]
  exact ⟨rfl, rfl⟩

/-- C32: joint samples. `sample_f` at new times within the range, given iid standard normal noise, draws
jointly from the dense posterior at those times. -/
theorem C32_samples {g : GPR n o d} {k} (h : g.Valid k) (ht0 : -10000000000 < g.times 0)
    (ht1 : g.times (Fin.last n) ≤ 10000000000) {c} (hc : g.posterior = .ok c) (new : Fin p → ℝ)
    (h0 : ∀ j, g.times 0 ≤ new j) (h1 : ∀ j, new j ≤ g.times (Fin.last n)) :
    ∃ F : (Ix (n + p) d → ℝ) → (Ix n d → ℝ) → Fin p → Vec o,
      (∀ e e', c.sampleF new (unstk e) (unstk e') = .ok (F e e')) ∧
      ((stdNormal (Ix (n + p) d)).prod (stdNormal (Ix n d))).map (fun e => stk (F e.1 e.2)) =
        gaussLaw (fun i => gpPostMean g.meanFunction k g.times g.noiseCov (stk g.observations) (new i.1) i.2)
          (Matrix.of fun i j => gpPostCov k g.times g.noiseCov (new i.1) (new j.1) i.2 j.2) := by
  obtain ⟨s, c', hs, hc', hqn, hck, hct, hcm, hb⟩ := GPR.posterior_ok h
  obtain rfl : c = c' := Except.ok.inj (hc.symm.trans hc')
  obtain ⟨hco, -, hD⟩ := Builds.good h.builds
  have hR : ∀ i : Fin (n + 1), (g.cholObsCov * g.cholObsCovᵀ).PosDef := fun _ => h.factor.posDef
  have hmono := h.times.monotone
  have hKc : Builds c.kernel k := by rw [hck]; exact h.builds
  have hjc : c.kernel.jitter = 0 := by rw [hck]; exact h.jitter
  obtain ⟨X, hX⟩ := C24_succeeds (c := c) (new := new) hKc (by rw [hck]; exact h.noise) hjc h.two
    (by rw [hct]; exact hmono) (fun j => ht0.trans_le (h0 j)) (fun j => (h1 j).trans ht1)
  have hν := C24_interior (c := c) (new := new) hKc hjc h.two (by rw [hct]; exact hmono)
    (by rw [hct]; exact ht0) (by rw [hct]; exact ht1) (fun j => by rw [hct]; exact h0 j)
    (fun j => by rw [hct]; exact h1 j) hX
  rw [hck, hct] at hν
  have ho := outputs_posterior h.builds h.jitter hs hR _ hb new hν
  have hprob : IsProbabilityMeasure (sampledLaw X) := by
    obtain ⟨κ, hκ, -, e⟩ := hν
    have hp : IsProbabilityMeasure c.q.law := by rw [SSM.law_eq_gauss]; infer_instance
    rw [e]; infer_instance
  have hae : AEMeasurable (fun e : (Ix (n + p) d → ℝ) × (Ix n d → ℝ) => (stk (X e.1 e.2).2, stk (X e.1 e.2).1))
      ((stdNormal (Ix (n + p) d)).prod (stdNormal (Ix n d))) :=
    aemeasurable_of_map_neZero (by
      have : NeZero (sampledLaw X) := ⟨IsProbabilityMeasure.ne_zero _⟩
      exact this)
  have hdense := (dense_bayes (fun _ => 0) hD.symm g.times new
    (gpGram_psd h.builds _) (posDef_blkDiag hR) (stk fun i => g.observations i - g.meanFunction (g.times i))).1
  refine ⟨fun e e' q => c.meanFunction (new q) + c.kernel.emission (new q) *ᵥ (X e e').1 q, fun e e' => ?_, ?_⟩
  · unfold CondProcess.sampleF
    rw [hX]
    simp only [bind, Except.bind, pure, Except.pure]
    rfl
  · rw [hck, hcm]
    have hmap : Measurable fun x : (Fin (n + 1) × Fin d → ℝ) × (Fin p × Fin d → ℝ) => fun i : Fin p × Fin o =>
        g.meanFunction (new i.1) i.2 + outputsAt g.kernel g.times new x (.inr i.1, i.2) := by
      refine measurable_pi_lambda _ fun i => Measurable.add measurable_const ?_
      exact measurable_pi_iff.1 (measurable_outputsAt g.kernel g.times new) _
    have h2 : ((stdNormal (Ix (n + p) d)).prod (stdNormal (Ix n d))).map (fun e => stk fun q =>
        g.meanFunction (new q) + g.kernel.emission (new q) *ᵥ (X e.1 e.2).1 q) =
        (sampledLaw X).map fun x => fun i : Fin p × Fin o =>
        g.meanFunction (new i.1) i.2 + outputsAt g.kernel g.times new x (.inr i.1, i.2) := by
      unfold sampledLaw
      rw [AEMeasurable.map_map_of_aemeasurable hmap.aemeasurable hae]
      rfl
    have h3 : (fun x : (Fin (n + 1) × Fin d → ℝ) × (Fin p × Fin d → ℝ) => fun i : Fin p × Fin o =>
        g.meanFunction (new i.1) i.2 + outputsAt g.kernel g.times new x (.inr i.1, i.2)) =
        (fun f => (fun i : Fin p × Fin o => g.meanFunction (new i.1) i.2) + (1 : Matrix (Fin p × Fin o) _ ℝ) *ᵥ f) ∘
        (fun f => f ∘ fun i : Fin p × Fin o => ((Sum.inr i.1 : Fin (n + 1) ⊕ Fin p), i.2)) ∘
          outputsAt g.kernel g.times new := by
      funext x
      simp only [Function.comp, one_mulVec]
      rfl
    rw [h2, h3, ← Measure.map_map (measurable_affine _ _) (Measurable.comp (by fun_prop) (measurable_outputsAt _ _ _)),
      ← Measure.map_map (by fun_prop) (measurable_outputsAt _ _ _), ho, gaussLaw_comp hdense,
      gaussLaw_map_affine (hdense.submatrix _)]
    rw [one_mulVec, Matrix.one_mul, transpose_one, Matrix.mul_one]
    congr 1
    funext i
    have := congrFun (gpPostMean_shift g.meanFunction k g.times g.noiseCov g.observations (new i.1)) i.2
    rw [← this, Pi.add_apply, add_comm]
    rfl

/-- Non-vacuity: Matérn 3/2 kernel, three data times, a non-zero mean function. -/
example : ∃ (g : GPR 2 1 2) (k : ℝ → ℝ → Mat 1 1), g.Valid k ∧ -10000000000 < g.times 0 ∧
    g.times (Fin.last 2) ≤ 10000000000 ∧ g.meanFunction 1 ≠ 0 := by
  obtain ⟨K, hK⟩ := (C28_constructors (o := 1) 2 3 1 1 1 0).2.1.2 (by norm_num)
  refine ⟨⟨![0, 1, 3], fun i => ![(i : ℝ)], K, fun t => ![t], !![2]⟩, _,
    ⟨.leaf (.matern32 hK), .matern32 hK, by rw [(kernelInit_ok hK).2.2]; rfl, ?_, ⟨?_, ?_⟩, by norm_num⟩, ?_, ?_, ?_⟩
  · refine Fin.strictMono_iff_lt_succ.2 fun i => ?_
    fin_cases i <;> simp <;> norm_num
  · intro i j hij; fin_cases i; fin_cases j; simp at hij
  · intro i; fin_cases i; simp
  · show -10000000000 < (0 : ℝ); norm_num
  · show (3 : ℝ) ≤ 10000000000; norm_num
  · intro h; have := congrFun h 0; simp at this

end MF
