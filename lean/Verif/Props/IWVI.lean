import Verif.Lemmas.IWVI
import Mathlib.Probability.Independence.InfinitePi

/-!
# C38: importance weighted variational inference

Specification vocabulary: `evidence`, `IsBayesPosterior` (`Spec/LinearGaussian`), `gpLaw` (the Gaussian process prior),
`outputLogLik` (`Spec/Likelihood`), `IsPredictive` (`Spec/Bridge`), `Measure.pi` (independent draws).
-/

namespace MF
open Matrix Spec MeasureTheory ProbabilityTheory InformationTheory
variable {n d o p p' K r : ℕ}

/-! ### For every number of samples and every weights -/

/-- C38: the normalised importance weights are positive, sum to one and are proportional to the weights. -/
theorem C38_weights_normalised (hK : 0 < K) (a : Fin K → ℝ) :
    (∀ k, 0 < softmax a k) ∧ ∑ k, softmax a k = 1 ∧
      ∀ i j, softmax a i * Real.exp (a j) = softmax a j * Real.exp (a i) := by
  have h := sum_exp_pos hK a
  refine ⟨fun k => div_pos (Real.exp_pos _) h, ?_, fun i j => ?_⟩
  · unfold softmax
    rw [← Finset.sum_div, div_self h.ne']
  · unfold softmax
    ring

/-- C38: `elbo` is the log of the mean of the importance weights of the samples; it lies between the average and the
largest log weight. -/
theorem C38_objective_bounds {v : IWVI n o d} (hK : 0 < v.numSamples) {X : Fin p → ℝ} {Y : Fin p → Vec o}
    {draws : Fin v.numSamples → Draws n p d} {e : ℝ} (h : v.elbo X Y draws = .ok e) :
    ∃ (xs : Fin v.numSamples → (Fin p → Vec d) × (Fin (n + 1) → Vec d)) (a : Fin v.numSamples → ℝ),
      (∀ k, v.proposal.sampleStateTrajectories X (draws k).1 (draws k).2 = .ok (xs k)) ∧
      (∀ k, v.logImportanceWeight (xs k).1 (xs k).2 X Y = .ok (a k)) ∧
      Real.exp e = (∑ k, Real.exp (a k)) / v.numSamples ∧
      (∑ k, a k) / v.numSamples ≤ e ∧ ∃ k, e ≤ a k := by
  unfold IWVI.elbo at h
  simp only [bind, Except.bind, pure, Except.pure] at h
  split at h
  · cases h
  rename_i xs hxs
  split at h
  · cases h
  rename_i a ha
  cases h
  obtain ⟨h1, h2⟩ := logmean_bounds hK a
  refine ⟨xs, a, seqFin_ok_iff.1 hxs, seqFin_ok_iff.1 ha, ?_, h1, ?_⟩
  · rw [logmean_eq hK, Real.exp_log (div_pos (sum_exp_pos hK a) (Nat.cast_pos.2 hK))]
  · by_contra hc
    push Not at hc
    obtain ⟨k, -, hk⟩ := Finset.exists_max_image Finset.univ a ⟨⟨0, hK⟩, Finset.mem_univ _⟩
    exact absurd (h2 (a k) fun j => hk j (Finset.mem_univ j)) (not_le.2 (hc k))

/-- C38: `expected_value` is the average of the function over the samples with normalised weights proportional to the importance
weights at the data; drawing one of the samples with these probabilities (`sample_f`) has this expectation. -/
theorem C38_estimate {v : IWVI n o d} (hK : 0 < v.numSamples) {new : Fin p' → ℝ} {X : Fin p → ℝ} {Y : Fin p → Vec o}
    {func : Vec o → Vec r} {draws : Fin v.numSamples → Draws n (p + p') d} {m : Fin p' → Vec r}
    (h : v.expectedValue new X Y func draws = .ok m) :
    ∃ (xs : Fin v.numSamples → (Fin (p + p') → Vec d) × (Fin (n + 1) → Vec d)) (a w : Fin v.numSamples → ℝ)
      (f : Fin v.numSamples → Fin p' → Vec o),
      (∀ k, v.proposal.sampleStateTrajectories (Fin.append X new) (draws k).1 (draws k).2 = .ok (xs k)) ∧
      (∀ k, v.logImportanceWeight (fun i => (xs k).1 (Fin.castAdd p' i)) (xs k).2 X Y = .ok (a k)) ∧
      (∀ k, v.sampleF new X Y draws k = .ok (f k)) ∧
      (∀ k j, f k j = v.base.kernel.emission (new j) *ᵥ (xs k).1 (Fin.natAdd p j) + v.base.meanFunction (new j)) ∧
      (∀ k, w k = Real.exp (a k) / ∑ i, Real.exp (a i)) ∧ (∀ k, 0 < w k) ∧ ∑ k, w k = 1 ∧
      ∀ j, m j = ∑ k, w k • func (f k j) := by
  unfold IWVI.expectedValue at h
  simp only [bind, Except.bind, pure, Except.pure] at h
  split at h
  · cases h
  rename_i fs hfs
  have hfs' := hfs
  unfold IWVI.weightedF at hfs
  simp only [bind, Except.bind, pure, Except.pure] at hfs
  split at hfs
  · cases hfs
  rename_i sw hsw
  cases hfs
  cases h
  have hk : ∀ k, ∃ x : (Fin (p + p') → Vec d) × (Fin (n + 1) → Vec d), ∃ a : ℝ,
      v.proposal.sampleStateTrajectories (Fin.append X new) (draws k).1 (draws k).2 = .ok x ∧
      v.logImportanceWeight (fun i => x.1 (Fin.castAdd p' i)) x.2 X Y = .ok a ∧
      sw k = (fun j => x.1 (Fin.natAdd p j), a, x.2) := by
    intro k
    have := seqFin_ok_iff.1 hsw k
    unfold IWVI.samplesAndWeights at this
    simp only [bind, Except.bind, pure, Except.pure] at this
    split at this
    · cases this
    rename_i x hx
    split at this
    · cases this
    rename_i a ha
    cases h : sw k
    rw [h] at this
    cases this
    exact ⟨x, a, hx, ha, rfl⟩
  choose xs a h1 h2 h3 using hk
  obtain ⟨w1, w2, -⟩ := C38_weights_normalised hK fun k => (sw k).2.1
  refine ⟨xs, a, softmax fun k => (sw k).2.1, _, h1, h2, fun k => ?_, fun k j => ?_, fun k => ?_, w1, w2, fun j => rfl⟩
  · unfold IWVI.sampleF
    rw [hfs']
    rfl
  · show projectStateToF (fun j => v.proposal.kernel.emission (new j)) (sw k).1 j + v.proposal.meanFunction (new j) = _
    rw [h3]
    rfl
  · unfold softmax
    simp only [h3]

/-- C38: stopping the gradient changes no value: the weights of `dregs_objective` are those of `elbo`, and its value is
their sum weighted by the squared normalised weights (with one sample, the value of `elbo`). -/
theorem C38_dregs {v : IWVI n o d} {X : Fin p → ℝ} {Y : Fin p → Vec o} {draws : Fin v.numSamples → Draws n p d} {g : ℝ}
    (h : v.dregsObjective X Y draws = .ok g) :
    ∃ (xs : Fin v.numSamples → (Fin p → Vec d) × (Fin (n + 1) → Vec d)) (a : Fin v.numSamples → ℝ),
      (∀ k, v.proposal.sampleStateTrajectories X (draws k).1 (draws k).2 = .ok (xs k)) ∧
      (∀ k, v.logImportanceWeight (xs k).1 (xs k).2 X Y = .ok (a k)) ∧
      g = ∑ k, (Real.exp (a k) / ∑ i, Real.exp (a i)) ^ 2 * a k ∧
      (v.numSamples = 1 → v.elbo X Y draws = .ok g) := by
  have hsg : ∀ (xs : Fin p → Vec d) (us : Fin (n + 1) → Vec d),
      v.logImportanceWeight xs us X Y true = v.logImportanceWeight xs us X Y := fun xs us => rfl
  unfold IWVI.dregsObjective at h
  simp only [bind, Except.bind, pure, Except.pure] at h
  split at h
  · cases h
  rename_i xs hxs
  split at h
  · cases h
  rename_i a ha
  cases h
  simp only [hsg] at ha
  refine ⟨xs, a, seqFin_ok_iff.1 hxs, seqFin_ok_iff.1 ha, rfl, fun h1 => ?_⟩
  unfold IWVI.elbo
  simp only [hxs, ha, bind, Except.bind, pure, Except.pure]
  congr 1
  obtain ⟨b, N⟩ := v
  subst h1
  simp [reduceLogsumexp, softmax]

/-! ### What is estimated -/

section law
variable {v : IWVI n o d} {k : ℝ → ℝ → Mat o o} {X : Fin p → ℝ} {Y : Fin p → Vec o}

/-- The noise consumed by one sample, as in `sampledLaw`: independent standard normals. -/
noncomputable def noiseLaw (n p d : ℕ) : Measure ((Ix (n + p) d → ℝ) × (Ix n d → ℝ)) :=
  (stdNormal (Ix (n + p) d)).prod (stdNormal (Ix n d))

/-- Noise, shaped as `sample_state_trajectories` consumes it. -/
def toDraws (e : (Ix (n + p) d → ℝ) × (Ix n d → ℝ)) : Draws n p d := (unstk e.1, unstk e.2)

theorem logImportanceWeight_eq {s : SSM n d} (hs : v.base.kernel.stateSpaceModel v.base.inducing = .ok s)
    (xs : Fin p → Vec d) (us : Fin (n + 1) → Vec d) :
    v.logImportanceWeight xs us X Y = .ok (outputLogLik v.base.likelihood Y
      (latentAt v.base.kernel v.base.meanFunction X (stk xs)) + (s.logPdf us - v.base.q.logPdf us)) := by
  unfold IWVI.logImportanceWeight IWVI.proposal SVGP.posterior
  simp only [hs, bind, Except.bind, pure, Except.pure]
  rfl

/-- Bayes' rule by importance weighting. -/
theorem importance_bayes {S : Type*} [MeasurableSpace S] {q s : SSM n d} (hq : q.Nondegenerate) (hs : s.Nondegenerate)
    {prior ν : Measure ((Ix n d → ℝ) × S)} [IsProbabilityMeasure prior] (hν : IsPredictive prior q.law ν)
    (hp : s.law = prior.map Prod.fst) {ℓ : (Ix n d → ℝ) × S → ℝ} (hℓ : Measurable ℓ) :
    prior.withDensity (fun x => ENNReal.ofReal (Real.exp (ℓ x))) = ν.withDensity (fun x => ENNReal.ofReal (Real.exp
        (ℓ x + (s.logPdf (unstk x.1) - q.logPdf (unstk x.1))))) ∧
    evidence prior ℓ = evidence ν (fun x => ℓ x + (s.logPdf (unstk x.1) - q.logPdf (unstk x.1))) ∧
    ∀ post, IsBayesPosterior prior ℓ post ↔
      IsBayesPosterior ν (fun x => ℓ x + (s.logPdf (unstk x.1) - q.logPdf (unstk x.1))) post := by
  have hpq : IsProbabilityMeasure q.law := by rw [SSM.law_eq_gauss]; infer_instance
  have hps : IsProbabilityMeasure (prior.map Prod.fst) := Measure.isProbabilityMeasure_map measurable_fst.aemeasurable
  have m1 := measurable_logPdf s hs
  have m2 := measurable_logPdf q hq
  have hd := predictive_withDensity hν (r := fun u => ENNReal.ofReal (Real.exp (s.logPdf (unstk u) - q.logPdf (unstk u))))
    (by fun_prop) (by rw [← hp]; exact ssm_withDensity hs hq)
  have e1 : prior.withDensity (fun x => ENNReal.ofReal (Real.exp (ℓ x))) = ν.withDensity (fun x => ENNReal.ofReal (Real.exp
        (ℓ x + (s.logPdf (unstk x.1) - q.logPdf (unstk x.1))))) := by
    conv_lhs => rw [hd]
    have m3 : Measurable fun x : (Ix n d → ℝ) × S => s.logPdf (unstk x.1) := m1.comp measurable_fst
    have m4 : Measurable fun x : (Ix n d → ℝ) × S => q.logPdf (unstk x.1) := m2.comp measurable_fst
    rw [← withDensity_mul _ (by fun_prop) (by fun_prop)]
    congr 1
    funext x
    rw [Pi.mul_apply, ← ENNReal.ofReal_mul (Real.exp_pos _).le, ← Real.exp_add, add_comm]
  have e2 : evidence prior ℓ = evidence ν (fun x => ℓ x + (s.logPdf (unstk x.1) - q.logPdf (unstk x.1))) := by
    have := congrArg (fun μ => μ Set.univ) e1
    simp only [withDensity_apply _ MeasurableSet.univ, Measure.restrict_univ] at this
    exact this
  refine ⟨e1, e2, fun post => ?_⟩
  unfold IsBayesPosterior
  rw [e1, e2]

/-- Expectations under the posterior are ratios of weighted expectations. -/
theorem bayes_ratio {S : Type*} [MeasurableSpace S] {ν post : Measure S} {w : S → ℝ} (hw : Measurable w)
    (h : IsBayesPosterior ν w post) {g : S → ℝ} (hg : Integrable g post) :
    Integrable (fun x => Real.exp (w x) * g x) ν ∧
      (∫ x, Real.exp (w x) * g x ∂ν) / (∫ x, Real.exp (w x) ∂ν) = ∫ x, g x ∂post := by
  have he := IsBayesPosterior.integrable_exp hw h
  rw [IsBayesPosterior.tilted hw h] at hg ⊢
  constructor
  · simpa [smul_eq_mul] using (integrable_tilted_iff he g).1 hg
  · rw [integral_tilted, ← integral_div]
    congr 1
    funext x
    rw [smul_eq_mul]
    ring

/-- The predictive process is determined. -/
theorem predictive_unique {S : Type*} [MeasurableSpace S] {q s : SSM n d} (hq : q.Nondegenerate) (hs : s.Nondegenerate)
    {prior ν ν' : Measure ((Ix n d → ℝ) × S)} [IsProbabilityMeasure prior] (hν : IsPredictive prior q.law ν)
    (hν' : IsPredictive prior q.law ν') (hp : s.law = prior.map Prod.fst) : ν = ν' := by
  have hpq : IsProbabilityMeasure q.law := by rw [SSM.law_eq_gauss]; infer_instance
  have hps : IsProbabilityMeasure (prior.map Prod.fst) := Measure.isProbabilityMeasure_map measurable_fst.aemeasurable
  have m1 := measurable_logPdf s hs
  have m2 := measurable_logPdf q hq
  have main : ∀ ν, IsPredictive prior q.law ν → ν = prior.withDensity fun x =>
      ENNReal.ofReal (Real.exp (q.logPdf (unstk x.1) - s.logPdf (unstk x.1))) := fun ν hν => by
    have hfst : ν.map Prod.fst = q.law := by
      obtain ⟨κ, hκ, -, rfl⟩ := hν
      exact Measure.fst_compProd _ _
    have hpr : IsProbabilityMeasure (ν.map Prod.fst) := hfst ▸ hpq
    refine predictive_withDensity (q := prior.map Prod.fst) (prior := ν) (ν := prior)
      (r := fun u => ENNReal.ofReal (Real.exp (q.logPdf (unstk u) - s.logPdf (unstk u)))) ?_ (by fun_prop) ?_
    · obtain ⟨κ, hκ, h1, h2⟩ := hν
      exact ⟨κ, hκ, by rw [hfst]; exact h2, h1⟩
    · rw [hfst, ← hp]
      exact ssm_withDensity hq hs
  rw [main ν hν, main ν' hν']

/-- Everything known about one sample of the proposal process. -/
theorem IWVI.setup (h : v.base.Valid k) {ts : Fin p → ℝ} (h0 : ∀ j, v.base.inducing 0 ≤ ts j)
    (h1 : ∀ j, ts j ≤ v.base.inducing (Fin.last n)) :
    ∃ (s : SSM n d) (x : (Ix (n + p) d → ℝ) × (Ix n d → ℝ) → (Ix n d → ℝ) × (Fin p × Fin d → ℝ)) (ν : Measure _),
      v.base.kernel.stateSpaceModel v.base.inducing = .ok s ∧ s.Nondegenerate ∧
      (∀ e, v.proposal.sampleStateTrajectories ts (toDraws e).1 (toDraws e).2 = .ok (unstk (x e).2, unstk (x e).1)) ∧
      Measurable x ∧ (noiseLaw n p d).map x = ν ∧
      IsPredictive (priorLaw v.base.kernel v.base.inducing ts) v.base.q.law ν ∧ IsProbabilityMeasure ν ∧
      s.law = (priorLaw v.base.kernel v.base.inducing ts).map Prod.fst := by
  obtain ⟨s, hs, hnd⟩ := kernel_ssm_nondegenerate h.builds h.noise h.two h.times
  have hX0 : ∀ j, -10000000000 < ts j := fun j => lt_of_lt_of_le h.lower (h0 j)
  have hX1 : ∀ j, ts j ≤ 10000000000 := fun j => (h1 j).trans h.upper
  obtain ⟨x, hx⟩ := C24_succeeds (c := v.base.posterior) (new := ts) h.builds h.noise h.jitter h.two h.times.monotone hX0 hX1
  have hpr := C24_interior (c := v.base.posterior) h.builds h.jitter h.two h.times.monotone h.lower h.upper h0 h1 hx
  have hpq : IsProbabilityMeasure v.base.q.law := by rw [SSM.law_eq_gauss]; infer_instance
  refine ⟨s, fun e => (stk (x e.1 e.2).2, stk (x e.1 e.2).1), sampledLaw x, hs, hnd, fun e => hx e.1 e.2, ?_, rfl, hpr,
    (klDiv_predictive (q := v.base.q.law) hpr).1, (C23_prior_is_kernel h.builds h.jitter hs ts).1⟩
  exact measurable_sampled h.two hx

/-- A posterior over a function of the unknowns is the law of that function under the posterior of the unknowns. -/
theorem bayes_lift {A B : Type*} [MeasurableSpace A] [MeasurableSpace B] {π : Measure A} {f : A → B} (hf : Measurable f)
    {ℓ : B → ℝ} (hℓ : Measurable ℓ) {ρ : Measure B} (h : IsBayesPosterior (π.map f) ℓ ρ) :
    ∃ ρ', IsBayesPosterior π (fun x => ℓ (f x)) ρ' ∧ ρ'.map f = ρ := by
  have hm : Measurable fun x => ENNReal.ofReal (Real.exp (ℓ x)) := by fun_prop
  have he : evidence (π.map f) ℓ = evidence π fun x => ℓ (f x) := lintegral_map hm hf
  have h' : IsBayesPosterior π (fun x => ℓ (f x)) ((evidence π fun x => ℓ (f x))⁻¹ •
      π.withDensity (fun x => ENNReal.ofReal (Real.exp (ℓ (f x))))) := ⟨he ▸ h.1, he ▸ h.2.1, rfl⟩
  exact ⟨_, h', IsBayesPosterior.unique (IsBayesPosterior.map hf hℓ h') h⟩

/-- Log likelihood of the outputs at the times `ts`, plus the log density ratio at the inducing points. -/
noncomputable def IWVI.logW (v : IWVI n o d) (s : SSM n d) (ts : Fin p → ℝ) (ℓ : (Fin p × Fin o → ℝ) → ℝ)
    (z : (Ix n d → ℝ) × (Fin p × Fin d → ℝ)) : ℝ :=
  ℓ (latentAt v.base.kernel v.base.meanFunction ts z.2) + (s.logPdf (unstk z.1) - v.base.q.logPdf (unstk z.1))

theorem measurable_latent_snd (K : Stationary o d) (m : ℝ → Vec o) (ts : Fin p → ℝ) :
    Measurable fun z : (Ix n d → ℝ) × (Fin p × Fin d → ℝ) => latentAt K m ts z.2 :=
  (measurable_latentAt _ _ _).comp measurable_snd

theorem IWVI.measurable_logW {s : SSM n d} (hq : v.base.q.Nondegenerate) (hs : s.Nondegenerate) (ts : Fin p → ℝ)
    {ℓ : (Fin p × Fin o → ℝ) → ℝ} (hℓ : Measurable ℓ) : Measurable (v.logW s ts ℓ) :=
  (hℓ.comp (measurable_latent_snd _ _ _)).add (((measurable_logPdf s hs).comp measurable_fst).sub
    ((measurable_logPdf _ hq).comp measurable_fst))

/-- The expected weight is the evidence of the Gaussian process model; weighting gives the posterior. -/
theorem IWVI.logW_bayes (h : v.base.Valid k) {s : SSM n d} (hs : s.Nondegenerate) {ts : Fin p → ℝ} {ν : Measure _}
    (hν : IsPredictive (priorLaw v.base.kernel v.base.inducing ts) v.base.q.law ν)
    (hp : s.law = (priorLaw v.base.kernel v.base.inducing ts).map Prod.fst)
    {ℓ : (Fin p × Fin o → ℝ) → ℝ} (hℓ : Measurable ℓ) :
    (priorLaw v.base.kernel v.base.inducing ts).withDensity (fun z => ENNReal.ofReal (Real.exp
        (ℓ (latentAt v.base.kernel v.base.meanFunction ts z.2)))) =
      ν.withDensity (fun z => ENNReal.ofReal (Real.exp (v.logW s ts ℓ z))) ∧
    evidence ν (v.logW s ts ℓ) = evidence (gpLaw v.base.meanFunction k ts) ℓ ∧
    ∀ post, IsBayesPosterior (gpLaw v.base.meanFunction k ts) ℓ post → ∃ post',
      IsBayesPosterior ν (v.logW s ts ℓ) post' ∧
      post'.map (fun z => latentAt v.base.kernel v.base.meanFunction ts z.2) = post := by
  have hm := measurable_latent_snd (n := n) v.base.kernel v.base.meanFunction ts
  obtain ⟨e1, e2, e3⟩ := importance_bayes h.q hs hν hp (hℓ.comp hm)
  refine ⟨e1, e2.symm.trans ?_, fun post hpost => ?_⟩
  · rw [← priorLaw_latent h.builds v.base.meanFunction v.base.inducing ts]
    unfold evidence
    rw [lintegral_map (by fun_prop) hm]
    rfl
  · rw [← priorLaw_latent h.builds v.base.meanFunction v.base.inducing ts] at hpost
    obtain ⟨post', h1, h2⟩ := bayes_lift hm hℓ hpost
    exact ⟨post', (e3 post').1 h1, h2⟩

theorem evidence_real {S : Type*} [MeasurableSpace S] {ν : Measure S} [IsProbabilityMeasure ν] {w : S → ℝ}
    (hw : Measurable w) (h : evidence ν w ≠ ⊤) :
    Integrable (fun x => Real.exp (w x)) ν ∧ (evidence ν w).toReal = ∫ x, Real.exp (w x) ∂ν := by
  have hi : Integrable (fun x => Real.exp (w x)) ν := by
    refine ⟨(Real.measurable_exp.comp hw).aestronglyMeasurable, ?_⟩
    rw [hasFiniteIntegral_iff_ofReal (Filter.Eventually.of_forall fun x => (Real.exp_pos _).le)]
    exact lt_top_iff_ne_top.2 h
  refine ⟨hi, ?_⟩
  unfold evidence
  rw [← ofReal_integral_eq_lintegral_ofReal hi (Filter.Eventually.of_forall fun x => (Real.exp_pos _).le),
    ENNReal.toReal_ofReal (integral_nonneg fun x => (Real.exp_pos _).le)]

/-- C38: what the weights are: the unnormalised posterior of the states is the law of a sample of the proposal process,
reweighted by the importance weight the code computes for it. So the expected weight is the evidence `p(y)`, and the
reweighted samples follow the posterior. Every `q`, data times between the first and the last inducing point in any order. -/
theorem C38_importance_weights (h : v.base.Valid k) (hlik : ExactLikelihood v.base.likelihood)
    (h0 : ∀ j, v.base.inducing 0 ≤ X j) (h1 : ∀ j, X j ≤ v.base.inducing (Fin.last n)) :
    ∃ (x : (Ix (n + p) d → ℝ) × (Ix n d → ℝ) → (Ix n d → ℝ) × (Fin p × Fin d → ℝ))
      (w : (Ix n d → ℝ) × (Fin p × Fin d → ℝ) → ℝ), Measurable x ∧ Measurable w ∧
      (∀ e, v.proposal.sampleStateTrajectories X (toDraws e).1 (toDraws e).2 = .ok (unstk (x e).2, unstk (x e).1)) ∧
      (∀ xs us, v.logImportanceWeight xs us X Y = .ok (w (stk us, stk xs))) ∧
      (priorLaw v.base.kernel v.base.inducing X).withDensity (fun z => ENNReal.ofReal (Real.exp
          (outputLogLik v.base.likelihood Y (latentAt v.base.kernel v.base.meanFunction X z.2)))) =
        ((noiseLaw n p d).map x).withDensity (fun z => ENNReal.ofReal (Real.exp (w z))) ∧
      ∫⁻ e, ENNReal.ofReal (Real.exp (w (x e))) ∂noiseLaw n p d =
        evidence (gpLaw v.base.meanFunction k X) (outputLogLik v.base.likelihood Y) := by
  obtain ⟨s, x, ν, hs, hnd, hx, hxm, rfl, hpr, hprob, hfst⟩ := IWVI.setup h h0 h1
  have hw := IWVI.measurable_logW (v := v) h.q hnd X (measurable_outputLogLik hlik Y)
  obtain ⟨e1, e2, -⟩ := IWVI.logW_bayes h hnd hpr hfst (measurable_outputLogLik hlik Y)
  refine ⟨x, _, hxm, hw, hx, fun xs us => logImportanceWeight_eq hs xs us, e1, ?_⟩
  rw [← e2]
  exact (lintegral_map (μ := noiseLaw n p d) (Real.measurable_exp.comp hw).ennreal_ofReal hxm).symm

instance noiseLaw_isProb : IsProbabilityMeasure (noiseLaw n p d) := by
  unfold noiseLaw stdNormal; infer_instance

theorem IWVI.elbo_ok {s : SSM n d} {x : (Ix (n + p) d → ℝ) × (Ix n d → ℝ) → (Ix n d → ℝ) × (Fin p × Fin d → ℝ)}
    (hs : v.base.kernel.stateSpaceModel v.base.inducing = .ok s)
    (hx : ∀ e, v.proposal.sampleStateTrajectories X (toDraws e).1 (toDraws e).2 = .ok (unstk (x e).2, unstk (x e).1))
    (K : ℕ) (e : Fin K → (Ix (n + p) d → ℝ) × (Ix n d → ℝ)) :
    ({ v with numSamples := K } : IWVI n o d).elbo X Y (fun i => toDraws (e i)) = .ok (reduceLogsumexp
      (fun i => v.logW s X (outputLogLik v.base.likelihood Y) (x (e i))) - Real.log K) := by
  unfold IWVI.elbo
  simp only [bind, Except.bind, pure, Except.pure]
  rw [show (seqFin fun i => ({ v with numSamples := K } : IWVI n o d).proposal.sampleStateTrajectories X
    (toDraws (e i)).1 (toDraws (e i)).2) = _ from seqFin_ok fun i => hx (e i)]
  simp only
  rw [seqFin_ok fun i => logImportanceWeight_eq (v := { v with numSamples := K }) hs _ _]
  rfl

/-- C38, the bound: averaged over the samples the objective exists, with one sample it is the evidence lower bound of the sparse
variational Gaussian process, it does not decrease with the number of samples and never exceeds the log evidence. -/
theorem C38_bound (h : v.base.Valid k) (hlik : ExactLikelihood v.base.likelihood)
    (h0 : ∀ j, v.base.inducing 0 ≤ X j) (h1 : ∀ j, X j ≤ v.base.inducing (Fin.last n)) (Y : Fin p → Vec o)
    (hev : evidence (gpLaw v.base.meanFunction k X) (outputLogLik v.base.likelihood Y) ≠ ⊤) :
    ∃ L : (K : ℕ) → (Fin K → (Ix (n + p) d → ℝ) × (Ix n d → ℝ)) → ℝ,
      (∀ K e, ({ v with numSamples := K } : IWVI n o d).elbo X Y (fun i => toDraws (e i)) = .ok (L K e)) ∧
      (⟨v.base.kernel, v.base.likelihood, v.base.inducing, v.base.meanFunction, none, v.base.q⟩ : SVGP n o d).elbo X Y = .ok (∫ e, L 1 e ∂Measure.pi fun _ => noiseLaw n p d) ∧
      ∀ K, 0 < K → Integrable (L K) (Measure.pi fun _ => noiseLaw n p d) ∧
        ∫ e, L K e ∂(Measure.pi fun _ => noiseLaw n p d) ≤ ∫ e, L (K + 1) e ∂(Measure.pi fun _ => noiseLaw n p d) ∧
        ∫ e, L K e ∂(Measure.pi fun _ => noiseLaw n p d) ≤
          Real.log (evidence (gpLaw v.base.meanFunction k X) (outputLogLik v.base.likelihood Y)).toReal := by
  obtain ⟨s, x, ν, hs, hnd, hx, hxm, hxν, hpr, hprob, hfst⟩ := IWVI.setup h h0 h1
  have hw := IWVI.measurable_logW (v := v) h.q hnd X (measurable_outputLogLik hlik Y)
  obtain ⟨-, e2, -⟩ := IWVI.logW_bayes h hnd hpr hfst (measurable_outputLogLik hlik Y)
  have hv' : (⟨v.base.kernel, v.base.likelihood, v.base.inducing, v.base.meanFunction, none, v.base.q⟩ : SVGP n o d).Valid k :=
    ⟨h.builds, h.noise, h.jitter, h.times, h.lower, h.upper, h.two, h.q⟩
  obtain ⟨s', E, kl, ν', hs', he, -, hpr', -, hkl, -, hkl0, hi', hE⟩ := C35_elbo hv' hlik h0 h1 Y
  obtain rfl : s = s' := Except.ok.inj (hs.symm.trans hs')
  obtain rfl : ν = ν' := predictive_unique h.q hnd hpr hpr' hfst
  have hkl' : klDiv v.base.q.law s.law = ENNReal.ofReal kl := hkl
  obtain ⟨hr1, hr2⟩ := ssm_logratio hnd h.q (by rw [hkl']; exact ENNReal.ofReal_ne_top)
  have hνq : ν.map Prod.fst = v.base.q.law := by
    obtain ⟨κ, hκ, -, rfl⟩ := hpr
    have hpq : IsProbabilityMeasure v.base.q.law := by rw [SSM.law_eq_gauss]; infer_instance
    exact Measure.fst_compProd _ _
  rw [hkl', ENNReal.toReal_ofReal hkl0] at hr2
  rw [← hνq] at hr1 hr2
  have hr1' := hr1.comp_measurable measurable_fst
  rw [integral_map measurable_fst.aemeasurable hr1.aestronglyMeasurable] at hr2
  have hwi : Integrable (v.logW s X (outputLogLik v.base.likelihood Y)) ν := hi'.add hr1'
  have hwE : ∫ z, v.logW s X (outputLogLik v.base.likelihood Y) z ∂ν = E := by
    rw [hE]
    refine (integral_add hi' hr1').trans ?_
    rw [show (∫ z, ((fun u => s.logPdf (unstk u) - v.base.q.logPdf (unstk u)) ∘ Prod.fst) z ∂ν) = -kl from hr2]
    simp [SVGP.scale, sub_eq_add_neg]
  rw [← e2] at hev ⊢
  obtain ⟨hexp, hevr⟩ := evidence_real hw hev
  rw [hevr]
  have e4 := integral_map (μ := noiseLaw n p d) hxm.aemeasurable (Real.measurable_exp.comp hw).aestronglyMeasurable
  have e5 := integral_map (μ := noiseLaw n p d) hxm.aemeasurable hw.aestronglyMeasurable
  rw [hxν] at e4 e5
  simp only [Function.comp_apply] at e4
  rw [e4]
  rw [hwE] at e5
  rw [← hxν] at hwi hexp
  have i1 := hwi.comp_measurable hxm
  have i2 := hexp.comp_measurable hxm
  have hm := hw.comp hxm
  have hok := IWVI.elbo_ok (Y := Y) hs hx
  rw [he, e5]
  clear e4 e5 hwE he hE
  generalize v.logW s X (outputLogLik v.base.likelihood Y) = w at *
  refine ⟨fun K e => reduceLogsumexp (fun i => w (x (e i))) - Real.log K, hok, ?_,
    fun K hK => ⟨integrable_logmean hm i1 i2 hK, integral_logmean_mono hm i1 i2 hK, integral_logmean_le hm i1 i2 hK⟩⟩
  exact congrArg _ (integral_logmean_one i1).symm

/-- C38: for almost every sequence of independent samples the objective converges to the log evidence. -/
theorem C38_objective_consistent (h : v.base.Valid k) (hlik : ExactLikelihood v.base.likelihood)
    (h0 : ∀ j, v.base.inducing 0 ≤ X j) (h1 : ∀ j, X j ≤ v.base.inducing (Fin.last n)) (Y : Fin p → Vec o)
    (hev : evidence (gpLaw v.base.meanFunction k X) (outputLogLik v.base.likelihood Y) ≠ ⊤)
    {Ω : Type*} [MeasurableSpace Ω] {P : Measure Ω} [IsProbabilityMeasure P]
    {noise : ℕ → Ω → (Ix (n + p) d → ℝ) × (Ix n d → ℝ)} (hm : ∀ i, Measurable (noise i))
    (hind : Pairwise fun i j => IndepFun (noise i) (noise j) P) (hlaw : ∀ i, P.map (noise i) = noiseLaw n p d) :
    ∃ L : ℕ → Ω → ℝ,
      (∀ K ω, ({ v with numSamples := K } : IWVI n o d).elbo X Y (fun i => toDraws (noise i ω)) = .ok (L K ω)) ∧
      ∀ᵐ ω ∂P, Filter.Tendsto (fun K => L K ω) Filter.atTop
        (nhds (Real.log (evidence (gpLaw v.base.meanFunction k X) (outputLogLik v.base.likelihood Y)).toReal)) := by
  obtain ⟨s, x, ν, hs, hnd, hx, hxm, rfl, hpr, hprob, hfst⟩ := IWVI.setup h h0 h1
  have hw := IWVI.measurable_logW (v := v) h.q hnd X (measurable_outputLogLik hlik Y)
  obtain ⟨-, e2, -⟩ := IWVI.logW_bayes h hnd hpr hfst (measurable_outputLogLik hlik Y)
  rw [← e2] at hev ⊢
  obtain ⟨hexp, hevr⟩ := evidence_real hw hev
  refine ⟨fun K ω => _, fun K ω => IWVI.elbo_ok hs hx K _, ?_⟩
  rw [hevr]
  have := selfnorm_tendsto (P := P) (x := fun i ω => x (noise i ω)) (fun i => hxm.comp (hm i))
    (fun i j hij => (hind hij).comp hxm hxm) (fun i => by
      rw [← hlaw i, Measure.map_map hxm (hm i)]; rfl) hw hexp (g := fun _ => 0) measurable_const (by simp)
  filter_upwards [this] with ω hω
  exact hω.1

theorem restrict_data_measurable {lik : ScalarLikelihood} (hlik : ExactLikelihood lik) (Y : Fin p → Vec o) :
    Measurable fun f : Fin (p + p') × Fin o → ℝ => outputLogLik lik Y fun i => f (Fin.castAdd p' i.1, i.2) :=
  (measurable_outputLogLik hlik Y).comp (measurable_pi_lambda _ fun _ => measurable_pi_apply _)

theorem IWVI.weightedF_ok {new : Fin p' → ℝ} {s : SSM n d}
    {x : (Ix (n + (p + p')) d → ℝ) × (Ix n d → ℝ) → (Ix n d → ℝ) × (Fin (p + p') × Fin d → ℝ)}
    (hs : v.base.kernel.stateSpaceModel v.base.inducing = .ok s)
    (hx : ∀ e, v.proposal.sampleStateTrajectories (Fin.append X new) (toDraws e).1 (toDraws e).2 =
      .ok (unstk (x e).2, unstk (x e).1)) (K : ℕ) (e : Fin K → (Ix (n + (p + p')) d → ℝ) × (Ix n d → ℝ)) :
    ({ v with numSamples := K } : IWVI n o d).weightedF new X Y (fun i => toDraws (e i)) = .ok
      (fun i j a => latentAt v.base.kernel v.base.meanFunction (Fin.append X new) (x (e i)).2 (Fin.natAdd p j, a),
        fun i => v.logW s (Fin.append X new) (fun f => outputLogLik v.base.likelihood Y fun i => f (Fin.castAdd p' i.1, i.2))
          (x (e i))) := by
  have hsw : ∀ i, ({ v with numSamples := K } : IWVI n o d).samplesAndWeights new X Y (toDraws (e i)) = .ok
      (fun j => unstk (x (e i)).2 (Fin.natAdd p j), v.logW s (Fin.append X new)
        (fun f => outputLogLik v.base.likelihood Y fun i => f (Fin.castAdd p' i.1, i.2)) (x (e i)), unstk (x (e i)).1) := by
    intro i
    unfold IWVI.samplesAndWeights
    simp only [bind, Except.bind, pure, Except.pure]
    rw [show ({ v with numSamples := K } : IWVI n o d).proposal.sampleStateTrajectories (Fin.append X new)
      (toDraws (e i)).1 (toDraws (e i)).2 = _ from hx (e i)]
    simp only
    rw [logImportanceWeight_eq (v := { v with numSamples := K }) hs _ _]
    simp only
    congr 3
    unfold IWVI.logW
    congr 2
    funext ⟨j, a⟩
    simp only [latentAt, Fin.append_left]
    rfl
  unfold IWVI.weightedF
  simp only [bind, Except.bind, pure, Except.pure]
  rw [seqFin_ok hsw]
  simp only
  congr 2
  funext i j a
  simp only [latentAt, Fin.append_right]
  rfl

/-- C38: for almost every sequence of independent samples, a trajectory resampled at the new times follows asymptotically the exact
posterior of the Gaussian process given the data: for every function of the outputs at the new times that is integrable under the
posterior, its average over the samples with the weights used for resampling converges to the posterior expectation. -/
theorem C38_resampling_consistent (h : v.base.Valid k) (hlik : ExactLikelihood v.base.likelihood) {new : Fin p' → ℝ}
    (h0 : ∀ j, v.base.inducing 0 ≤ X j) (h1 : ∀ j, X j ≤ v.base.inducing (Fin.last n))
    (h0' : ∀ j, v.base.inducing 0 ≤ new j) (h1' : ∀ j, new j ≤ v.base.inducing (Fin.last n)) (Y : Fin p → Vec o)
    {post : Measure (Fin (p + p') × Fin o → ℝ)}
    (hpost : IsBayesPosterior (gpLaw v.base.meanFunction k (Fin.append X new))
      (fun f => outputLogLik v.base.likelihood Y fun i => f (Fin.castAdd p' i.1, i.2)) post)
    {Ω : Type*} [MeasurableSpace Ω] {P : Measure Ω} [IsProbabilityMeasure P]
    {noise : ℕ → Ω → (Ix (n + (p + p')) d → ℝ) × (Ix n d → ℝ)} (hm : ∀ i, Measurable (noise i))
    (hind : Pairwise fun i j => IndepFun (noise i) (noise j) P) (hlaw : ∀ i, P.map (noise i) = noiseLaw n (p + p') d) :
    ∃ (f : (K : ℕ) → Ω → Fin K → Fin p' → Vec o) (w : (K : ℕ) → Ω → Fin K → ℝ),
      (∀ K ω, ({ v with numSamples := K } : IWVI n o d).weightedF new X Y (fun i => toDraws (noise i ω)) =
        .ok (f K ω, w K ω)) ∧
      (∀ K ω i, ({ v with numSamples := K } : IWVI n o d).sampleF new X Y (fun i => toDraws (noise i ω)) i = .ok (f K ω i)) ∧
      ∀ g : (Fin p' → Vec o) → ℝ, Measurable g → Integrable (fun y => g fun j a => y (Fin.natAdd p j, a)) post →
      ∀ᵐ ω ∂P, Filter.Tendsto (fun K => ∑ i, softmax (w K ω) i * g (f K ω i)) Filter.atTop
        (nhds (∫ y, g (fun j a => y (Fin.natAdd p j, a)) ∂post)) := by
  have ha0 : ∀ j, v.base.inducing 0 ≤ Fin.append X new j := fun j =>
    Fin.addCases (fun i => by rw [Fin.append_left]; exact h0 i) (fun i => by rw [Fin.append_right]; exact h0' i) j
  have ha1 : ∀ j, Fin.append X new j ≤ v.base.inducing (Fin.last n) := fun j =>
    Fin.addCases (fun i => by rw [Fin.append_left]; exact h1 i) (fun i => by rw [Fin.append_right]; exact h1' i) j
  obtain ⟨s, x, ν, hs, hnd, hx, hxm, rfl, hpr, hprob, hfst⟩ := IWVI.setup h ha0 ha1
  have hℓ := restrict_data_measurable (p' := p') hlik Y
  have hw := IWVI.measurable_logW (v := v) h.q hnd (Fin.append X new) hℓ
  obtain ⟨-, e2, e3⟩ := IWVI.logW_bayes h hnd hpr hfst hℓ
  obtain ⟨post', hp1, hp2⟩ := e3 post hpost
  have hok := fun K ω => IWVI.weightedF_ok (Y := Y) hs hx K fun i => noise i ω
  refine ⟨fun K ω => _, fun K ω => _, hok, fun K ω i => ?_, fun g hg hgi => ?_⟩
  · unfold IWVI.sampleF
    rw [hok]
    rfl
  have hml := measurable_latent_snd (n := n) v.base.kernel v.base.meanFunction (Fin.append X new)
  have hsel : Measurable fun (y : Fin (p + p') × Fin o → ℝ) (j : Fin p') (a : Fin o) => y (Fin.natAdd p j, a) := by fun_prop
  have hg' := hg.comp hsel
  rw [← hp2] at hgi ⊢
  have e4 := integral_map (μ := post') hml.aemeasurable hg'.aestronglyMeasurable
  simp only [Function.comp_def] at e4
  rw [e4]
  have hgi' := hgi.comp_measurable hml
  obtain ⟨b1, b2⟩ := bayes_ratio hw hp1 hgi'
  have hexp := IsBayesPosterior.integrable_exp hw hp1
  have := selfnorm_tendsto (P := P) (x := fun i ω => x (noise i ω)) (fun i => hxm.comp (hm i))
    (fun i j hij => (hind hij).comp hxm hxm) (fun i => by
      rw [← hlaw i, Measure.map_map hxm (hm i)]; rfl) hw hexp (hg'.comp hml) b1
  simp only [Function.comp_def] at b2
  rw [← b2]
  filter_upwards [this] with ω hω
  exact hω.2

/-- C38: `expected_value` converges to the posterior expectation of the function of the output at each new time. -/
theorem C38_expected_value_consistent (h : v.base.Valid k) (hlik : ExactLikelihood v.base.likelihood) {new : Fin p' → ℝ}
    (h0 : ∀ j, v.base.inducing 0 ≤ X j) (h1 : ∀ j, X j ≤ v.base.inducing (Fin.last n))
    (h0' : ∀ j, v.base.inducing 0 ≤ new j) (h1' : ∀ j, new j ≤ v.base.inducing (Fin.last n)) (Y : Fin p → Vec o)
    {post : Measure (Fin (p + p') × Fin o → ℝ)}
    (hpost : IsBayesPosterior (gpLaw v.base.meanFunction k (Fin.append X new))
      (fun f => outputLogLik v.base.likelihood Y fun i => f (Fin.castAdd p' i.1, i.2)) post)
    {Ω : Type*} [MeasurableSpace Ω] {P : Measure Ω} [IsProbabilityMeasure P]
    {noise : ℕ → Ω → (Ix (n + (p + p')) d → ℝ) × (Ix n d → ℝ)} (hm : ∀ i, Measurable (noise i))
    (hind : Pairwise fun i j => IndepFun (noise i) (noise j) P) (hlaw : ∀ i, P.map (noise i) = noiseLaw n (p + p') d)
    {func : Vec o → Vec r} (hf : Measurable func)
    (hfi : ∀ j b, Integrable (fun y => func (fun a => y (Fin.natAdd p j, a)) b) post) :
    ∃ m : ℕ → Ω → Fin p' → Vec r,
      (∀ K ω, ({ v with numSamples := K } : IWVI n o d).expectedValue new X Y func (fun i => toDraws (noise i ω)) =
        .ok (m K ω)) ∧
      ∀ᵐ ω ∂P, ∀ j b, Filter.Tendsto (fun K => m K ω j b) Filter.atTop
        (nhds (∫ y, func (fun a => y (Fin.natAdd p j, a)) b ∂post)) := by
  obtain ⟨f, w, h2, -, h3⟩ := C38_resampling_consistent h hlik h0 h1 h0' h1' Y hpost hm hind hlaw
  refine ⟨fun K ω j => ∑ i, softmax (w K ω) i • func (f K ω i j), fun K ω => ?_, ?_⟩
  · unfold IWVI.expectedValue
    rw [h2]
    rfl
  · rw [ae_all_iff]; intro j
    rw [ae_all_iff]; intro b
    filter_upwards [h3 (fun y => func (y j) b) ((measurable_pi_apply b).comp (hf.comp (measurable_pi_apply j))) (hfi j b)]
      with ω hω
    refine hω.congr fun K => ?_
    rw [Finset.sum_apply]
    rfl

/-- C38, the constructor: whatever initial distribution is given, `q` starts at the prior. -/
theorem C38_init_ignores_initial_distribution (K : Stationary o d) (z : Fin (n + 1) → ℝ) (lik : ScalarLikelihood) (N : ℕ)
    (m : Option (ℝ → Vec o)) {k} (hK : Builds K k) (hN : NoiseTag K true) (hj : K.jitter = 0) (ht : StrictMono z)
    (h0 : -10000000000 < z 0) (h1 : z (Fin.last n) ≤ 10000000000) (hn : 0 < n) :
    ∃ v s, K.stateSpaceModel z = .ok s ∧ v.base.q = s ∧ v.base.Valid k ∧ v.numSamples = N ∧
      ∀ q0, IWVI.init K z lik N q0 m = .ok v := by
  obtain ⟨⟨b, s, hb, hs, hv, hq, -⟩, -⟩ := C35_init hK hN hj ht h0 h1 hn lik m none
  refine ⟨⟨b, N⟩, s, hs, hq, hv, rfl, fun q0 => ?_⟩
  unfold IWVI.init
  rw [hb]
  rfl

end law

/-- Non-vacuity: Matérn 3/2 kernel, three inducing points, a `q` that is not the prior, two Poisson counts, one new time; the posterior exists, the evidence is finite and independent noise exists. -/
example : ∃ (v : IWVI 2 1 2) (k : ℝ → ℝ → Mat 1 1) (X : Fin 2 → ℝ) (new : Fin 1 → ℝ) (Y : Fin 2 → Vec 1)
    (post : Measure (Fin (2 + 1) × Fin 1 → ℝ)) (noise : ℕ → (ℕ → (Ix (2 + (2 + 1)) 2 → ℝ) × (Ix 2 2 → ℝ)) → _),
    v.base.Valid k ∧ ExactLikelihood v.base.likelihood ∧ (∀ j, v.base.inducing 0 ≤ X j) ∧
    (∀ j, X j ≤ v.base.inducing (Fin.last 2)) ∧ (∀ j, v.base.inducing 0 ≤ new j) ∧
    (∀ j, new j ≤ v.base.inducing (Fin.last 2)) ∧ v.base.q.mu0 ≠ 0 ∧
    evidence (gpLaw v.base.meanFunction k X) (outputLogLik v.base.likelihood Y) ≠ ⊤ ∧
    IsBayesPosterior (gpLaw v.base.meanFunction k (Fin.append X new))
      (fun f => outputLogLik v.base.likelihood Y fun i => f (Fin.castAdd 1 i.1, i.2)) post ∧
    (∀ i, Measurable (noise i)) ∧
    (Pairwise fun i j => IndepFun (noise i) (noise j) (Measure.infinitePi fun _ : ℕ => noiseLaw 2 (2 + 1) 2)) ∧
    ∀ i, (Measure.infinitePi fun _ : ℕ => noiseLaw 2 (2 + 1) 2).map (noise i) = noiseLaw 2 (2 + 1) 2 := by
  obtain ⟨K, hK⟩ := (C28_constructors (o := 1) 2 3 1 1 1 0).2.1.2 (by norm_num)
  have hv : ∃ k, SVGP.Valid (⟨K, poissonLikelihood, ![0, 1, 3], fun t => ![t], none,
      ⟨![1, 0], 1, fun _ => 1, fun _ => 0, fun _ => 1⟩⟩ : SVGP 2 1 2) k := by
    refine ⟨_, .leaf (.matern32 hK), .matern32 hK, by rw [(kernelInit_ok hK).2.2]; rfl, ?_, ?_, ?_, by norm_num, ?_⟩
    · refine Fin.strictMono_iff_lt_succ.2 fun i => ?_
      fin_cases i <;> simp
    · show -10000000000 < (0 : ℝ); norm_num
    · show (3 : ℝ) ≤ 10000000000; norm_num
    · intro i
      refine Fin.cases ?_ (fun i => ?_) i <;>
      exact ⟨fun a b hab => Matrix.one_apply_ne hab.ne, fun a => (Matrix.one_apply_eq (α := ℝ) a).trans_ne one_ne_zero⟩
  obtain ⟨k, hv⟩ := hv
  have hB : ∀ (i : Fin 2) (a : Fin 1) (f : ℝ), poissonLikelihood.logProb f ((![(i : ℝ)] : Vec 1) a) ≤ 0 := by
    intro i a f
    have h1 := Real.add_one_le_exp f
    have h2 := Real.exp_pos f
    have h3 : Real.log (Real.Gamma (1 + 1)) = 0 := by
      rw [Real.Gamma_add_one one_ne_zero, Real.Gamma_one]; simp
    fin_cases i <;> fin_cases a <;> simp [poissonLikelihood] <;> linarith
  have hb : ∀ y, outputLogLik poissonLikelihood (fun i : Fin 2 => ![(i : ℝ)]) y ≤ 0 := fun y =>
    Finset.sum_nonpos fun i _ => Finset.sum_nonpos fun a _ => hB i a _
  have hg1 := gpLaw_isProb (fun t => ![t]) k (![2, 1 / 2] : Fin 2 → ℝ)
  have hg2 := gpLaw_isProb (fun t => ![t]) k (Fin.append (![2, 1 / 2] : Fin 2 → ℝ) ![1])
  obtain ⟨ρ, hρ⟩ := exists_bayes (π := gpLaw (fun t => ![t]) k (![2, 1 / 2] : Fin 2 → ℝ))
    (measurable_outputLogLik poissonLikelihood_exact fun i : Fin 2 => ![(i : ℝ)]) hb
  obtain ⟨ρ', hρ'⟩ := exists_bayes (π := gpLaw (fun t => ![t]) k (Fin.append (![2, 1 / 2] : Fin 2 → ℝ) ![1]))
    (restrict_data_measurable (p' := 1) poissonLikelihood_exact fun i : Fin 2 => ![(i : ℝ)]) fun y => hb _
  refine ⟨⟨_, 5⟩, k, ![2, 1 / 2], ![1], fun i => ![(i : ℝ)], ρ', fun i ω => ω i, hv, poissonLikelihood_exact, ?_, ?_, ?_, ?_,
    ?_, hρ.2.1, hρ', fun i => measurable_pi_apply i, fun i j hij => ?_, fun i => Measure.infinitePi_map_eval _ i⟩
  · intro j; fin_cases j <;> simp
  · intro j
    show (![2, 1 / 2] : Fin 2 → ℝ) j ≤ 3
    fin_cases j <;> norm_num
  · intro j; fin_cases j; simp
  · intro j
    show (![1] : Fin 1 → ℝ) j ≤ 3
    fin_cases j; norm_num
  · intro h; have := congrFun h 0; simp at this
  · exact (iIndepFun_infinitePi (P := fun _ : ℕ => noiseLaw 2 (2 + 1) 2) (X := fun _ ω => ω) (fun _ => measurable_id)).indepFun hij

end MF
