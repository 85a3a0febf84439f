import Verif.Lemmas.SVGP

/-!
# C35: `SparseVariationalGaussianProcess`

Specification vocabulary: `IsPredictive` (`Spec/Bridge`): `ν(du, ds) = q(du) p(ds | u)`; `evidence`,
`IsBayesPosterior` (`Spec/LinearGaussian`), Mathlib's `klDiv`, `gpLaw`, `outputLogLik`; `priorLaw K z X` is the
kernel's Gaussian process prior of the states at the inducing points `z` and at the data times `X`
(`C23_prior_is_kernel`).
-/

namespace MF
open Matrix Spec MeasureTheory ProbabilityTheory InformationTheory
variable {n d o p N : ℕ}

/-- The hypotheses on a model: a kernel expression with noise throughout, jitter zero, strictly
increasing inducing points within `±1e10`, a non-degenerate `q` (any), at least two inducing points. -/
structure SVGP.Valid (v : SVGP n o d) (k : ℝ → ℝ → Mat o o) : Prop where
  builds : Builds v.kernel k
  noise : NoiseTag v.kernel true
  jitter : v.kernel.jitter = 0
  times : StrictMono v.inducing
  lower : -10000000000 < v.inducing 0
  upper : v.inducing (Fin.last n) ≤ 10000000000
  two : 0 < n
  q : v.q.Nondegenerate

/-- The factor of the data term: `num_data / minibatch_size`, or one. -/
noncomputable def SVGP.scale (v : SVGP n o d) (p : ℕ) : ℝ :=
  match v.numData with
  | some N => (N : ℝ) / p
  | none => 1

/-- C35: on a minibatch at times between the first and the last inducing point, `elbo` returns the expected
log likelihood under the sparse process `q(u) p(s | u)`, scaled, minus the unscaled KL divergence; the latter is
both `KL(q ‖ prior)` at the inducing points and the KL divergence between the processes. -/
theorem C35_elbo {v : SVGP n o d} {k} (h : v.Valid k) (hlik : ExactLikelihood v.likelihood) {X : Fin p → ℝ}
    (h0 : ∀ j, v.inducing 0 ≤ X j) (h1 : ∀ j, X j ≤ v.inducing (Fin.last n)) (Y : Fin p → Vec o) :
    ∃ (s : SSM n d) (e kl : ℝ) (ν : Measure _), v.distP = .ok s ∧ v.elbo X Y = .ok e ∧ v.loss X Y = .ok (-e) ∧
      IsPredictive (priorLaw v.kernel v.inducing X) v.q.law ν ∧ IsProbabilityMeasure ν ∧
      klDiv v.q.law s.law = ENNReal.ofReal kl ∧ klDiv ν (priorLaw v.kernel v.inducing X) = ENNReal.ofReal kl ∧
      0 ≤ kl ∧
      Integrable (fun x => outputLogLik v.likelihood Y (latentAt v.kernel v.meanFunction X x.2)) ν ∧
      e = v.scale p * (∫ x, outputLogLik v.likelihood Y (latentAt v.kernel v.meanFunction X x.2) ∂ν) - kl := by
  obtain ⟨hc, -, -⟩ := Builds.good h.builds
  obtain ⟨s, hs, hnd⟩ := kernel_ssm_nondegenerate h.builds h.noise h.two h.times
  obtain ⟨kl, hkl, hkl', hkl0, -⟩ := C13_kl_divergence v.q s h.q hnd h.two hc.pos
  have hX0 : ∀ j, -10000000000 < X j := fun j => lt_of_lt_of_le h.lower (h0 j)
  have hX1 : ∀ j, X j ≤ 10000000000 := fun j => (h1 j).trans h.upper
  obtain ⟨r, hr⟩ := C22_succeeds (c := v.posterior) h.builds h.noise h.q h.two h.times.monotone hX0 hX1
  obtain ⟨ν, hν, hmarg⟩ := C23_interior (c := v.posterior) h.builds h.jitter h.q h.two h.times.monotone h.lower
    h.upper h0 h1 hr
  have hpsd := C45_state_psd (c := v.posterior) h.builds h.q h.two h.times.monotone hX0 hX1 hr
  obtain ⟨f, _, hf, -, hfv⟩ := (C45_formulas hr 0).2
  have hpq : IsProbabilityMeasure v.q.law := by rw [SSM.law_eq_gauss]; infer_instance
  obtain ⟨hprob, hkν⟩ := klDiv_predictive (q := v.q.law) hν
  have hkν' : klDiv ν (priorLaw v.kernel v.inducing X) = klDiv v.q.law s.law := by
    rw [(C23_prior_is_kernel h.builds h.jitter hs X).1]; exact hkν
  -- one latent output
  have hone : ∀ j a, ν.map (fun x => latentAt v.kernel v.meanFunction X x.2 (j, a)) =
      gaussianReal ((f j).1 a) ((f j).2 a).toNNReal := by
    intro j a
    obtain ⟨e1, e2, -⟩ := hfv j
    have hM : Measurable fun x : (Fin (n + 1) × Fin d → ℝ) × (Fin p × Fin d → ℝ) => fun a : Fin d => x.2 (j, a) := by
      fun_prop
    have hA := measurable_affine (v.meanFunction (X j)) (v.kernel.emission (X j))
    rw [show (fun x : (Fin (n + 1) × Fin d → ℝ) × (Fin p × Fin d → ℝ) =>
        latentAt v.kernel v.meanFunction X x.2 (j, a)) =
      (fun y : Fin o → ℝ => y a) ∘ (fun x => v.meanFunction (X j) + v.kernel.emission (X j) *ᵥ x) ∘
        (fun x => fun a : Fin d => x.2 (j, a)) from funext fun x => add_comm _ _,
      ← Measure.map_map (measurable_pi_apply a) (hA.comp hM), ← Measure.map_map hA hM, hmarg j,
      gaussLaw_map_affine (hpsd j), gaussLaw_eval (posSemidef_conj' (hpsd j) _), e1, e2]
    rw [add_comm]
    rfl
  have hvar : ∀ j a, 0 ≤ (f j).2 a := fun j a => by
    obtain ⟨-, e2, -⟩ := hfv j
    rw [e2]
    exact (posSemidef_conj' (hpsd j) _).diag_nonneg
  have hml := measurable_latentAt v.kernel v.meanFunction X
  have hmj : ∀ j a, Measurable fun x : (Fin (n + 1) × Fin d → ℝ) × (Fin p × Fin d → ℝ) =>
      latentAt v.kernel v.meanFunction X x.2 (j, a) := fun j a =>
    (measurable_pi_apply (j, a)).comp (hml.comp measurable_snd)
  have hint : ∀ j a, Integrable (fun x => v.likelihood.logProb
      (latentAt v.kernel v.meanFunction X x.2 (j, a)) (Y j a)) ν := by
    intro j a
    have := hlik.integrable ((f j).1 a) ((f j).2 a) (Y j a)
    rw [← hone j a] at this
    exact this.comp_measurable (hmj j a)
  have hsum : ∫ x, outputLogLik v.likelihood Y (latentAt v.kernel v.meanFunction X x.2) ∂ν =
      ∑ j, v.likelihood.varExps (f j).1 (f j).2 (Y j) := by
    unfold outputLogLik ScalarLikelihood.varExps
    rw [integral_finsetSum _ fun j _ => integrable_finsetSum _ fun a _ => hint j a]
    refine Finset.sum_congr rfl fun j _ => ?_
    rw [integral_finsetSum _ fun a _ => hint j a]
    refine Finset.sum_congr rfl fun a _ => ?_
    rw [hlik.varExp _ _ _ (hvar j a), ← hone j a,
      integral_map (hmj j a).aemeasurable (hlik.measurable _).aestronglyMeasurable]
  have he : v.elbo X Y = .ok (v.scale p *
      (∫ x, outputLogLik v.likelihood Y (latentAt v.kernel v.meanFunction X x.2) ∂ν) - kl) := by
    unfold SVGP.elbo SVGP.distP SVGP.scale
    rw [hf, hs, hsum]
    simp only [bind, Except.bind, hkl, pure, Except.pure]
    cases v.numData <;> simp only [mul_comm]
  refine ⟨s, _, kl, ν, hs, he, ?_, hν, hprob, hkl', hkν'.trans hkl', hkl0, ?_, rfl⟩
  · unfold SVGP.loss
    rw [he]
    rfl
  · exact integrable_finsetSum _ fun j _ => integrable_finsetSum _ fun a _ => hint j a

/-- C35: on the full data (`num_data` absent or the number of data) `log p(y) = elbo + KL(q-process ‖ posterior)`,
for every `q`; so `elbo` bounds the log evidence of the Gaussian process model from below. -/
theorem C35_bound {v : SVGP n o d} {k} (h : v.Valid k) (hlik : ExactLikelihood v.likelihood) {X : Fin p → ℝ}
    (hp : 0 < p) (hN : v.numData = none ∨ v.numData = some p)
    (h0 : ∀ j, v.inducing 0 ≤ X j) (h1 : ∀ j, X j ≤ v.inducing (Fin.last n)) (Y : Fin p → Vec o) :
    ∃ (e : ℝ) (ν : Measure _), v.elbo X Y = .ok e ∧ v.loss X Y = .ok (-e) ∧
      IsPredictive (priorLaw v.kernel v.inducing X) v.q.law ν ∧
      ∀ post, IsBayesPosterior (priorLaw v.kernel v.inducing X)
          (fun x => outputLogLik v.likelihood Y (latentAt v.kernel v.meanFunction X x.2)) post →
        klDiv ν post ≠ ⊤ ∧
        Real.log (evidence (gpLaw v.meanFunction k X) (outputLogLik v.likelihood Y)).toReal =
          e + (klDiv ν post).toReal ∧
        e ≤ Real.log (evidence (gpLaw v.meanFunction k X) (outputLogLik v.likelihood Y)).toReal ∧
        (e = Real.log (evidence (gpLaw v.meanFunction k X) (outputLogLik v.likelihood Y)).toReal ↔
          ν = post) := by
  obtain ⟨s, e, kl, ν, hs, he, hl, hν, hprob, hkl, hkν, hkl0, hi, hev⟩ := C35_elbo h hlik h0 h1 Y
  refine ⟨e, ν, he, hl, hν, fun post hpost => ?_⟩
  have hsc : v.scale p = 1 := by
    unfold SVGP.scale
    rcases hN with hN | hN <;> rw [hN]
    exact div_self (Nat.cast_ne_zero.2 hp.ne')
  rw [hsc, one_mul] at hev
  have hm : Measurable fun x : (Fin (n + 1) × Fin d → ℝ) × (Fin p × Fin d → ℝ) =>
      outputLogLik v.likelihood Y (latentAt v.kernel v.meanFunction X x.2) :=
    (measurable_outputLogLik hlik Y).comp ((measurable_latentAt v.kernel v.meanFunction X).comp measurable_snd)
  obtain ⟨h2, h3⟩ := elbo_identity hm hpost (by rw [hkν]; exact ENNReal.ofReal_ne_top) hi
  have hevd : evidence (priorLaw v.kernel v.inducing X)
      (fun x => outputLogLik v.likelihood Y (latentAt v.kernel v.meanFunction X x.2)) =
      evidence (gpLaw v.meanFunction k X) (outputLogLik v.likelihood Y) := by
    rw [← priorLaw_latent h.builds v.meanFunction v.inducing X]
    unfold evidence
    have hmm : Measurable fun x : (Fin (n + 1) × Fin d → ℝ) × (Fin p × Fin d → ℝ) =>
      latentAt v.kernel v.meanFunction X x.2 := (measurable_latentAt v.kernel v.meanFunction X).comp measurable_snd
    rw [lintegral_map _ hmm]
    · have := measurable_outputLogLik hlik Y
      fun_prop
  rw [hevd, hkν, ENNReal.toReal_ofReal hkl0, ← hev] at h3
  have hpp : IsProbabilityMeasure post := by
    rw [IsBayesPosterior.tilted hm hpost]
    exact isProbabilityMeasure_tilted (IsBayesPosterior.integrable_exp hm hpost)
  refine ⟨h2, h3, by rw [h3]; linarith [ENNReal.toReal_nonneg (a := klDiv ν post)], ?_⟩
  rw [h3, ← klDiv_eq_zero_iff]
  constructor
  · intro h4
    have h0 : (klDiv ν post).toReal = 0 := by linarith
    exact (ENNReal.toReal_eq_zero_iff _).1 h0 |>.resolve_right h2
  · intro h4
    rw [h4]; simp

/-! ### Minibatches -/

/-- The elbo of the data selected by `e` out of a data set on which `elbo` succeeds. -/
theorem SVGP.elbo_comp {v : SVGP n o d} {X : Fin N → ℝ} {Y : Fin N → Vec o} {E : ℝ} (h : v.elbo X Y = .ok E) :
    ∃ (g : Fin N → ℝ) (kl : ℝ), E = v.scale N * (∑ i, g i) - kl ∧
      ∀ {p : ℕ} (e : Fin p → Fin N), v.elbo (X ∘ e) (Y ∘ e) = .ok (v.scale p * (∑ i, g (e i)) - kl) := by
  unfold SVGP.elbo at h
  simp only [bind, Except.bind, pure, Except.pure] at h
  split at h
  · cases h
  rename_i f hf
  split at h
  · cases h
  rename_i pr hpr
  split at h
  · cases h
  rename_i kl hkl
  refine ⟨fun i => v.likelihood.varExps (f i).1 (f i).2 (Y i), kl, ?_, fun e => ?_⟩
  · cases h
    unfold SVGP.scale
    cases v.numData <;> simp only [mul_comm]
  · unfold SVGP.elbo SVGP.scale
    rw [predictFDiag_comp hf e, hpr]
    simp only [bind, Except.bind, pure, Except.pure, hkl, Function.comp_apply]
    cases v.numData <;> simp only [mul_comm]

/-- C35: for every partition of the data into minibatches (of any sizes), the average of the minibatch
objectives, weighted by the minibatch sizes, is the full objective. -/
theorem C35_partition {v : SVGP n o d} (hN : v.numData = some N) {X : Fin N → ℝ} {Y : Fin N → Vec o} {E : ℝ}
    (h : v.elbo X Y = .ok E) {B : ℕ} (size : Fin B → ℕ) (hs : ∀ b, 0 < size b) (hpos : 0 < N)
    (e : (Σ b, Fin (size b)) ≃ Fin N) :
    ∃ eb : Fin B → ℝ, (∀ b, v.elbo (fun i => X (e ⟨b, i⟩)) (fun i => Y (e ⟨b, i⟩)) = .ok (eb b)) ∧
      ∑ b, (size b / N : ℝ) * eb b = E := by
  obtain ⟨g, kl, rfl, hg⟩ := SVGP.elbo_comp h
  refine ⟨_, fun b => hg fun i => e ⟨b, i⟩, ?_⟩
  have hN' : (N : ℝ) ≠ 0 := Nat.cast_ne_zero.2 hpos.ne'
  have hcard : ∑ b, (size b : ℝ) = N := by
    have := Fintype.card_congr e
    simp only [Fintype.card_sigma, Fintype.card_fin] at this
    exact_mod_cast this
  have hsum : ∑ i, g i = ∑ b, ∑ i, g (e ⟨b, i⟩) := by
    rw [← e.sum_comp, Fintype.sum_sigma]
  simp only [SVGP.scale, hN]
  have : ∀ b, (size b / N : ℝ) * ((N : ℝ) / size b * ∑ i, g (e ⟨b, i⟩) - kl) =
      ∑ i, g (e ⟨b, i⟩) - (size b : ℝ) * (kl / N) := by
    intro b
    have := (Nat.cast_ne_zero (R := ℝ)).2 (hs b).ne'
    field_simp
  simp only [this]
  rw [Finset.sum_sub_distrib, ← Finset.sum_mul, hcard, ← hsum, div_self hN']
  field_simp

/-- C35: minibatches of equal size forming a partition: the plain average is the full objective. -/
theorem C35_equal_batches {v : SVGP n o d} (hN : v.numData = some N) {X : Fin N → ℝ} {Y : Fin N → Vec o} {E : ℝ}
    (h : v.elbo X Y = .ok E) {B : ℕ} (hp : 0 < p) (hB : 0 < B) (e : Fin B × Fin p ≃ Fin N) :
    ∃ eb : Fin B → ℝ, (∀ b, v.elbo (fun i => X (e (b, i))) (fun i => Y (e (b, i))) = .ok (eb b)) ∧
      (∑ b, eb b) / B = E := by
  have hcard : N = B * p := by
    have := Fintype.card_congr e
    simp only [Fintype.card_prod, Fintype.card_fin] at this
    exact this.symm
  have hpos : 0 < N := hcard ▸ Nat.mul_pos hB hp
  obtain ⟨eb, h1, h2⟩ := C35_partition hN h (fun _ => p) (fun _ => hp) hpos
    ((Equiv.sigmaEquivProd (Fin B) (Fin p)).trans e)
  refine ⟨eb, h1, ?_⟩
  rw [← h2, ← Finset.mul_sum, hcard, Nat.cast_mul]
  have := (Nat.cast_ne_zero (R := ℝ)).2 hp.ne'
  have := (Nat.cast_ne_zero (R := ℝ)).2 hB.ne'
  field_simp

theorem sum_pi_eval {α : Type*} [Fintype α] [DecidableEq α] (g : α → ℝ) (i : Fin (p + 1)) :
    ∑ f : Fin (p + 1) → α, g (f i) = (Fintype.card α : ℝ) ^ p * ∑ a, g a := by
  rw [← (Fin.insertNthEquiv (fun _ => α) i).sum_comp, Fintype.sum_prod_type]
  simp only [Fin.insertNthEquiv, Equiv.coe_fn_mk, Fin.insertNth_apply_same, Finset.sum_const, Finset.card_univ,
    Fintype.card_fun, Fintype.card_fin, nsmul_eq_mul, Nat.cast_pow, Finset.mul_sum]

/-- C35: sampling a minibatch of `p` data independently with replacement: the expectation of the minibatch
objective is the full objective. -/
theorem C35_with_replacement {v : SVGP n o d} (hN : v.numData = some N) {X : Fin N → ℝ} {Y : Fin N → Vec o}
    {E : ℝ} (h : v.elbo X Y = .ok E) (hp : 0 < p) (hpos : 0 < N) :
    ∃ eb : (Fin p → Fin N) → ℝ, (∀ f, v.elbo (X ∘ f) (Y ∘ f) = .ok (eb f)) ∧
      (∑ f, eb f) / (N : ℝ) ^ p = E := by
  obtain ⟨g, kl, rfl, hg⟩ := SVGP.elbo_comp h
  refine ⟨_, fun f => hg f, ?_⟩
  obtain ⟨p, rfl⟩ := Nat.exists_eq_succ_of_ne_zero hp.ne'
  have hN' : (N : ℝ) ≠ 0 := Nat.cast_ne_zero.2 hpos.ne'
  have hp' : ((p + 1 : ℕ) : ℝ) ≠ 0 := Nat.cast_ne_zero.2 (Nat.succ_ne_zero p)
  simp only [SVGP.scale, hN]
  rw [Finset.sum_sub_distrib, ← Finset.mul_sum, Finset.sum_comm]
  simp only [Nat.succ_eq_add_one, sum_pi_eval, Finset.sum_const, Finset.card_univ, Fintype.card_fun, Fintype.card_fin,
    nsmul_eq_mul]
  push_cast
  have hp'' : (p : ℝ) + 1 ≠ 0 := by exact_mod_cast hp'
  field_simp
  ring

theorem sum_perm_eval (g : Fin N → ℝ) (i : Fin N) :
    (N : ℝ) * ∑ σ : Equiv.Perm (Fin N), g (σ i) = (N.factorial : ℝ) * ∑ a, g a := by
  have h1 : ∀ j, ∑ σ : Equiv.Perm (Fin N), g (σ j) = ∑ σ : Equiv.Perm (Fin N), g (σ i) := by
    intro j
    rw [← Equiv.sum_comp (Equiv.mulRight (Equiv.swap i j)) (fun σ : Equiv.Perm (Fin N) => g (σ i))]
    simp
  have h2 : ∑ j, ∑ σ : Equiv.Perm (Fin N), g (σ j) = (N.factorial : ℝ) * ∑ a, g a := by
    rw [Finset.sum_comm]
    simp only [Equiv.sum_comp, Finset.sum_const, Finset.card_univ, Fintype.card_perm, Fintype.card_fin, nsmul_eq_mul]
  rw [← h2]
  simp only [h1, Finset.sum_const, Finset.card_univ, Fintype.card_fin, nsmul_eq_mul]

/-- C35: shuffling the data uniformly and taking the first `p` as minibatch (sampling without replacement): the
expectation of the minibatch objective is the full objective. -/
theorem C35_without_replacement {v : SVGP n o d} (hN : v.numData = some N) {X : Fin N → ℝ} {Y : Fin N → Vec o}
    {E : ℝ} (h : v.elbo X Y = .ok E) (hp : 0 < p) (hpN : p ≤ N) :
    ∃ eb : Equiv.Perm (Fin N) → ℝ,
      (∀ σ, v.elbo (fun i : Fin p => X (σ (i.castLE hpN))) (fun i => Y (σ (i.castLE hpN))) = .ok (eb σ)) ∧
      (∑ σ, eb σ) / N.factorial = E := by
  obtain ⟨g, kl, rfl, hg⟩ := SVGP.elbo_comp h
  refine ⟨_, fun σ => hg fun i => σ (i.castLE hpN), ?_⟩
  have hN' : (N : ℝ) ≠ 0 := Nat.cast_ne_zero.2 (hp.trans_le hpN).ne'
  have hp' : (p : ℝ) ≠ 0 := Nat.cast_ne_zero.2 hp.ne'
  have hf : (N.factorial : ℝ) ≠ 0 := Nat.cast_ne_zero.2 N.factorial_ne_zero
  have h1 : ∀ i, ∑ σ : Equiv.Perm (Fin N), g (σ i) = (N.factorial : ℝ) * (∑ a, g a) / N := fun i => by
    rw [eq_div_iff hN', mul_comm]; exact sum_perm_eval g i
  simp only [SVGP.scale, hN]
  rw [Finset.sum_sub_distrib, ← Finset.mul_sum, Finset.sum_comm]
  simp only [h1, Finset.sum_const, Finset.card_univ, Fintype.card_perm, Fintype.card_fin, nsmul_eq_mul]
  field_simp

/-! ### Predictive density -/

/-- C35: for a Gaussian likelihood `predict_log_density` is `Σ_a log ∫ p(y_a | f) q(f_a) df` with the predicted
marginals of the outputs. -/
theorem C35_predict_log_density {v : SVGP n o d} {k} (h : v.Valid k) {X : Fin p → ℝ}
    (h0 : ∀ j, -10000000000 < X j) (h1 : ∀ j, X j ≤ 10000000000) (Y : Fin p → Vec o) {σ2 : ℝ} (hσ : 0 < σ2) :
    ∃ f l, v.posterior.predictFDiag X = .ok f ∧ v.predictLogDensityGaussian σ2 X Y = .ok l ∧ ∀ i,
      l i = ∑ a, Real.log (evidence (gaussianReal ((f i).1 a) ((f i).2 a).toNNReal)
        fun x => (gaussianLikelihood σ2).logProb x (Y i a)).toReal := by
  obtain ⟨r, hr⟩ := C22_succeeds (c := v.posterior) h.builds h.noise h.q h.two h.times.monotone h0 h1
  have hpsd := C45_state_psd (c := v.posterior) h.builds h.q h.two h.times.monotone h0 h1 hr
  obtain ⟨f, _, hf, -, hfv⟩ := (C45_formulas hr 0).2
  refine ⟨f, _, hf, by unfold SVGP.predictLogDensityGaussian; rw [hf]; rfl, fun i => ?_⟩
  refine Finset.sum_congr rfl fun a _ => ?_
  have hv : 0 ≤ (f i).2 a := by
    obtain ⟨-, e2, -⟩ := hfv i
    rw [e2]
    exact (posSemidef_conj' (hpsd i) _).diag_nonneg
  have hK : ((f i).2 a • (1 : Matrix (Fin 1) (Fin 1) ℝ)).PosSemidef := PosSemidef.one.smul hv
  have hR : (σ2 • (1 : Matrix (Fin 1) (Fin 1) ℝ)).PosDef := PosDef.one.smul hσ
  have hb := (bayes_psd hK hR 1 (fun _ => (f i).1 a) fun _ => Y i a).2.2
  have hm : Measurable fun x : Fin 1 → ℝ => x 0 := measurable_pi_apply 0
  have hev := gaussLaw_eval hK (fun _ => (f i).1 a) 0
  simp only [Matrix.smul_apply, one_apply_eq, smul_eq_mul, mul_one] at hev
  have hlm : Measurable fun x => ENNReal.ofReal (Real.exp ((gaussianLikelihood σ2).logProb x (Y i a))) := by
    have := (gaussianLikelihood_exact σ2).measurable (Y i a)
    fun_prop
  have e1 : evidence (gaussianReal ((f i).1 a) ((f i).2 a).toNNReal)
      (fun x => (gaussianLikelihood σ2).logProb x (Y i a)) = ENNReal.ofReal (Real.exp
        (gaussLogDensity (fun _ : Fin 1 => (f i).1 a) (((f i).2 a + σ2) • (1 : Mat 1 1)) fun _ => Y i a)) := by
    rw [← hev]
    unfold evidence at hb ⊢
    rw [lintegral_map hlm hm]
    rw [one_mulVec, Matrix.one_mul, transpose_one, Matrix.mul_one, ← add_smul] at hb
    rw [← hb]
    refine lintegral_congr fun x => ?_
    beta_reduce
    rw [one_mulVec, gaussLogDensity_iso hσ]
    simp
  rw [e1, ENNReal.toReal_ofReal (Real.exp_pos _).le, Real.log_exp, gaussLogDensity_iso (by linarith)]
  simp only [gaussianLikelihood, Finset.univ_unique, Fin.default_eq_zero, Finset.sum_const, Finset.card_singleton,
    one_smul]
  ring

/-- C35, the constructor: without an initial distribution `q` starts at the prior, with one at that distribution;
a missing mean function is zero. -/
theorem C35_init {z : Fin (n + 1) → ℝ} {K : Stationary o d} {k} (hK : Builds K k)
    (hN : NoiseTag K true) (hj : K.jitter = 0) (ht : StrictMono z) (h0 : -10000000000 < z 0)
    (h1 : z (Fin.last n) ≤ 10000000000) (hn : 0 < n) (lik : ScalarLikelihood) (m : Option (ℝ → Vec o))
    (num : Option ℕ) :
    (∃ v s, SVGP.init K lik z m num none = .ok v ∧ K.stateSpaceModel z = .ok s ∧ v.Valid k ∧ v.q = s ∧
      v.meanFunction = m.getD (fun _ => 0) ∧ v.numData = num ∧ v.likelihood = lik ∧ v.inducing = z) ∧
    (∀ q0 : SSM n d, q0.Nondegenerate → ∃ v, SVGP.init K lik z m num (some q0) = .ok v ∧ v.Valid k ∧
      v.q = q0 ∧ v.meanFunction = m.getD (fun _ => 0) ∧ v.numData = num ∧ v.likelihood = lik ∧ v.inducing = z) := by
  have hcopy : ∀ s : SSM n d, s.Nondegenerate → s.createTrainableCopy = s := by
    intro s hs
    unfold SSM.createTrainableCopy
    rw [show tril s.cholP0 = s.cholP0 from (hs 0).1.tril_eq,
      show (fun k => tril (s.cholQ k)) = s.cholQ from funext fun k => (hs k.succ).1.tril_eq]
  constructor
  · obtain ⟨s, hs, hnd⟩ := kernel_ssm_nondegenerate hK hN hn ht
    refine ⟨⟨K, lik, z, m.getD fun _ => 0, num, s⟩, s, ?_, hs, ⟨hK, hN, hj, ht, h0, h1, hn, hnd⟩, rfl, rfl, rfl, rfl, rfl⟩
    unfold SVGP.init
    simp only [hs, bind, Except.bind, pure, Except.pure, hcopy s hnd]
  · intro q0 hq0
    refine ⟨⟨K, lik, z, m.getD fun _ => 0, num, q0⟩, ?_, ⟨hK, hN, hj, ht, h0, h1, hn, hq0⟩, rfl, rfl, rfl, rfl, rfl⟩
    unfold SVGP.init
    simp only [bind, Except.bind, pure, Except.pure, hcopy q0 hq0]

/-- Non-vacuity: Matérn 3/2 kernel, three inducing points, five Poisson counts in unsorted order (one of them at
the first inducing point), a `q` that is not
the prior. -/
example : ∃ (v : SVGP 2 1 2) (k : ℝ → ℝ → Mat 1 1) (X : Fin 5 → ℝ) (Y : Fin 5 → Vec 1) (E : ℝ), v.Valid k ∧
    ExactLikelihood v.likelihood ∧ (∀ j, v.inducing 0 ≤ X j) ∧ (∀ j, X j ≤ v.inducing (Fin.last 2)) ∧
    v.numData = some 5 ∧ v.elbo X Y = .ok E ∧ v.q.mu0 ≠ 0 ∧ Y 1 ≠ 0 ∧ X 1 < X 0 ∧ X 2 = v.inducing 0 := by
  obtain ⟨K, hK⟩ := (C28_constructors (o := 1) 2 3 1 1 1 0).2.1.2 (by norm_num)
  have hv : ∃ k, SVGP.Valid (⟨K, poissonLikelihood, ![0, 1, 3], fun t => ![t], some 5,
      ⟨![1, 0], 1, fun _ => 1, fun _ => 0, fun _ => 1⟩⟩ : SVGP 2 1 2) k := by
    refine ⟨_, .leaf (.matern32 hK), .matern32 hK, by rw [(kernelInit_ok hK).2.2]; rfl, ?_, ?_, ?_, by norm_num, ?_⟩
    · refine Fin.strictMono_iff_lt_succ.2 fun i => ?_
      fin_cases i <;> simp
    · show -10000000000 < (0 : ℝ); norm_num
    · show (3 : ℝ) ≤ 10000000000; norm_num
    · intro i
      refine Fin.cases ?_ (fun i => ?_) i <;>
      exact ⟨fun a b hab => Matrix.one_apply_ne hab.ne, fun a => (Matrix.one_apply_eq (α := ℝ) a).trans_ne one_ne_zero⟩
  obtain ⟨k, hv⟩ := hv
  have h0 : ∀ j : Fin 5, (0 : ℝ) ≤ ![2, 1 / 2, 0, 3, 1] j := fun j => by fin_cases j <;> simp
  have h1 : ∀ j : Fin 5, (![2, 1 / 2, 0, 3, 1] : Fin 5 → ℝ) j ≤ 3 := fun j => by fin_cases j <;> simp <;> norm_num
  obtain ⟨_, e, _, _, -, he, -⟩ := C35_elbo hv poissonLikelihood_exact (X := ![2, 1 / 2, 0, 3, 1]) h0 h1
    fun i => ![(i : ℝ)]
  refine ⟨_, _, _, _, e, hv, poissonLikelihood_exact, h0, h1, rfl, he, ?_, ?_, ?_, rfl⟩
  · intro h; have := congrFun h 0; simp at this
  · intro h; have := congrFun h 0; simp at this
  · show (1 / 2 : ℝ) < 2; norm_num

end MF
