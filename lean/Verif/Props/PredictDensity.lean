import Verif.Spec.PredictDensity
import Verif.Props.SparsePEP
import Verif.Props.PEP
import Verif.Props.SpatioTemporalElbo

/-!
# C48: `predict_log_density`

Specification vocabulary: `ExactPredictive` (`Spec/PredictDensity`), `evidence`, `IsBayesPosterior`
(`Spec/LinearGaussian`), `IsPredictive` (`Spec/Bridge`): `ν(du, ds) = q(du) p(ds | u)`; `gpLaw`: the law of the values
of a Gaussian process; `latentAt`: the latent function at the queries as a function of the states there.
-/

namespace MF
open Matrix Spec MeasureTheory ProbabilityTheory
variable {n p o d : ℕ}

/-- C48, the contract is met by the Gaussian likelihood. -/
theorem C48_gaussian_contract {σ2 : ℝ} (hσ : 0 < σ2) : ExactPredictive (gaussianPredictive σ2) := by
  refine ⟨(gaussianLikelihood_exact σ2).measurable, fun m v y hv => ?_⟩
  show _ = Real.log (evidence (gaussianReal m v.toNNReal) fun f => (gaussianLikelihood σ2).logProb f y).toReal
  rw [gaussian_log_evidence hv hσ]
  simp only [gaussianPredictive]
  ring

/-- What `predict_log_density` returns for a process with `q` at the conditioning points. -/
theorem process_log_density {v : SVGP n o d} {k} (h : v.Valid k) {lik : PredictiveLikelihood} (hl : ExactPredictive lik)
    {X : Fin p → ℝ} (h0 : ∀ j, v.inducing 0 ≤ X j) (h1 : ∀ j, X j ≤ v.inducing (Fin.last n)) (Y : Fin p → Vec o) :
    ∃ (f : Fin p → Vec o × Vec o) (ν : Measure _), v.posterior.predictFDiag X = .ok f ∧
      IsPredictive (priorLaw v.kernel v.inducing X) v.q.law ν ∧
      (∀ i a, 0 ≤ (f i).2 a ∧ ν.map (fun x => latentAt v.kernel v.meanFunction X x.2 (i, a)) =
        gaussianReal ((f i).1 a) ((f i).2 a).toNNReal) ∧
      ∀ i, lik.logDensities f Y i = ∑ a, Real.log (evidence
        (ν.map fun x => latentAt v.kernel v.meanFunction X x.2 (i, a)) fun y => lik.logProb y (Y i a)).toReal := by
  have hX0 : ∀ j, -10000000000 < X j := fun j => lt_of_lt_of_le h.lower (h0 j)
  have hX1 : ∀ j, X j ≤ 10000000000 := fun j => (h1 j).trans h.upper
  obtain ⟨r, hr⟩ := C22_succeeds (c := v.posterior) h.builds h.noise h.q h.two h.times.monotone hX0 hX1
  obtain ⟨ν, hν, hmarg⟩ := C23_interior (c := v.posterior) h.builds h.jitter h.q h.two h.times.monotone h.lower
    h.upper h0 h1 hr
  have hpsd := C45_state_psd (c := v.posterior) h.builds h.q h.two h.times.monotone hX0 hX1 hr
  obtain ⟨f, _, hf, -, hfv⟩ := (C45_formulas hr 0).2
  have hone : ∀ j a, ν.map (fun x => latentAt v.kernel v.meanFunction X x.2 (j, a)) =
      gaussianReal ((f j).1 a) ((f j).2 a).toNNReal := by
    intro j a
    obtain ⟨e1, e2, -⟩ := hfv j
    have hM : Measurable fun x : (Fin (n + 1) × Fin d → ℝ) × (Fin p × Fin d → ℝ) => fun a : Fin d => x.2 (j, a) := by
      fun_prop
    have hA := measurable_affine (v.meanFunction (X j)) (v.kernel.emission (X j))
    rw [show (fun x : (Fin (n + 1) × Fin d → ℝ) × (Fin p × Fin d → ℝ) =>
        latentAt v.kernel v.meanFunction X x.2 (j, a)) =
      (fun y : Fin o → ℝ => y a) ∘ (fun x => v.meanFunction (X j) + v.kernel.emission (X j) *ᵥ x) ∘
        (fun x => fun a : Fin d => x.2 (j, a)) from funext fun x => add_comm _ _,
      ← Measure.map_map (measurable_pi_apply a) (hA.comp hM), ← Measure.map_map hA hM, hmarg j,
      gaussLaw_map_affine (hpsd j), gaussLaw_eval (posSemidef_conj' (hpsd j) _), e1, e2]
    rw [add_comm]
    rfl
  have hvar : ∀ j a, 0 ≤ (f j).2 a := fun j a => by
    obtain ⟨-, e2, -⟩ := hfv j
    rw [e2]
    exact (posSemidef_conj' (hpsd j) _).diag_nonneg
  refine ⟨f, ν, hf, hν, fun i a => ⟨hvar i a, hone i a⟩, fun i => Finset.sum_congr rfl fun a _ => ?_⟩
  rw [hl.value _ _ _ (hvar i a), hone i a]

/-- C48, `SparseVariationalGaussianProcess`: at queries between the first and the last inducing point,
`predict_log_density` returns for each datum `Σ_a log ∫ p(y_a | f_a) dν` with `ν` the law of the sparse process
`q(u) p(s | u)`: for one output exactly the documented `log ∫ p(y | f) q(f) df`. -/
theorem C48_svgp {v : SVGP n o d} {k} (h : v.Valid k) {lik : PredictiveLikelihood} (hl : ExactPredictive lik)
    {X : Fin p → ℝ} (h0 : ∀ j, v.inducing 0 ≤ X j) (h1 : ∀ j, X j ≤ v.inducing (Fin.last n)) (Y : Fin p → Vec o) :
    ∃ (l : Fin p → ℝ) (ν : Measure _), v.predictLogDensity lik X Y = .ok l ∧
      IsPredictive (priorLaw v.kernel v.inducing X) v.q.law ν ∧
      ∀ i, l i = ∑ a, Real.log (evidence
        (ν.map fun x => latentAt v.kernel v.meanFunction X x.2 (i, a)) fun y => lik.logProb y (Y i a)).toReal := by
  obtain ⟨f, ν, hf, hν, -, hv⟩ := process_log_density h hl h0 h1 Y
  exact ⟨_, ν, by unfold SVGP.predictLogDensity; rw [hf]; rfl, hν, hv⟩

/-- C48: the variational models that keep sites: whenever `dist_q` can be built, `predict_log_density` is
`log ∫ p(y | f) dν` under the process with `dist_q` at the conditioning points (mean function zero, see C34, C36, C47). -/
theorem C48_sites {lik : PredictiveLikelihood} (hl : ExactPredictive lik) {X : Fin p → ℝ} (Y : Fin p → Vec 1)
    {k : ℝ → ℝ → Mat 1 1} :
    (∀ {c : CVI n d}, c.Valid k → ∀ {q}, c.distQ = .ok q → (∀ j, c.times 0 ≤ X j) → (∀ j, X j ≤ c.times (Fin.last n)) →
      ∃ (l : Fin p → ℝ) (ν : Measure _), c.predictLogDensity lik X Y = .ok l ∧
        IsPredictive (priorLaw c.kernel c.times X) q.law ν ∧ ∀ i, l i = Real.log (evidence
          (ν.map fun x => latentAt c.kernel (fun _ => 0) X x.2 (i, 0)) fun y => lik.logProb y (Y i 0)).toReal) ∧
    (∀ {c : PEP n d}, c.toBase.Valid k → ∀ {q}, c.distQ = .ok q → (∀ j, c.times 0 ≤ X j) →
      (∀ j, X j ≤ c.times (Fin.last n)) →
      ∃ (l : Fin p → ℝ) (ν : Measure _), c.predictLogDensity lik X Y = .ok l ∧
        IsPredictive (priorLaw c.kernel c.times X) q.law ν ∧ ∀ i, l i = Real.log (evidence
          (ν.map fun x => latentAt c.kernel (fun _ => 0) X x.2 (i, 0)) fun y => lik.logProb y (Y i 0)).toReal) ∧
    (∀ {c : SparseCVI n d}, c.Valid k → ∀ {q}, c.distQ = .ok q → (∀ j, c.inducing 0 ≤ X j) →
      (∀ j, X j ≤ c.inducing (Fin.last n)) →
      ∃ (l : Fin p → ℝ) (ν : Measure _), c.predictLogDensity lik X Y = .ok l ∧
        IsPredictive (priorLaw c.kernel c.inducing X) q.law ν ∧ ∀ i, l i = Real.log (evidence
          (ν.map fun x => latentAt c.kernel (fun _ => 0) X x.2 (i, 0)) fun y => lik.logProb y (Y i 0)).toReal) ∧
    (∀ {c : SparsePEP n d}, c.Valid k → ∀ {q}, c.distQ = .ok q → (∀ j, c.inducing 0 ≤ X j) →
      (∀ j, X j ≤ c.inducing (Fin.last n)) →
      ∃ (l : Fin p → ℝ) (ν : Measure _), c.predictLogDensity lik X Y = .ok l ∧
        IsPredictive (priorLaw c.kernel c.inducing X) q.law ν ∧ ∀ i, l i = Real.log (evidence
          (ν.map fun x => latentAt c.kernel (fun _ => 0) X x.2 (i, 0)) fun y => lik.logProb y (Y i 0)).toReal) := by
  refine ⟨fun {c} h {q} hq h0 h1 => ?_, fun {c} h {q} hq h0 h1 => ?_, fun {c} h {q} hq h0 h1 => ?_,
    fun {c} h {q} hq h0 h1 => ?_⟩
  · obtain ⟨s, -, hq1, -⟩ := C34_dist_q h
    obtain ⟨f, ν, hf, hν, -, hv⟩ := process_log_density
      (v := ⟨c.kernel, c.likelihood, c.times, fun _ => 0, none, q⟩)
      ⟨h.builds, h.noise, h.jitter, h.times, h.lower, h.upper, h.two, (hq1 q hq).1⟩ hl h0 h1 Y
    simp only [Fin.sum_univ_one] at hv
    refine ⟨_, ν, ?_, hν, hv⟩
    unfold CVI.predictLogDensity CVI.posterior
    simp only [hq, bind, Except.bind, pure, Except.pure]
    erw [hf]
  · obtain ⟨s, -, hq1, -⟩ := C34_dist_q h
    obtain ⟨f, ν, hf, hν, -, hv⟩ := process_log_density
      (v := ⟨c.kernel, c.likelihood.base, c.times, fun _ => 0, none, q⟩)
      ⟨h.builds, h.noise, h.jitter, h.times, h.lower, h.upper, h.two, (hq1 q hq).1⟩ hl h0 h1 Y
    simp only [Fin.sum_univ_one] at hv
    refine ⟨_, ν, ?_, hν, hv⟩
    have hq' : c.toBase.distQ = .ok q := hq
    unfold PEP.predictLogDensity CVI.posterior
    simp only [hq', bind, Except.bind, pure, Except.pure]
    erw [hf]
  · obtain ⟨s, -, -, hq1, -⟩ := C36_dist_q h
    obtain ⟨f, ν, hf, hν, -, hv⟩ := process_log_density (v := c.toSVGP q)
      ⟨h.builds, h.noise, h.jitter, h.times, h.lower, h.upper, h.two, (hq1 q hq).1⟩ hl h0 h1 Y
    simp only [Fin.sum_univ_one] at hv
    refine ⟨_, ν, ?_, hν, hv⟩
    unfold SparseCVI.predictLogDensity SparseCVI.posterior
    simp only [hq, bind, Except.bind, pure, Except.pure]
    erw [hf]
  · obtain ⟨s, -, -, hq1, -⟩ := C47_dist_q h
    obtain ⟨f, ν, hf, hν, -, hv⟩ := process_log_density (v := c.toSVGP q)
      ⟨h.builds, h.noise, h.jitter, h.times, h.lower, h.upper, h.two, (hq1 q hq).1⟩ hl h0 h1 Y
    simp only [Fin.sum_univ_one] at hv
    refine ⟨_, ν, ?_, hν, hv⟩
    unfold SparsePEP.predictLogDensity SparsePEP.posterior
    simp only [hq, bind, Except.bind, pure, Except.pure]
    erw [hf]

/-! ### exact posteriors -/

/-- The latent function at the conditioning times and at the queries. -/
noncomputable def latentBoth (K : Stationary o d) (m : ℝ → Vec o) (ts : Fin (n + 1) → ℝ) (new : Fin p → ℝ)
    (x : (Fin (n + 1) × Fin d → ℝ) × (Fin p × Fin d → ℝ)) : (Fin (n + 1) ⊕ Fin p) × Fin o → ℝ :=
  meanVec m (Sum.elim ts new) + outputsAt K ts new x

theorem measurable_latentBoth (K : Stationary o d) (m : ℝ → Vec o) (ts : Fin (n + 1) → ℝ) (new : Fin p → ℝ) :
    Measurable (latentBoth K m ts new) := measurable_const.add (measurable_outputsAt K ts new)

theorem latentBoth_law {K : Stationary o d} {k} (hK : Builds K k) (m : ℝ → Vec o) (ts : Fin (n + 1) → ℝ)
    (new : Fin p → ℝ) : (priorLaw K ts new).map (latentBoth K m ts new) = gpLaw m k (Sum.elim ts new) := by
  obtain ⟨hc, -, hD⟩ := Builds.good hK
  rw [priorLaw, Measure.map_map (measurable_latentBoth _ _ _ _) measurable_atTimes]
  have e : latentBoth K m ts new ∘ atTimes = fun x => meanVec m (Sum.elim ts new) + outMat K (Sum.elim ts new) *ᵥ x := by
    funext x i
    rw [outMat_mulVec]
    rcases i with ⟨t | t, b⟩ <;> rfl
  rw [e]
  unfold gpLaw
  rw [gaussLaw_map_affine (hc.statProc.psd_any _), outMat_conj hD]
  congr 1
  funext i
  rw [show (fun i : (Fin (n + 1) ⊕ Fin p) × Fin d => (0 : Vec d) i.2) = 0 from rfl, mulVec_zero, add_zero]
  rfl

theorem predictive_ratio {U S : Type*} [MeasurableSpace U] [MeasurableSpace S] {prior : Measure (U × S)}
    [IsProbabilityMeasure prior] {q : Measure U} {ν : Measure (U × S)} {ℓ₁ : U → ℝ} {ℓ₂ : U × S → ℝ}
    (h₁ : Measurable ℓ₁) (h₂ : Measurable ℓ₂) (hq : IsBayesPosterior (prior.map Prod.fst) ℓ₁ q)
    (hν : IsPredictive prior q ν) :
    (evidence ν ℓ₂).toReal = (evidence prior fun x => ℓ₁ x.1 + ℓ₂ x).toReal / (evidence prior fun x => ℓ₁ x.1).toReal := by
  have hb := C23_bayes h₁ hq hν
  rw [show (evidence prior fun x => ℓ₁ x.1 + ℓ₂ x) = _ from evidence_chain (h₁.comp measurable_fst) h₂ hb,
    ENNReal.toReal_mul]
  have : (evidence prior fun x => ℓ₁ x.1).toReal ≠ 0 := ENNReal.toReal_ne_zero.2 ⟨hb.1, hb.2.1⟩
  field_simp

/-- C48: exact inference gives exact predictive densities. Whenever `q` is the Bayes posterior of the states given
observations `y` at the conditioning points (of some likelihood), `predict_log_density` of a datum `(x*, y*)` is
`log p(y*, y) - log p(y)`, evidences of the Gaussian process model. -/
theorem C48_exact {v : SVGP n 1 d} {k} (h : v.Valid k) {lik : PredictiveLikelihood} (hl : ExactPredictive lik)
    {X : Fin p → ℝ} (h0 : ∀ j, v.inducing 0 ≤ X j) (h1 : ∀ j, X j ≤ v.inducing (Fin.last n)) (Y : Fin p → Vec 1)
    {s : SSM n d} (hs : v.distP = .ok s) {lik₀ : ScalarLikelihood} (hl₀ : ∀ y, Measurable fun f => lik₀.logProb f y)
    (y : Fin (n + 1) → Vec 1)
    (hb : IsBayesPosterior s.law (fun x => outputLogLik lik₀ y (latentOf v.kernel v.meanFunction v.inducing x)) v.q.law) :
    ∃ l : Fin p → ℝ, v.predictLogDensity lik X Y = .ok l ∧ ∀ i, l i = Real.log (
      (evidence (gpLaw v.meanFunction k (Sum.elim v.inducing X)) fun f =>
        outputLogLik lik₀ y (fun t => f (.inl t.1, t.2)) + lik.logProb (f (.inr i, 0)) (Y i 0)).toReal /
      (evidence (gpLaw v.meanFunction k v.inducing) (outputLogLik lik₀ y)).toReal) := by
  obtain ⟨l, ν, hlv, hν, hi⟩ := C48_svgp h hl h0 h1 Y
  refine ⟨l, hlv, fun i => ?_⟩
  simp only [Fin.sum_univ_one] at hi
  have hp := gpLaw_isProb (fun _ => (0 : Vec d)) (stateCov (v.kernel.stateTransitions 0) v.kernel.Pinf)
    (Sum.elim v.inducing X)
  have hpr : IsProbabilityMeasure (priorLaw v.kernel v.inducing X) :=
    Measure.isProbabilityMeasure_map measurable_atTimes.aemeasurable
  have hlat := measurable_latentOf v.kernel v.meanFunction v.inducing
  have hout : ∀ {T : Type} [Fintype T] (z : T → Vec 1), Measurable (outputLogLik lik₀ z) := fun z => by
    unfold outputLogLik
    exact Finset.measurable_sum _ fun t _ => Finset.measurable_sum _ fun a _ => (hl₀ _).comp (measurable_pi_apply _)
  have hm1 : Measurable fun x => outputLogLik lik₀ y (latentOf v.kernel v.meanFunction v.inducing x) := (hout y).comp hlat
  have hmi : Measurable fun x : (Fin (n + 1) × Fin d → ℝ) × (Fin p × Fin d → ℝ) =>
      latentAt v.kernel v.meanFunction X x.2 (i, 0) :=
    (measurable_pi_apply (i, 0)).comp ((measurable_latentAt _ _ _).comp measurable_snd)
  have hm2 := (hl.measurable (Y i 0)).comp hmi
  have hfst := (C23_prior_is_kernel h.builds h.jitter hs X).1
  rw [hfst] at hb
  have hr := predictive_ratio hm1 hm2 hb hν
  have e1 : evidence ν ((fun f => lik.logProb f (Y i 0)) ∘ fun x => latentAt v.kernel v.meanFunction X x.2 (i, 0)) =
      evidence (ν.map fun x => latentAt v.kernel v.meanFunction X x.2 (i, 0)) fun f => lik.logProb f (Y i 0) := by
    unfold evidence
    have := hl.measurable (Y i 0)
    rw [lintegral_map (by fun_prop) hmi]
    rfl
  have e2 : evidence (priorLaw v.kernel v.inducing X)
      (fun x => outputLogLik lik₀ y (latentOf v.kernel v.meanFunction v.inducing x.1)) =
      evidence (gpLaw v.meanFunction k v.inducing) (outputLogLik lik₀ y) := by
    rw [← (C33_prior h.builds h.jitter v.meanFunction hs).1, hfst]
    unfold evidence
    have := hout y
    rw [lintegral_map (by fun_prop) hlat, lintegral_map (by fun_prop) measurable_fst]
  have e3 : evidence (priorLaw v.kernel v.inducing X)
      (fun x => outputLogLik lik₀ y (latentOf v.kernel v.meanFunction v.inducing x.1) +
        ((fun f => lik.logProb f (Y i 0)) ∘ fun x => latentAt v.kernel v.meanFunction X x.2 (i, 0)) x) =
      evidence (gpLaw v.meanFunction k (Sum.elim v.inducing X)) fun f =>
        outputLogLik lik₀ y (fun t => f (.inl t.1, t.2)) + lik.logProb (f (.inr i, 0)) (Y i 0) := by
    rw [← latentBoth_law h.builds v.meanFunction v.inducing X]
    unfold evidence
    have m1 : Measurable fun f : (Fin (n + 1) ⊕ Fin p) × Fin 1 → ℝ => outputLogLik lik₀ y fun t => f (.inl t.1, t.2) :=
      (hout y).comp (measurable_pi_lambda _ fun t => measurable_pi_apply _)
    have m2 : Measurable fun f : (Fin (n + 1) ⊕ Fin p) × Fin 1 → ℝ => lik.logProb (f (.inr i, 0)) (Y i 0) :=
      (hl.measurable (Y i 0)).comp (measurable_pi_apply _)
    rw [lintegral_map (by fun_prop) (measurable_latentBoth _ _ _ _)]
    refine lintegral_congr fun x => ?_
    have a1 : (fun t : Fin (n + 1) × Fin 1 => latentBoth v.kernel v.meanFunction v.inducing X x (.inl t.1, t.2)) =
        latentOf v.kernel v.meanFunction v.inducing x.1 := funext fun t => add_comm _ _
    have a2 : latentBoth v.kernel v.meanFunction v.inducing X x (.inr i, 0) =
        latentAt v.kernel v.meanFunction X x.2 (i, 0) := add_comm _ _
    beta_reduce
    rw [a1, a2]
    rfl
  rw [hi i, ← e1, hr, e2, e3]

theorem CVI.exact_bayes {c : CVI n d} {k} (h : c.Valid k) {σ2 : ℝ} (hσ : 0 < σ2)
    (h1 : ∀ t, c.sites.nat1 t 0 = c.observations t 0 / σ2) (h2 : ∀ t, c.sites.nat2 t 0 0 = -1 / (2 * σ2)) :
    ∃ (s q : SSM n d), c.kernel.stateSpaceModel c.times = .ok s ∧ c.distQ = .ok q ∧ q.Nondegenerate ∧
      IsBayesPosterior s.law (fun x => outputLogLik (gaussianLikelihood σ2) c.observations
        (latentOf c.kernel (fun _ => 0) c.times x)) q.law := by
  have hneg : ∀ t, c.sites.nat2 t 0 0 < 0 := fun t => by
    rw [h2]; exact div_neg_of_neg_of_pos (by norm_num) (by positivity)
  obtain ⟨s, hs, hq1, hq2, -⟩ := C34_dist_q h
  obtain ⟨q, hq⟩ := hq2 fun t => (hneg t).le
  obtain ⟨hqn, hb⟩ := hq1 q hq
  refine ⟨s, q, hs, hq, hqn, ?_⟩
  obtain ⟨cst, hcst⟩ := siteLogLik_gaussian (θ₁ := fun t => c.sites.nat1 t 0) hneg
  have e : ∀ t, -1 / (2 * c.sites.nat2 t 0 0) = σ2 ∧ -c.sites.nat1 t 0 / (2 * c.sites.nat2 t 0 0) = c.observations t 0 :=
    fun t => by rw [h1, h2]; constructor <;> field_simp
  have hm : Measurable fun x => siteLogLik (fun t => c.sites.nat1 t 0) (fun t => c.sites.nat2 t 0 0)
      (latent1 c.kernel c.times x) := by
    have := latent1_measurable c.kernel c.times
    unfold siteLogLik
    fun_prop
  have hb' := IsBayesPosterior.add_const hm (-cst) hb
  refine cast (congrArg (fun ℓ => IsBayesPosterior s.law ℓ q.law) (funext fun x => ?_)) hb'
  rw [hcst]
  simp only [(e _).1, (e _).2, outputLogLik, Fin.sum_univ_one, latent1]
  ring

/-- The log predictive density of one datum in Gaussian process regression with noise variance `σ2` and mean zero:
`log p(y*, y) - log p(y)`. -/
noncomputable def regressionLogDensity (k : ℝ → ℝ → Mat 1 1) (σ2 : ℝ) (ts : Fin (n + 1) → ℝ) (y : Fin (n + 1) → Vec 1)
    (x' y' : ℝ) : ℝ :=
  Real.log ((evidence (gpLaw (fun _ => 0) k (Sum.elim ts fun _ : Fin 1 => x')) fun f =>
      outputLogLik (gaussianLikelihood σ2) y (fun t => f (.inl t.1, t.2)) +
        (gaussianLikelihood σ2).logProb (f (.inr 0, 0)) y').toReal /
    (evidence (gpLaw (fun _ => 0) k ts) (outputLogLik (gaussianLikelihood σ2) y)).toReal)

theorem CVI.exact_density {c : CVI n d} {k} (h : c.Valid k) {σ2 : ℝ} (hσ : 0 < σ2)
    (h1 : ∀ t, c.sites.nat1 t 0 = c.observations t 0 / σ2) (h2 : ∀ t, c.sites.nat2 t 0 0 = -1 / (2 * σ2))
    {X : Fin p → ℝ} (hX0 : ∀ j, c.times 0 ≤ X j) (hX1 : ∀ j, X j ≤ c.times (Fin.last n)) (Y : Fin p → Vec 1) :
    c.predictLogDensity (gaussianPredictive σ2) X Y =
      .ok fun i => regressionLogDensity k σ2 c.times c.observations (X i) (Y i 0) := by
  obtain ⟨s, q, hs, hq, hqn, hb⟩ := CVI.exact_bayes h hσ h1 h2
  have hv : SVGP.Valid (⟨c.kernel, c.likelihood, c.times, fun _ => 0, none, q⟩ : SVGP n 1 d) k :=
    ⟨h.builds, h.noise, h.jitter, h.times, h.lower, h.upper, h.two, hqn⟩
  have hc : c.predictLogDensity (gaussianPredictive σ2) X Y =
      (⟨c.kernel, c.likelihood, c.times, fun _ => 0, none, q⟩ : SVGP n 1 d).predictLogDensity (gaussianPredictive σ2) X Y := by
    unfold CVI.predictLogDensity CVI.posterior SVGP.predictLogDensity
    simp only [hq, bind, Except.bind, pure, Except.pure]
    rfl
  obtain ⟨l, hl, hli⟩ := C48_exact hv (C48_gaussian_contract hσ) hX0 hX1 Y hs (gaussianLikelihood_exact σ2).measurable
    c.observations hb
  rw [hc, hl]
  congr 1
  funext i
  rw [hli i, regressionLogDensity]
  congr 3
  have hg : gpLaw (fun _ => (0 : Vec 1)) k (Sum.elim c.times fun _ : Fin 1 => X i) =
      (gpLaw (fun _ => (0 : Vec 1)) k (Sum.elim c.times X)).map
        (fun f t => f (Sum.map id (fun _ => i) t.1, t.2)) := by
    obtain ⟨hco, -, -⟩ := Builds.good h.builds
    refine Eq.trans ?_ (gaussLaw_comp (gpGram_psd h.builds (Sum.elim c.times X)) (f := fun t : (Fin (n + 1) ⊕ Fin 1) × Fin 1 =>
        (Sum.map id (fun _ => i) t.1, t.2)) ..).symm
    unfold gpLaw
    congr 1
    ext ⟨a | a, a'⟩ ⟨b | b, b'⟩ <;> rfl
  rw [hg]
  unfold evidence
  have m1 : Measurable (outputLogLik (gaussianLikelihood σ2) c.observations) :=
    measurable_outputLogLik (gaussianLikelihood_exact σ2) _
  have m2 := (gaussianLikelihood_exact σ2).measurable (Y i 0)
  have m3 : Measurable fun (f : (Fin (n + 1) ⊕ Fin 1) × Fin 1 → ℝ) =>
      outputLogLik (gaussianLikelihood σ2) c.observations fun t => f (.inl t.1, t.2) :=
    m1.comp (measurable_pi_lambda _ fun t => measurable_pi_apply _)
  have m4 : Measurable fun (f : (Fin (n + 1) ⊕ Fin 1) × Fin 1 → ℝ) =>
      (gaussianLikelihood σ2).logProb (f (.inr 0, 0)) (Y i 0) := m2.comp (measurable_pi_apply _)
  rw [lintegral_map (by fun_prop) (measurable_pi_lambda _ fun t => measurable_pi_apply _)]
  rfl

/-- C48: after one or more updates with learning rate one, with a Gaussian likelihood, `predict_log_density` of
`CVIGaussianProcess` is the log predictive density of Gaussian process regression; likewise for
`PowerExpectationPropagation` with `alpha = 1` after any schedule that visits every datum. -/
theorem C48_regression {σ2 : ℝ} (hσ : 0 < σ2) {k : ℝ → ℝ → Mat 1 1} {X : Fin p → ℝ} (Y : Fin p → Vec 1) :
    (∀ {c : CVI n d}, c.Valid k → c.likelihood = gaussianLikelihood σ2 → c.learningRate = 1 →
      (∀ t, c.sites.nat2 t 0 0 ≤ 0) → (∀ j, c.times 0 ≤ X j) → (∀ j, X j ≤ c.times (Fin.last n)) → ∀ m : ℕ,
      ∃ c', CVI.updates (m + 1) c = .ok c' ∧ c'.predictLogDensity (gaussianPredictive σ2) X Y =
        .ok fun i => regressionLogDensity k σ2 c.times c.observations (X i) (Y i 0)) ∧
    (∀ {c : PEP n d}, c.toBase.Valid k → c.likelihood = pepGaussian σ2 → c.alpha = 1 → c.learningRate = 1 →
      (∀ t, c.sites.nat2 t 0 0 ≤ 0) → (∀ j, c.times 0 ≤ X j) → (∀ j, X j ≤ c.times (Fin.last n)) →
      ∀ is : List (List (Fin (n + 1))), (∀ l ∈ is, l.Nodup) → (∀ t, ∃ l ∈ is, t ∈ l) →
      ∃ c', PEP.updates (is.map some) c = .ok c' ∧ c'.predictLogDensity (gaussianPredictive σ2) X Y =
        .ok fun i => regressionLogDensity k σ2 c.times c.observations (X i) (Y i 0)) := by
  constructor
  · intro c h hlik hr hneg h0 h1 m
    obtain ⟨c', hc'⟩ := C34_updates_succeed hσ (m + 1) h hlik (by rw [hr]; norm_num) hr.le hneg
    obtain ⟨e1, e2⟩ := C34_k_steps hσ.ne' (m + 1) hlik hc'
    have hv : c'.Valid k := by
      rw [e1]; exact ⟨h.builds, h.noise, h.jitter, h.times, h.lower, h.upper, h.two⟩
    have ho : c'.observations = c.observations := by rw [e1]
    have ht : c'.times = c.times := by rw [e1]
    refine ⟨c', hc', ?_⟩
    rw [CVI.exact_density hv hσ (fun t => by rw [(e2 t).1, hr, ho]; simp) (fun t => by rw [(e2 t).2, hr]; simp)
      (by rw [ht]; exact h0) (by rw [ht]; exact h1), ho, ht]
  · intro c h hlik ha hr hneg h0 h1 is his hall
    obtain ⟨c', hc', e1, hs⟩ := C37_schedule hσ is his h hlik ha (by rw [hr]; norm_num) hr.le hneg
    have hv : c'.toBase.Valid k := by
      rw [e1]; exact ⟨h.builds, h.noise, h.jitter, h.times, h.lower, h.upper, h.two⟩
    have hpos : ∀ t, (0 : ℝ) ^ PEP.visits is t = 0 := fun t => by
      apply zero_pow
      unfold PEP.visits
      have : 0 < is.countP fun l => t ∈ l := by
        rw [List.countP_pos_iff]
        obtain ⟨l, hl, ht⟩ := hall t
        exact ⟨l, hl, by simpa using ht⟩
      exact this.ne'
    have ho : c'.toBase.observations = c.observations := by rw [e1]; rfl
    have ht : c'.toBase.times = c.times := by rw [e1]; rfl
    refine ⟨c', hc', ?_⟩
    have e : c'.predictLogDensity (gaussianPredictive σ2) X Y = c'.toBase.predictLogDensity (gaussianPredictive σ2) X Y := rfl
    rw [e, CVI.exact_density hv hσ
      (fun t => by
        rw [ho]
        show c'.sites.nat1 t 0 = _
        rw [(hs t).1, hr, sub_self, hpos]; simp)
      (fun t => by
        show c'.sites.nat2 t 0 0 = _
        rw [(hs t).2, hr, sub_self, hpos]; simp)
      (by rw [ht]; exact h0) (by rw [ht]; exact h1), ho, ht]

/-! ### findings and non-vacuity -/

/-- C48 (finding): with several outputs the value is the sum of the log densities of the single outputs, not the
documented `log ∫ p(y | F) q(F) dF`: the two outputs of a Matérn kernel with `output_dim=2` are the same function, so the
joint density of two observations is not the product of their marginal densities. -/
theorem C48_outputs_not_joint : ∃ (v : SVGP 1 2 1) (k : ℝ → ℝ → Mat 2 2) (l : Fin 1 → ℝ) (ν : Measure _), v.Valid k ∧
    (∃ K, matern12 2 1 1 0 = .ok K ∧ SVGP.init K (gaussianLikelihood 1) ![0, 1] none none none = .ok v) ∧
    v.predictLogDensity (gaussianPredictive 1) ![1] ![0] = .ok l ∧
    IsPredictive (priorLaw v.kernel v.inducing ![1]) v.q.law ν ∧
    l 0 < Real.log (evidence ν fun x => ∑ a, (gaussianLikelihood 1).logProb
      (latentAt v.kernel v.meanFunction ![1] x.2 (0, a)) 0).toReal := by
  obtain ⟨K, hK⟩ := (C28_constructors (o := 2) 1 1 1 1 1 0).1.2 (by norm_num)
  have hj : K.jitter = 0 := by rw [(kernelInit_ok hK).2.2]; rfl
  have hem : ∀ t a, K.emission t a = 1 := fun t a => by
    rw [(kernelInit_ok hK).2.2]
    funext b
    fin_cases b
    rfl
  obtain ⟨v, s, hv, hs, hval, hq, hm, -, -, hz⟩ := (C35_init (n := 1) (z := ![0, 1]) (.leaf (.matern12 hK)) (.matern12 hK) hj
    (by refine Fin.strictMono_iff_lt_succ.2 fun i => ?_; fin_cases i; simp) (by norm_num)
    (by show (1 : ℝ) ≤ 10000000000; norm_num) one_pos (gaussianLikelihood 1) none none).1
  have hk : v.kernel = K := by
    unfold SVGP.init at hv
    simp only [bind, Except.bind, hs, pure, Except.pure] at hv
    rw [← Except.ok.inj hv]
  obtain ⟨l, ν, hl, hν, hi⟩ := C48_svgp hval (C48_gaussian_contract one_pos) (X := ![1])
    (fun j => by rw [hz]; fin_cases j; simp) (fun j => by rw [hz]; fin_cases j; simp) ![0]
  refine ⟨v, _, l, ν, hval, ⟨K, hK, hv⟩, hl, hν, ?_⟩
  have hs' : v.kernel.stateSpaceModel v.inducing = .ok s := by rw [hk, hz]; exact hs
  have hνp : ν = priorLaw v.kernel v.inducing ![1] := by
    obtain ⟨κ, -, hp, rfl⟩ := hν
    rw [hq, (C23_prior_is_kernel hval.builds hval.jitter hs' ![1]).1, ← hp]
  have hone : ∀ a, ν.map (fun x => latentAt v.kernel v.meanFunction ![1] x.2 ((0 : Fin 1), a)) =
      gaussianReal 0 (1 : ℝ).toNNReal := fun a => by
    have hml : Measurable fun x : (Fin (1 + 1) × Fin 1 → ℝ) × (Fin 1 × Fin 1 → ℝ) =>
        latentAt v.kernel v.meanFunction ![1] x.2 := (measurable_latentAt _ _ _).comp measurable_snd
    rw [show (fun x : (Fin (1 + 1) × Fin 1 → ℝ) × (Fin 1 × Fin 1 → ℝ) =>
        latentAt v.kernel v.meanFunction ![1] x.2 ((0 : Fin 1), a)) = (fun f => f (0, a)) ∘ fun x =>
          latentAt v.kernel v.meanFunction ![1] x.2 from rfl, ← Measure.map_map (measurable_pi_apply _) hml, hνp,
      priorLaw_latent hval.builds, gpLaw]
    refine (gaussLaw_eval (gpGram_psd hval.builds ![1]) _ ((0 : Fin 1), a)).trans ?_
    rw [hm]
    simp [gpGram, iso, matern12Cov]
  have hsame : ∀ x : Fin 1 × Fin 1 → ℝ, latentAt v.kernel v.meanFunction ![1] x (0, 1) =
      latentAt v.kernel v.meanFunction ![1] x (0, 0) := fun x => by
    simp only [latentAt, mulVec, hk, hem, hm]
    rfl
  have hcomb : ∀ f : ℝ, (gaussianLikelihood 1).logProb f 0 + (gaussianLikelihood 1).logProb f 0 =
      (gaussianLikelihood (1 / 2)).logProb f 0 + -(1 / 2) * (Real.log (2 * Real.pi) + Real.log 2) := fun f => by
    have : Real.log (1 / 2) = -Real.log 2 := by rw [one_div, Real.log_inv]
    simp only [gaussianLikelihood, Real.log_one, this]
    ring
  have hjoint : evidence ν (fun x => ∑ a, (gaussianLikelihood 1).logProb
      (latentAt v.kernel v.meanFunction ![1] x.2 (0, a)) 0) =
      ENNReal.ofReal (Real.exp (-(1 / 2) * (Real.log (2 * Real.pi) + Real.log 2))) *
        evidence (gaussianReal 0 (1 : ℝ).toNNReal) fun f => (gaussianLikelihood (1 / 2)).logProb f 0 := by
    have hmi : Measurable fun x : (Fin (1 + 1) × Fin 1 → ℝ) × (Fin 1 × Fin 1 → ℝ) =>
        latentAt v.kernel v.meanFunction ![1] x.2 ((0 : Fin 1), (0 : Fin 2)) :=
      (measurable_pi_apply ((0 : Fin 1), (0 : Fin 2))).comp ((measurable_latentAt _ _ _).comp measurable_snd)
    have m2 := (gaussianLikelihood_exact (1 / 2)).measurable 0
    unfold evidence
    rw [← hone 0, lintegral_map (by fun_prop) hmi, ← lintegral_const_mul _ (by fun_prop)]
    refine lintegral_congr fun x => ?_
    beta_reduce
    rw [Fin.sum_univ_two, hsame, hcomb, ← ENNReal.ofReal_mul (Real.exp_pos _).le, ← Real.exp_add, add_comm]
  have hev : (evidence (gaussianReal 0 (1 : ℝ).toNNReal) fun f => (gaussianLikelihood (1 / 2)).logProb f 0).toReal ≠ 0 := by
    intro h0
    have := gaussian_log_evidence (v := 1) (σ2 := 1 / 2) zero_le_one (by norm_num) 0 0
    rw [h0] at this
    norm_num at this
    have h3 : 0 < Real.log (3 / 2) := Real.log_pos (by norm_num)
    have h4 : 0 < Real.log (2 * Real.pi) := Real.log_pos (by linarith [Real.two_le_pi])
    linarith
  rw [hi 0, hjoint, ENNReal.toReal_mul, ENNReal.toReal_ofReal (Real.exp_pos _).le,
    Real.log_mul (Real.exp_pos _).ne' hev, Real.log_exp, gaussian_log_evidence zero_le_one (by norm_num)]
  simp only [hone]
  have hY : ∀ a, ((![0] : Fin 1 → Vec 2) 0) a = 0 := fun a => rfl
  simp only [hY]
  rw [Fin.sum_univ_two]
  show Real.log (evidence _ fun f => (gaussianLikelihood 1).logProb f 0).toReal +
    Real.log (evidence _ fun f => (gaussianLikelihood 1).logProb f 0).toReal < _
  rw [gaussian_log_evidence zero_le_one one_pos]
  have e1 : Real.log (1 + 1 / 2) = Real.log 3 - Real.log 2 := by
    rw [← Real.log_div (by norm_num) (by norm_num)]; norm_num
  have e2 : Real.log 3 < 2 * Real.log 2 := by
    rw [← Real.log_rpow (by norm_num)]
    exact Real.log_lt_log (by norm_num) (by norm_num)
  rw [e1]
  norm_num
  linarith

/-- Non-vacuity: a model with three data, a query between them, an observation there. -/
example : ∃ (c : CVI 2 2) (k : ℝ → ℝ → Mat 1 1) (X : Fin 2 → ℝ), c.Valid k ∧ c.likelihood = gaussianLikelihood 2 ∧
    c.learningRate = 1 ∧ (∀ t, c.sites.nat2 t 0 0 ≤ 0) ∧ (∀ j, c.times 0 ≤ X j) ∧ (∀ j, X j ≤ c.times (Fin.last 2)) := by
  obtain ⟨K, hK⟩ := (C28_constructors (o := 1) 2 3 1 1 1 0).2.1.2 (by norm_num)
  refine ⟨CVI.init ![0, 1, 3] (fun i => ![(i : ℝ)]) K (gaussianLikelihood 2) none 1, _, ![1 / 2, 2],
    ⟨.leaf (.matern32 hK), .matern32 hK, by show K.jitter = 0; rw [(kernelInit_ok hK).2.2]; rfl, ?_, ?_, ?_, by norm_num⟩,
    rfl, rfl, fun t => by show (-1e-10 : ℝ) ≤ 0; norm_num, fun j => ?_, fun j => ?_⟩
  · refine Fin.strictMono_iff_lt_succ.2 fun i => ?_
    fin_cases i <;> simp [CVI.init] <;> norm_num
  · show -10000000000 < (0 : ℝ); norm_num
  · show (3 : ℝ) ≤ 10000000000; norm_num
  · show (0 : ℝ) ≤ _
    fin_cases j <;> simp
  · show _ ≤ (3 : ℝ)
    fin_cases j <;> norm_num

end MF
