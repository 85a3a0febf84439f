import Verif.Props.FullGaussian
import Mathlib.InformationTheory.KullbackLeibler.DataProcessing

/-!
# C78, continued: existence, CVI, equal covariance functions, inducing points
-/

namespace MF
open Matrix Spec MeasureTheory ProbabilityTheory InformationTheory Filter Topology
variable {n o d n' d' p : ℕ}

/-- Rows of the output matrix are independent when the Gram matrix is positive definite. -/
theorem outMat_vecMul_inj {K : Stationary o d} {k} (hK : Builds K k) {ts : Fin p → ℝ} (hG : (gpGram k ts).PosDef) :
    Function.Injective (outMat K ts).vecMul := fun x x' hx => by
  by_contra hne
  have hp := hG.dotProduct_mulVec_pos (x := x - x') (sub_ne_zero.2 hne)
  rw [← outMat_conj (Builds.good hK).2.2, star_trivial, ← mulVec_mulVec, mulVec_transpose, Matrix.sub_vecMul,
    show x ᵥ* outMat K ts = x' ᵥ* outMat K ts from hx, sub_self, mulVec_zero, dotProduct_zero] at hp
  exact lt_irrefl _ hp

/-- The law of the function values at the data is a non-degenerate Gaussian law. -/
theorem latent_posDef {K : Stationary o d} {k} (hK : Builds K k) {ts : Fin (n + 1) → ℝ} (hG : (gpGram k ts).PosDef) (mf : ℝ → Vec o) {q : SSM n d}
    (hq : q.Nondegenerate) :
    ∃ (m : Fin (n + 1) × Fin o → ℝ) (S : Matrix (Fin (n + 1) × Fin o) (Fin (n + 1) × Fin o) ℝ), S.PosDef ∧
      q.law.map (latentOf K mf ts) = gaussLaw m S := by
  refine ⟨_, _, ?_, latentOf_gauss K mf ts q⟩
  rw [← conjTranspose_eq_transpose_of_trivial]
  exact (SSM.Kd_posDef hq).mul_mul_conjTranspose_same (outMat_vecMul_inj hK hG)

/-- C78, existence: the largest lower bound over all Gaussian laws of the function values at the data exists, and it is the `elbo()` of a Gaussian
Markov distribution. -/
theorem C78_exists {v : VGP n o d} {k} (h : v.Valid k) (he : ExactLikelihood v.likelihood) (hl : LogConcaveLikelihood v.likelihood)
    (hd : DifferentiableVarExp v.likelihood) (hG : (gpGram k v.times).PosDef) :
    ∃ (q : SSM n d) (e : ℝ), q.Nondegenerate ∧ ({ v with q := q } : VGP n o d).elbo = .ok e ∧
      IsGreatest {b | ∃ (m : Fin (n + 1) × Fin o → ℝ) (S : Matrix (Fin (n + 1) × Fin o) (Fin (n + 1) × Fin o) ℝ), S.PosDef ∧
        b = functionBound v.likelihood v.observations (gpLaw v.meanFunction k v.times) (gaussLaw m S)} e := by
  obtain ⟨q, e, hq, hqe, hmax⟩ := C77_vgp_exists h he hl hd fun t a => emission_ne_zero h.builds hG t a
  have hv : ({ v with q := q } : VGP n o d).Valid k := ⟨h.builds, h.noise, h.jitter, h.times, h.lower, h.upper, h.two, hq⟩
  obtain ⟨h1, h2⟩ := C78_vgp hv he hl hd hG hqe fun s hs => (hmax s hs).imp fun _ h => ⟨h.1, h.2.1⟩
  refine ⟨q, e, hq, hqe, ?_, ?_⟩
  · obtain ⟨m, S, hS, hm⟩ := latent_posDef h.builds hG v.meanFunction hq
    exact ⟨m, S, hS, by rw [← hm]; exact h1⟩
  · rintro b ⟨m, S, hS, rfl⟩
    exact (h2 m S hS).2.1

/-- C78, conjugate-computation variational inference: at every fixed point of `update_sites()`, `classic_elbo()` is the largest lower bound over all
Gaussian laws of the function values at the data, attained by the law of the function values under `dist_q` only; and the predictions of the posterior
process within the range of the data are those of the Gaussian process prior conditioned on that law. (The mean function passed to the model is not
used, see C34.) -/
theorem C78_cvi {c : CVI n d} {k} (h : c.Valid k) (he : ExactLikelihood c.likelihood) (hl : LogConcaveLikelihood c.likelihood)
    (hd : DifferentiableVarExp c.likelihood) (hG : (gpGram k c.times).PosDef) (hr : c.learningRate ≠ 0) {q : SSM n d} (hq : c.distQ = .ok q)
    (hfix : ∃ c' q', c.updateSites = .ok c' ∧ c'.distQ = .ok q' ∧ q'.law = q.law) :
    ∃ (e : ℝ) (m : Fin (n + 1) × Fin 1 → ℝ) (S : Matrix (Fin (n + 1) × Fin 1) (Fin (n + 1) × Fin 1) ℝ), c.classicElbo = .ok e ∧ S.PosDef ∧
      q.law.map (latentOf c.kernel (fun _ => 0) c.times) = gaussLaw m S ∧
      e = functionBound c.likelihood c.observations (gpLaw (fun _ => 0) k c.times) (gaussLaw m S) ∧
      (∀ (m' : Fin (n + 1) × Fin 1 → ℝ) (S' : Matrix (Fin (n + 1) × Fin 1) (Fin (n + 1) × Fin 1) ℝ), S'.PosDef →
        functionBound c.likelihood c.observations (gpLaw (fun _ => 0) k c.times) (gaussLaw m' S') ≤ e ∧
        (functionBound c.likelihood c.observations (gpLaw (fun _ => 0) k c.times) (gaussLaw m' S') = e → gaussLaw m' S' = gaussLaw m S)) ∧
      ∃ post, c.posterior = .ok post ∧ ∀ {p : ℕ} (new : Fin p → ℝ), (∀ j, c.times 0 ≤ new j) → (∀ j, new j ≤ c.times (Fin.last n)) →
        ∃ f, post.predictF new = .ok f ∧ ∀ j, (f j).1 = gpPredictMean (fun _ => 0) k c.times m (new j) ∧
          (f j).2 = gpPredictCov k c.times S (new j) := by
  have hem : ∀ t, c.kernel.emission (c.times t) ≠ 0 := fun t h0 => emission_ne_zero h.builds hG t 0 (by rw [h0]; rfl)
  obtain ⟨_, -, hq1, -⟩ := C34_dist_q h
  have hqn := (hq1 q hq).1
  obtain ⟨e, h1, h2, -⟩ := C77_cvi h he hl hd hem hr hq
  have hbest := h2.1 hfix
  have hev : (c.toVGP q).elbo = .ok e := by rw [← C56_same_bound hq]; exact h1
  have hv := CVI.toVGP_valid h hqn
  obtain ⟨f1, f2⟩ := C78_vgp hv he hl hd hG hev hbest
  obtain ⟨m, S, hS, hm⟩ := latent_posDef h.builds hG (fun _ => 0) hqn
  refine ⟨e, m, S, h1, hS, hm, ?_, fun m' S' hS' => ?_, (c.toVGP q).posterior, ?_, fun new n0 n1 => ?_⟩
  · rw [← hm]; exact f1
  · obtain ⟨-, b1, b2⟩ := f2 m' S' hS'
    exact ⟨b1, fun hb => (b2 hb).trans hm⟩
  · unfold CVI.posterior
    rw [hq]
    rfl
  · exact C78_predict hv hd hG hev hbest hS.posSemidef hm new n0 n1

/-- C78, the state-space representation does not matter: two variational GPs on the same data with the same likelihood and mean function, whose kernels
have the same covariance function - of whatever composition and state dimension - reach the same largest `elbo()`, give the function values at the data
the same law, and predict the same within the range of the data. -/
theorem C78_same_covariance {v : VGP n o d} {v' : VGP n o d'} {k} (h : v.Valid k) (h' : v'.Valid k) (ht : v'.times = v.times)
    (hy : v'.observations = v.observations) (hlik : v'.likelihood = v.likelihood) (hmf : v'.meanFunction = v.meanFunction)
    (he : ExactLikelihood v.likelihood) (hl : LogConcaveLikelihood v.likelihood) (hd : DifferentiableVarExp v.likelihood)
    (hG : (gpGram k v.times).PosDef) {e e' : ℝ} (hev : v.elbo = .ok e)
    (hbest : ∀ s : SSM n d, s.Nondegenerate → ∃ b, ({ v with q := s } : VGP n o d).elbo = .ok b ∧ b ≤ e) (hev' : v'.elbo = .ok e')
    (hbest' : ∀ s : SSM n d', s.Nondegenerate → ∃ b, ({ v' with q := s } : VGP n o d').elbo = .ok b ∧ b ≤ e') :
    e' = e ∧ v'.q.law.map (latentOf v'.kernel v'.meanFunction v'.times) = v.q.law.map (latentOf v.kernel v.meanFunction v.times) ∧
      ∀ {p : ℕ} (new : Fin p → ℝ), (∀ j, v.times 0 ≤ new j) → (∀ j, new j ≤ v.times (Fin.last n)) →
        ∃ f, v.posterior.predictF new = .ok f ∧ v'.posterior.predictF new = .ok f := by
  have hG' : (gpGram k v'.times).PosDef := by rw [ht]; exact hG
  obtain ⟨a1, a2⟩ := C78_vgp h he hl hd hG hev hbest
  obtain ⟨b1, b2⟩ := C78_vgp h' (by rw [hlik]; exact he) (by rw [hlik]; exact hl) (by rw [hlik]; exact hd) hG' hev' hbest'
  obtain ⟨m, S, hS, hm⟩ := latent_posDef h.builds hG v.meanFunction h.q
  obtain ⟨m', S', hS', hm'⟩ := latent_posDef h'.builds hG' v'.meanFunction h'.q
  have c1 := a2 m' S' hS'
  have c2 := b2 m S hS
  rw [hlik, hy, hmf, ht] at b1 c2
  rw [hmf, ht] at hm'
  rw [hm'] at b1
  rw [hm] at a1
  have hee : e' = e := le_antisymm (b1 ▸ c1.2.1) (a1 ▸ c2.2.1)
  have hlaw := c1.2.2 (b1.symm.trans hee)
  refine ⟨hee, by rw [hmf, ht, hm', hlaw], fun new n0 n1 => ?_⟩
  obtain ⟨f, hf, hfv⟩ := C78_predict h hd hG hev hbest hS.posSemidef hm new n0 n1
  obtain ⟨f', hf', hfv'⟩ := C78_predict h' (by rw [hlik]; exact hd) hG' hev' hbest' hS.posSemidef (m := m) (by rw [hmf, ht, hm', hlaw, hm]) new
    (by rw [ht]; exact n0) (by rw [ht]; exact n1)
  refine ⟨f, hf, ?_⟩
  rw [hf']
  congr 1
  funext j
  rw [ht, hmf] at hfv'
  exact Prod.ext ((hfv' j).1.trans (hfv j).1.symm) ((hfv' j).2.trans (hfv j).2.symm)

/-! ### inducing points -/

theorem conj_dot {ι κ : Type*} [Fintype ι] [Fintype κ] (A : Matrix κ ι ℝ) (M : Matrix ι ι ℝ) (y : κ → ℝ) :
    y ⬝ᵥ ((A * M * Aᵀ) *ᵥ y) = (Aᵀ *ᵥ y) ⬝ᵥ (M *ᵥ (Aᵀ *ᵥ y)) := by
  rw [Matrix.mul_assoc, ← mulVec_mulVec, ← mulVec_mulVec, dotProduct_mulVec, ← mulVec_transpose]

/-- The law of the function values at the data under a sparse variational distribution is a non-degenerate Gaussian law. -/
theorem sparse_latent_posDef {K : Stationary o d} {k} (hK : Builds K k) (hN : NoiseTag K true) (hj : K.jitter = 0) (hn : 0 < n)
    {z : Fin (n + 1) → ℝ} (hz : StrictMono z) {X : Fin p → ℝ} (hG : (gpGram k X).PosDef) (mf : ℝ → Vec o) {q : SSM n d} (hq : q.Nondegenerate)
    {ν} (hν : IsPredictive (priorLaw K z X) q.law ν) :
    ∃ (m : Fin p × Fin o → ℝ) (S : Matrix (Fin p × Fin o) (Fin p × Fin o) ℝ), S.PosDef ∧
      ν.map (fun x => latentAt K mf X x.2) = gaussLaw m S := by
  obtain ⟨hc, -, hD⟩ := Builds.good hK
  obtain ⟨s, hs, hnd⟩ := kernel_ssm_nondegenerate hK hN hn hz
  set C := stateCov (K.stateTransitions 0) K.Pinf with hC
  have hKs : s.Kd = gpGram C z := (kernel_moments hK hj hs).2
  have hGz : (gpGram C z).PosDef := by rw [← hKs]; exact SSM.Kd_posDef hnd
  have hp := gpLaw_isProb (fun _ => (0 : Vec d)) C (Sum.elim z X)
  have hpr : IsProbabilityMeasure (priorLaw K z X) := Measure.isProbabilityMeasure_map measurable_atTimes.aemeasurable
  obtain ⟨hR, hpred⟩ := gp_predictive (k := C) (fun t t' => hc.statProc.cov_symm t t') hGz X (hc.statProc.psd_any _)
  set P := crossGramF C z X * (gpGram C z)⁻¹ with hP
  have hqp : IsProbabilityMeasure q.law := by rw [SSM.law_eq_gauss]; infer_instance
  have hν' := hpred q.law hqp
  -- both are Bayes posteriors of the prior for the log density ratio
  have hℓ : Measurable fun x => gaussLogDensity (stk q.mus) q.Kd x - gaussLogDensity (stk s.mus) s.Kd x :=
    (measurable_gaussLogDensity _ _).sub (measurable_gaussLogDensity _ _)
  have hb : IsBayesPosterior ((priorLaw K z X).map Prod.fst)
      (fun x => gaussLogDensity (stk q.mus) q.Kd x - gaussLogDensity (stk s.mus) s.Kd x) q.law := by
    rw [← (C23_prior_is_kernel hK hj hs X).1, SSM.law_eq_gauss, SSM.law_eq_gauss]
    exact (bayes_of_log (c := 0) (SSM.Kd_posDef hnd) (SSM.Kd_posDef hq) hℓ fun x => by ring).1
  have hun := IsBayesPosterior.unique (C23_bayes hℓ hb hν) (C23_bayes hℓ hb hν')
  have hmeas : Measurable fun x : (Fin (n + 1) × Fin d → ℝ) × (Fin p × Fin d → ℝ) => (x.1, P *ᵥ x.1 + x.2) :=
    measurable_fst.prodMk ((measurable_mulVec' _ measurable_fst).add measurable_snd)
  have hsnd : ν.map Prod.snd = gaussLaw (P *ᵥ stk q.mus) (P * q.Kd * Pᵀ + (gpGram C X - P * (crossGramF C z X)ᵀ)) := by
    rw [hun, Measure.map_map measurable_snd hmeas, SSM.law_eq_gauss]
    exact gauss_noisy q.Kd_posSemidef hR _ P
  have hSp : (P * q.Kd * Pᵀ + (gpGram C X - P * (crossGramF C z X)ᵀ)).PosSemidef := (posSemidef_conj' q.Kd_posSemidef P).add hR
  refine ⟨meanVec mf X + outMat K X *ᵥ (P *ᵥ stk q.mus),
    outMat K X * (P * q.Kd * Pᵀ + (gpGram C X - P * (crossGramF C z X)ᵀ)) * (outMat K X)ᵀ, ?_, ?_⟩
  rotate_left 1
  · rw [show (fun x : (Fin (n + 1) × Fin d → ℝ) × (Fin p × Fin d → ℝ) => latentAt K mf X x.2) = latentAt K mf X ∘ Prod.snd from rfl,
      ← Measure.map_map (measurable_latentAt _ _ _) measurable_snd, hsnd, latentAt_eq]
    exact gaussLaw_map_affine hSp _ _ _
  · have hPG : P * gpGram C z = crossGramF C z X := by
      rw [hP, Matrix.mul_assoc, nonsing_inv_mul _ (isUnit_det' hGz.isUnit), Matrix.mul_one]
    have hCX : gpGram C X = P * gpGram C z * Pᵀ + (gpGram C X - P * (crossGramF C z X)ᵀ) := by
      have e1 : (crossGramF C z X)ᵀ = gpGram C z * Pᵀ := by rw [← hPG, Matrix.transpose_mul P (gpGram C z), posDef_tr hGz]
      rw [e1, ← Matrix.mul_assoc]
      abel
    refine PosDef.of_dotProduct_mulVec_pos (posSemidef_conj' hSp _).1 fun x hx => ?_
    have hx1 := hG.dotProduct_mulVec_pos hx
    rw [star_trivial] at hx1 ⊢
    rw [← outMat_conj hD, conj_dot, show (Matrix.of fun i j : Fin p × Fin d => stateCov (K.stateTransitions 0) K.Pinf (X i.1) (X j.1) i.2 j.2) = gpGram C X from rfl,
      hCX, add_mulVec, dotProduct_add, conj_dot P] at hx1
    rw [conj_dot (outMat K X), add_mulVec, dotProduct_add, conj_dot P]
    set y := (outMat K X)ᵀ *ᵥ x
    have hRy := hR.dotProduct_mulVec_nonneg y
    rw [star_trivial] at hRy
    by_cases hy : Pᵀ *ᵥ y = 0
    · rw [hy, zero_dotProduct, zero_add] at hx1 ⊢
      exact hx1
    · have := (SSM.Kd_posDef hq).dotProduct_mulVec_pos hy
      rw [star_trivial] at this
      linarith

/-- C78, inducing points: no sparse variational distribution on inducing points whose range covers the data, over any kernel with the same covariance
function, has a larger `elbo` on the full data than the best variational GP; if it is as large, the function values at the data have the same law. -/
theorem C78_inducing {v : VGP n o d} {w : SVGP n' o d'} {k} (h : v.Valid k) (hw : w.Valid k) (hlik : w.likelihood = v.likelihood)
    (hmf : w.meanFunction = v.meanFunction) (hN : w.numData = none ∨ w.numData = some (n + 1))
    (h0 : w.inducing 0 ≤ v.times 0) (h1 : v.times (Fin.last n) ≤ w.inducing (Fin.last n'))
    (he : ExactLikelihood v.likelihood) (hl : LogConcaveLikelihood v.likelihood) (hd : DifferentiableVarExp v.likelihood)
    (hG : (gpGram k v.times).PosDef) {e : ℝ} (hev : v.elbo = .ok e)
    (hbest : ∀ s : SSM n d, s.Nondegenerate → ∃ b, ({ v with q := s } : VGP n o d).elbo = .ok b ∧ b ≤ e) :
    ∃ (e' : ℝ) (ν : Measure _), w.elbo v.times v.observations = .ok e' ∧ IsPredictive (priorLaw w.kernel w.inducing v.times) w.q.law ν ∧ e' ≤ e ∧
      (e' = e → ν.map (fun x => latentAt w.kernel w.meanFunction v.times x.2) = v.q.law.map (latentOf v.kernel v.meanFunction v.times)) := by
  obtain ⟨s, e', kl, ν, hs, hwe, -, hν, hprob, -, hkν, hkl0, hi, hev'⟩ := C35_elbo hw (X := v.times) (by rw [hlik]; exact he)
    (fun j => h0.trans (h.times.monotone (Fin.zero_le j))) (fun j => (h.times.monotone (Fin.le_last j)).trans h1) v.observations
  have hsc : w.scale (n + 1) = 1 := by
    unfold SVGP.scale
    rcases hN with hN | hN <;> rw [hN]
    exact div_self (Nat.cast_ne_zero.2 (Nat.succ_ne_zero n))
  rw [hsc, one_mul] at hev'
  obtain ⟨m, S, hS, hm⟩ := sparse_latent_posDef hw.builds hw.noise hw.jitter hw.two hw.times hG w.meanFunction hw.q hν
  obtain ⟨-, b1, b2⟩ := (C78_vgp h he hl hd hG hev hbest).2 m S hS
  have hmeas : Measurable fun x : (Fin (n' + 1) × Fin d' → ℝ) × (Fin (n + 1) × Fin d' → ℝ) => latentAt w.kernel w.meanFunction v.times x.2 :=
    (measurable_latentAt _ _ _).comp measurable_snd
  have hle : e' ≤ functionBound v.likelihood v.observations (gpLaw v.meanFunction k v.times) (gaussLaw m S) := by
    have hp := gpLaw_isProb (fun _ => (0 : Vec d')) (stateCov (w.kernel.stateTransitions 0) w.kernel.Pinf) (Sum.elim w.inducing v.times)
    have hpr : IsProbabilityMeasure (priorLaw w.kernel w.inducing v.times) := Measure.isProbabilityMeasure_map measurable_atTimes.aemeasurable
    have hdp := klDiv_map_le ν (priorLaw w.kernel w.inducing v.times) hmeas
    rw [priorLaw_latent hw.builds, hkν] at hdp
    unfold functionBound
    rw [← hmf, ← hm, integral_map hmeas.aemeasurable (measurable_outputLogLik he _).aestronglyMeasurable, hev', hlik]
    have := ENNReal.toReal_le_of_le_ofReal hkl0 hdp
    linarith
  exact ⟨e', ν, hwe, hν, hle.trans b1, fun hee => hm.trans (b2 (le_antisymm b1 (hee ▸ hle)))⟩

/-- Non-vacuity: three counts with a Poisson likelihood. A Matérn 3/2 kernel with variance one, and the sum of two of them with variance one half each
(twice the state dimension), both have a best `q`; hence the bounds and predictions agree. -/
example : ∃ (D : ℕ) (v : VGP 2 1 2) (v' : VGP 2 1 D) (k : ℝ → ℝ → Mat 1 1) (e e' : ℝ), v.Valid k ∧ v'.Valid k ∧ 2 < D ∧
    (gpGram k v.times).PosDef ∧ v.likelihood = poissonLikelihood ∧ v'.likelihood = poissonLikelihood ∧ v'.times = v.times ∧
    v'.observations = v.observations ∧ v'.meanFunction = v.meanFunction ∧ v.elbo = .ok e ∧ v'.elbo = .ok e' ∧
    (∀ s : SSM 2 2, s.Nondegenerate → ∃ b, ({ v with q := s } : VGP 2 1 2).elbo = .ok b ∧ b ≤ e) ∧
    (∀ s : SSM 2 D, s.Nondegenerate → ∃ b, ({ v' with q := s } : VGP 2 1 D).elbo = .ok b ∧ b ≤ e') := by
  obtain ⟨K, hK⟩ := (C28_constructors (o := 1) 2 1 1 1 1 0).2.1.2 (by norm_num)
  obtain ⟨K₂, hK₂⟩ := (C28_constructors (o := 1) 2 (1 / 2) 1 1 1 0).2.1.2 (by norm_num)
  have hB : Builds K (iso (matern32Cov 2 1)) := .leaf (.matern32 hK)
  obtain ⟨S, hS, hSj, hSb, -⟩ := C29_add (.leaf (.matern32 hK₂)) (.leaf (.matern32 hK₂))
  have hkk : (fun t t' => iso (o := 1) (matern32Cov 2 (1 / 2)) t t' + iso (matern32Cov 2 (1 / 2)) t t') = iso (matern32Cov 2 1) := by
    funext t t'
    ext i j
    simp only [iso, Matrix.add_apply, Matrix.of_apply, matern32Cov]
    ring
  rw [hkk] at hSb
  have tS : NoiseTag S true := NoiseTag.sum (ks := [⟨_, K₂⟩, ⟨_, K₂⟩]) (by
    intro a
    match a with
    | ⟨0, _⟩ => exact NoiseTag.matern32 hK₂
    | ⟨1, _⟩ => exact NoiseTag.matern32 hK₂) hS
  have hts : StrictMono (![0, 1, 3] : Fin 3 → ℝ) := by
    refine Fin.strictMono_iff_lt_succ.2 fun i => ?_
    fin_cases i <;> simp
  have hj : K.jitter = 0 := by rw [(kernelInit_ok hK).2.2]; rfl
  have hG : (gpGram (iso (o := 1) (matern32Cov 2 1)) (![0, 1, 3] : Fin 3 → ℝ)).PosDef := by
    refine gpGram_posDef hB (.matern32 hK) two_pos hts hj fun i => ?_
    refine LinearIndependent.of_subsingleton 0 fun h0 => ?_
    have := congrFun h0 0
    rw [(kernelInit_ok hK).2.2] at this
    exact one_ne_zero this
  obtain ⟨s, hs, hnd⟩ := kernel_ssm_nondegenerate hB (.matern32 hK) two_pos hts
  obtain ⟨s', hs', hnd'⟩ := kernel_ssm_nondegenerate hSb tS two_pos hts
  have hv : (⟨![0, 1, 3], fun i => ![(i : ℝ)], K, poissonLikelihood, fun t => ![t], s⟩ : VGP 2 1 2).Valid (iso (matern32Cov 2 1)) :=
    ⟨hB, .matern32 hK, hj, hts, by show -10000000000 < (0 : ℝ); norm_num, by show (3 : ℝ) ≤ 10000000000; norm_num, two_pos, hnd⟩
  have hv' : (⟨![0, 1, 3], fun i => ![(i : ℝ)], S, poissonLikelihood, fun t => ![t], s'⟩ : VGP 2 1 _).Valid (iso (matern32Cov 2 1)) :=
    ⟨hSb, tS, hSj, hts, by show -10000000000 < (0 : ℝ); norm_num, by show (3 : ℝ) ≤ 10000000000; norm_num, two_pos, hnd'⟩
  obtain ⟨q, e, hq, hqe, hmax⟩ := C77_vgp_exists hv poissonLikelihood_exact poissonLikelihood_logConcave poisson_differentiable
    fun t a => emission_ne_zero hB hG t a
  obtain ⟨q', e', hq', hqe', hmax'⟩ := C77_vgp_exists hv' poissonLikelihood_exact poissonLikelihood_logConcave poisson_differentiable
    fun t a => emission_ne_zero hSb hG t a
  refine ⟨_, ⟨![0, 1, 3], fun i => ![(i : ℝ)], K, poissonLikelihood, fun t => ![t], q⟩,
    ⟨![0, 1, 3], fun i => ![(i : ℝ)], S, poissonLikelihood, fun t => ![t], q'⟩, _, e, e',
    ⟨hB, .matern32 hK, hj, hts, hv.lower, hv.upper, two_pos, hq⟩, ⟨hSb, tS, hSj, hts, hv.lower, hv.upper, two_pos, hq'⟩, ?_, hG, rfl, rfl, rfl, rfl, rfl,
    hqe, hqe', fun s hs => (hmax s hs).imp fun _ h => ⟨h.1, h.2.1⟩, fun s hs => (hmax' s hs).imp fun _ h => ⟨h.1, h.2.1⟩⟩
  simp [sumDim]

end MF
