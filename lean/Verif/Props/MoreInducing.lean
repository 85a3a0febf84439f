import Verif.Lemmas.Refine
import Verif.Props.SparseCVI

/-!
# C54: more inducing points

`IsPredictive` (`Spec/Bridge`): `ν(du, ds) = q(du) p(ds | u)`; `priorLaw K z z'` is the kernel's Gaussian process prior
of the states at the times `z` and `z'` (`C23_prior_is_kernel`); `klDiv` is Mathlib's Kullback-Leibler divergence.
-/

namespace MF
open Matrix Spec MeasureTheory ProbabilityTheory InformationTheory
variable {n n' d o p : ℕ}

/-- The same model with other inducing points and another variational distribution. -/
def SVGP.withInducing (v : SVGP n o d) (z' : Fin (n' + 1) → ℝ) (q' : SSM n' d) : SVGP n' o d :=
  ⟨v.kernel, v.likelihood, z', v.meanFunction, v.numData, q'⟩

/-- C16: `expectations_to_ssm_params` on the expectations of any non-degenerate Gaussian vector (not necessarily a
chain) gives the nearest chain: it splits the divergence to every chain `t`. -/
theorem C16_projection {S : Matrix (Ix n d) (Ix n d) ℝ} (hS : S.PosDef) (m : Fin (n + 1) → Vec d) :
    ∃ s, expectationsToSSM m (fun b => blk S b b + vecMulVec (m b) (m b))
        (fun k => blk S k.succ k.castSucc + vecMulVec (m k.succ) (m k.castSucc)) = .ok s ∧ s.Nondegenerate ∧
      klDiv (gaussLaw (stk m) S) s.law ≠ ⊤ ∧
      ∀ t : SSM n d, t.Nondegenerate →
        klDiv (gaussLaw (stk m) S) t.law = klDiv (gaussLaw (stk m) S) s.law + klDiv s.law t.law := by
  obtain ⟨s, hs, hnd, hm, h1, h2⟩ := expectationsToSSM_of_posDef hS m
  refine ⟨s, hs, hnd, ?_, fun t ht => ?_⟩
  · rw [SSM.law_eq_gauss, klDiv_gaussLaw hS (SSM.Kd_posDef hnd)]
    exact ENNReal.ofReal_ne_top
  · have hp := gaussKL_pythagoras hnd ht hS h1 h2
    rw [hm] at hp
    rw [SSM.law_eq_gauss, SSM.law_eq_gauss, klDiv_gaussLaw hS (SSM.Kd_posDef hnd), klDiv_gaussLaw hS (SSM.Kd_posDef ht),
      klDiv_gaussLaw (SSM.Kd_posDef hnd) (SSM.Kd_posDef ht), hm, hp,
      ENNReal.ofReal_add (gaussKL_nonneg hS (SSM.Kd_posDef hnd)) (gaussKL_nonneg (SSM.Kd_posDef hnd) (SSM.Kd_posDef ht))]

/-- C54: adding inducing points never hurts, whatever the likelihood. For every valid model and every strictly
increasing `z'` containing its inducing points there is a distribution on `z'` with the same predictions at
every time from the first to the last old inducing point, and whose `elbo`, on every minibatch of such times, is the old
one plus the divergence between the states at `z'` under the old model and the new `q`, which is the nearest chain. -/
theorem C54_refine {v : SVGP n o d} {k} (h : v.Valid k) {z' : Fin (n' + 1) → ℝ} (hz : StrictMono z')
    (hl : -10000000000 < z' 0) (hu : z' (Fin.last n') ≤ 10000000000) (hsub : ∀ i, ∃ j, z' j = v.inducing i) :
    ∃ (q' : SSM n' d) (ν : Measure _), (v.withInducing z' q').Valid k ∧
      IsPredictive (priorLaw v.kernel v.inducing z') v.q.law ν ∧
      klDiv (ν.map Prod.snd) q'.law ≠ ⊤ ∧
      (∀ t : SSM n' d, t.Nondegenerate → klDiv (ν.map Prod.snd) q'.law ≤ klDiv (ν.map Prod.snd) t.law) ∧
      ∀ (p : ℕ) (X : Fin p → ℝ), (∀ j, v.inducing 0 ≤ X j) → (∀ j, X j ≤ v.inducing (Fin.last n)) →
        (v.withInducing z' q').posterior.predictState X = v.posterior.predictState X ∧
        (v.withInducing z' q').posterior.predictF X = v.posterior.predictF X ∧
        (v.withInducing z' q').posterior.predictFDiag X = v.posterior.predictFDiag X ∧
        ∀ Y, ∃ e, v.elbo X Y = .ok e ∧
          (v.withInducing z' q').elbo X Y = .ok (e + (klDiv (ν.map Prod.snd) q'.law).toReal) := by
  obtain ⟨hc, hr, -⟩ := Builds.good h.builds
  choose e he using hsub
  have hinj : Function.Injective e := fun i j hij => h.times.injective (by rw [← he i, ← he j, hij])
  have hn' : 0 < n' := by
    have := Fintype.card_le_of_injective e hinj
    simp only [Fintype.card_fin] at this
    have := h.two
    omega
  obtain ⟨s, hs, hnd⟩ := kernel_ssm_nondegenerate h.builds h.noise h.two h.times
  obtain ⟨s', hs', hnd'⟩ := kernel_ssm_nondegenerate h.builds h.noise hn' hz
  set A := v.kernel.stateTransitions 0
  set P := v.kernel.Pinf
  obtain ⟨hm0, hKs⟩ := kernel_moments h.builds h.jitter hs
  obtain ⟨hm0', hKs'⟩ := kernel_moments h.builds h.jitter hs'
  have hKs : s.Kd = covMat A P v.inducing := hKs
  have hKs' : s'.Kd = covMat A P z' := hKs'
  have hK : (covMat A P v.inducing).PosDef := by rw [← hKs]; exact SSM.Kd_posDef hnd
  have hK' : (covMat A P z').PosDef := by rw [← hKs']; exact SSM.Kd_posDef hnd'
  have hQ := SSM.Kd_posDef h.q
  set m' := regMat (covMat A P v.inducing) (covMat A P z') (pickTimes d e) *ᵥ stk v.q.mus with hm'
  set S' := extCov (covMat A P v.inducing) (covMat A P z') (pickTimes d e) v.q.Kd with hS'
  have hS'p : S'.PosDef := extCov_posDef hK hK' (pick_cov he) hQ
  obtain ⟨q', -, hq', hmq, h1, h2⟩ := expectationsToSSM_of_posDef hS'p (unstk m')
  have hmq' : stk q'.mus = m' := by rw [hmq]; rfl
  obtain ⟨ν, hν, hνm⟩ := ext_predictive hc.statProc he hK hK' (μ := stk v.q.mus) hQ
  rw [← SSM.law_eq_gauss] at hν
  have hq'p := SSM.Kd_posDef hq'
  have hgap : klDiv (ν.map Prod.snd) q'.law = ENNReal.ofReal (gaussKL m' S' m' q'.Kd) := by
    rw [hνm, SSM.law_eq_gauss, hmq', klDiv_gaussLaw hS'p hq'p]
  have hgap0 : 0 ≤ gaussKL m' S' m' q'.Kd := gaussKL_nonneg hS'p hq'p
  refine ⟨q', ν, ⟨h.builds, h.noise, h.jitter, hz, hl, hu, hn', hq'⟩, hν, by rw [hgap]; exact ENNReal.ofReal_ne_top, ?_, ?_⟩
  · intro t ht
    have hp := gaussKL_pythagoras hq' ht hS'p h1 h2
    rw [hmq'] at hp
    rw [hgap, hνm, SSM.law_eq_gauss, klDiv_gaussLaw hS'p (SSM.Kd_posDef ht)]
    refine ENNReal.ofReal_le_ofReal ?_
    rw [hp]
    have := gaussKL_nonneg (m₁ := m') (m₂ := stk t.mus) hq'p (SSM.Kd_posDef ht)
    linarith
  intro p X h0 h1'
  have hz0 : ∀ j, z' 0 ≤ X j := fun j => ((hz.monotone (Fin.zero_le (e 0))).trans (he 0).le).trans (h0 j)
  have hz1 : ∀ j, X j ≤ z' (Fin.last n') := fun j =>
    ((h1' j).trans (he (Fin.last n)).ge).trans (hz.monotone (Fin.le_last _))
  have hX0 : ∀ j, -10000000000 < X j := fun j => lt_of_lt_of_le h.lower (h0 j)
  have hX1 : ∀ j, X j ≤ 10000000000 := fun j => (h1' j).trans h.upper
  obtain ⟨r, hr1⟩ := C22_succeeds (c := v.posterior) h.builds h.noise h.q h.two h.times.monotone hX0 hX1
  obtain ⟨r', hr2⟩ := C22_succeeds (c := (v.withInducing z' q').posterior) h.builds h.noise hq' hn' hz.monotone hX0 hX1
  obtain ⟨k1, c1, hb1, hlaw1⟩ := predict_law_interior (c := v.posterior) hc hr h.jitter h.q h.two h.times.monotone h.lower
    h.upper h0 h1' hr1
  obtain ⟨k2, c2, hb2, hlaw2⟩ := predict_law_interior (c := (v.withInducing z' q').posterior) hc hr h.jitter hq' hn'
    hz.monotone hl hu hz0 hz1 hr2
  have hp1 := C45_state_psd (c := v.posterior) h.builds h.q h.two h.times.monotone hX0 hX1 hr1
  have hp2 := C45_state_psd (c := (v.withInducing z' q').posterior) h.builds hq' hn' hz.monotone hX0 hX1 hr2
  have hrr : r' = r := by
    funext j
    have e1 := hlaw1 j
    have e2 := hlaw2 j
    have hb1 : Bridges A P v.inducing X k1 c1 := hb1
    have hb2 : Bridges A P z' X k2 c2 := hb2
    have e3 : (predLaw A P z' X k2 c2 (gaussLaw (stk q'.mus) q'.Kd)).map (fun x => fun a : Fin d => x.2 (j, a)) =
        gaussLaw (r' j).1 (r' j).2 := by rw [← SSM.law_eq_gauss]; exact e2
    have e4 : (predLaw A P v.inducing X k1 c1 (gaussLaw (stk v.q.mus) v.q.Kd)).map (fun x => fun a : Fin d => x.2 (j, a)) =
        gaussLaw (r j).1 (r j).2 := by rw [← SSM.law_eq_gauss]; exact e1
    rw [hmq', hb2.marginal_congr hc.statProc hz.monotone hS'p.posSemidef hq'p.posSemidef h1 h2] at e3
    have hj := congrArg (fun M => M.map fun (y : Fin p × Fin d → ℝ) => fun a : Fin d => y (j, a))
      (hb1.refine hc.statProc h.times.monotone hz.monotone hb2 he hK hK' (μ := stk v.q.mus) hQ)
    have hmeas : Measurable fun (y : Fin p × Fin d → ℝ) => fun a : Fin d => y (j, a) := by fun_prop
    simp only [Measure.map_map hmeas measurable_snd] at hj
    have e5 := (e3.symm.trans hj).trans e4
    obtain ⟨f1, f2⟩ := (SSM.gaussLaw_inj (hp2 j) (hp1 j)).1 e5
    exact Prod.ext f1 f2
  subst hrr
  have hps : (v.withInducing z' q').posterior.predictState X = v.posterior.predictState X := by rw [hr1, hr2]
  have hpf : (v.withInducing z' q').posterior.predictF X = v.posterior.predictF X := by
    unfold CondProcess.predictF; rw [hps]; rfl
  have hpd : (v.withInducing z' q').posterior.predictFDiag X = v.posterior.predictFDiag X := by
    unfold CondProcess.predictFDiag; rw [hps]; rfl
  refine ⟨hps, hpf, hpd, fun Y => ?_⟩
  obtain ⟨f, _, hf, -, -⟩ := (C45_formulas hr1 0).2
  have hkl := SSM.kl_eq h.q hnd h.two hc.pos
  have hkl' := SSM.kl_eq hq' hnd' hn' hc.pos
  have hpy := gaussKL_pythagoras hq' hnd' hS'p h1 h2
  rw [hmq', hm0', hKs', gaussKL_ext hK hK' (pick_cov he) hQ] at hpy
  rw [hmq', hm0', hKs'] at hkl'
  rw [hm0, hKs] at hkl
  rw [hgap, ENNReal.toReal_ofReal hgap0]
  have he1 : v.elbo X Y = .ok ((∑ i, v.likelihood.varExps (f i).1 (f i).2 (Y i)) * v.scale p -
      gaussKL (stk v.q.mus) v.q.Kd 0 (covMat A P v.inducing)) := by
    unfold SVGP.elbo SVGP.distP
    rw [hf, hs]
    simp only [bind, Except.bind, hkl, pure, Except.pure]
    rfl
  have he2 : (v.withInducing z' q').elbo X Y = .ok ((∑ i, v.likelihood.varExps (f i).1 (f i).2 (Y i)) * v.scale p -
      gaussKL m' q'.Kd 0 (covMat A P z')) := by
    unfold SVGP.elbo SVGP.distP
    rw [hpd, hf]
    simp only [SVGP.withInducing, bind, Except.bind, hs', hkl', pure, Except.pure]
    rfl
  refine ⟨_, he1, ?_⟩
  rw [he2]
  congr 1
  linarith

/-- C54, the best objective: whatever bounds the objective over all distributions on the larger set of inducing points also
bounds it over those on the smaller set. -/
theorem C54_best {v : SVGP n o d} {k} (h : v.Valid k) {z' : Fin (n' + 1) → ℝ} (hz : StrictMono z')
    (hl : -10000000000 < z' 0) (hu : z' (Fin.last n') ≤ 10000000000) (hsub : ∀ i, ∃ j, z' j = v.inducing i)
    {X : Fin p → ℝ} (h0 : ∀ j, v.inducing 0 ≤ X j) (h1 : ∀ j, X j ≤ v.inducing (Fin.last n)) (Y : Fin p → Vec o) {M : ℝ}
    (hM : ∀ q' : SSM n' d, q'.Nondegenerate → ∀ e', (v.withInducing z' q').elbo X Y = .ok e' → e' ≤ M) {e : ℝ}
    (he : v.elbo X Y = .ok e) : e ≤ M := by
  obtain ⟨q', ν, hv', -, -, -, hall⟩ := C54_refine h hz hl hu hsub
  obtain ⟨-, -, -, hY⟩ := hall p X h0 h1
  obtain ⟨e₀, he₀, he'⟩ := hY Y
  obtain rfl : e₀ = e := Except.ok.inj (he₀.symm.trans he)
  exact (le_add_of_nonneg_right ENNReal.toReal_nonneg).trans (hM q' hv'.q _ he')

/-- C54, Gaussian likelihood: one sparse-CVI step of learning rate one on the larger set of inducing points reaches at
least the objective of every distribution on the smaller set. -/
theorem C54_sparse_cvi {c : SparseCVI n' d} {k} (h : c.Valid k) {q} (hq : c.distQ = .ok q) {σ2 : ℝ} (hσ : 0 < σ2)
    (hlik : c.likelihood = gaussianLikelihood σ2) (hr : c.learningRate = 1) {z : Fin (n + 1) → ℝ} (hz : StrictMono z)
    (hn : 0 < n) (hsub : ∀ i, ∃ j, c.inducing j = z i) {X : Fin p → ℝ} (h0 : ∀ j, z 0 ≤ X j)
    (h1 : ∀ j, X j ≤ z (Fin.last n)) (Y : Fin p → Vec 1) :
    ∃ (c' : SparseCVI n' d) (e' : ℝ), c.updateSites X Y = .ok c' ∧ c'.classicElbo X Y = .ok e' ∧
      ∀ q₂ : SSM n d, q₂.Nondegenerate → ∃ e₂,
        (⟨c.kernel, c.likelihood, z, fun _ => 0, none, q₂⟩ : SVGP n 1 d).elbo X Y = .ok e₂ ∧ e₂ ≤ e' := by
  obtain ⟨j0, hj0⟩ := hsub 0
  obtain ⟨j1, hj1⟩ := hsub (Fin.last n)
  have hl : -10000000000 < z 0 := by
    rw [← hj0]; exact lt_of_lt_of_le h.lower (h.times.monotone (Fin.zero_le _))
  have hu : z (Fin.last n) ≤ 10000000000 := by
    rw [← hj1]; exact (h.times.monotone (Fin.le_last _)).trans h.upper
  obtain ⟨c', q', e', hup, -, hel, hall⟩ := C36_gaussian_optimal h hq hσ hlik hr
    (fun j => lt_of_lt_of_le hl (h0 j)) (fun j => (h1 j).trans hu) Y
  refine ⟨c', e', hup, hel, fun q₂ hq₂ => ?_⟩
  have hv : (⟨c.kernel, c.likelihood, z, fun _ => 0, none, q₂⟩ : SVGP n 1 d).Valid k :=
    ⟨h.builds, h.noise, h.jitter, hz, hl, hu, hn, hq₂⟩
  obtain ⟨q'', ν, hv', -, -, -, href⟩ := C54_refine hv h.times h.lower h.upper hsub
  obtain ⟨-, -, -, hY⟩ := href p X h0 h1
  obtain ⟨e₂, he₂, he''⟩ := hY Y
  refine ⟨e₂, he₂, ?_⟩
  obtain ⟨e₃, he₃, -, hle⟩ := hall q'' hv'.q
  have : e₃ = e₂ + _ := Except.ok.inj (he₃.symm.trans he'')
  linarith [ENNReal.toReal_nonneg (a := klDiv q''.law q'.law), ENNReal.toReal_nonneg (a := klDiv (ν.map Prod.snd) q''.law)]

/-! ### Inducing points at all the data times -/

/-- The data term for any law of the states with the given Gaussian marginals. -/
theorem data_term {Ω : Type*} [MeasurableSpace Ω] {ν : Measure Ω} {lik : ScalarLikelihood} (hlik : ExactLikelihood lik)
    (K : Stationary o d) (mf : ℝ → Vec o) (X : Fin p → ℝ) (Y : Fin p → Vec o) {s : Ω → Fin p × Fin d → ℝ} (hs : Measurable s)
    {r : Fin p → Vec d × Mat d d} (hp : ∀ j, (r j).2.PosSemidef)
    (hmarg : ∀ j, ν.map (fun x => fun a : Fin d => s x (j, a)) = gaussLaw (r j).1 (r j).2) {f : Fin p → Vec o × Vec o}
    (hf : ∀ j, (f j).1 = K.emission (X j) *ᵥ (r j).1 + mf (X j) ∧
      ∀ i, (f j).2 i = (K.emission (X j) * (r j).2 * (K.emission (X j))ᵀ) i i) :
    Integrable (fun x => outputLogLik lik Y (latentAt K mf X (s x))) ν ∧
    ∫ x, outputLogLik lik Y (latentAt K mf X (s x)) ∂ν = ∑ j, lik.varExps (f j).1 (f j).2 (Y j) := by
  have hone : ∀ j a, ν.map (fun x => latentAt K mf X (s x) (j, a)) = gaussianReal ((f j).1 a) ((f j).2 a).toNNReal := by
    intro j a
    obtain ⟨e1, e2⟩ := hf j
    have hM : Measurable fun x => fun a : Fin d => s x (j, a) :=
      measurable_pi_lambda _ fun a => (measurable_pi_apply (j, a)).comp hs
    have hA := measurable_affine (mf (X j)) (K.emission (X j))
    rw [show (fun x => latentAt K mf X (s x) (j, a)) =
      (fun y : Fin o → ℝ => y a) ∘ (fun x => mf (X j) + K.emission (X j) *ᵥ x) ∘
        (fun x => fun a : Fin d => s x (j, a)) from funext fun x => add_comm _ _,
      ← Measure.map_map (measurable_pi_apply a) (hA.comp hM), ← Measure.map_map hA hM, hmarg j,
      gaussLaw_map_affine (hp j), gaussLaw_eval (posSemidef_conj' (hp j) _), e1, e2]
    rw [add_comm]
  have hvar : ∀ j a, 0 ≤ (f j).2 a := fun j a => by
    rw [(hf j).2]
    exact (posSemidef_conj' (hp j) _).diag_nonneg
  have hmj : ∀ j a, Measurable fun x => latentAt K mf X (s x) (j, a) := fun j a =>
    (measurable_pi_apply (j, a)).comp ((measurable_latentAt K mf X).comp hs)
  have hint : ∀ j a, Integrable (fun x => lik.logProb (latentAt K mf X (s x) (j, a)) (Y j a)) ν := by
    intro j a
    have := hlik.integrable ((f j).1 a) ((f j).2 a) (Y j a)
    rw [← hone j a] at this
    exact this.comp_measurable (hmj j a)
  refine ⟨integrable_finsetSum _ fun j _ => integrable_finsetSum _ fun a _ => hint j a, ?_⟩
  unfold outputLogLik ScalarLikelihood.varExps
  rw [integral_finsetSum _ fun j _ => integrable_finsetSum _ fun a _ => hint j a]
  refine Finset.sum_congr rfl fun j _ => ?_
  rw [integral_finsetSum _ fun a _ => hint j a]
  refine Finset.sum_congr rfl fun a _ => ?_
  rw [hlik.varExp _ _ _ (hvar j a), ← hone j a,
    integral_map (hmj j a).aemeasurable (hlik.measurable _).aestronglyMeasurable]

/-- C54: inducing points at all the data times (and anywhere else; the data in any order, with repetitions) lose nothing: for
every likelihood the gap to the log evidence is the divergence of `q` from the exact posterior of the inducing states, so it
closes exactly when `q` is that posterior. -/
theorem C54_data_times {v : SVGP n o d} {k} (h : v.Valid k) (hlik : ExactLikelihood v.likelihood) (hp : 0 < p)
    (hN : v.numData = none ∨ v.numData = some p) {X : Fin p → ℝ} {e : Fin p → Fin (n + 1)} (he : ∀ j, X j = v.inducing (e j))
    (Y : Fin p → Vec o) :
    ∃ (s : SSM n d) (l : ℝ), v.distP = .ok s ∧ v.elbo X Y = .ok l ∧
      ∀ post, IsBayesPosterior s.law (fun x => outputLogLik v.likelihood Y
          (latentAt v.kernel v.meanFunction X fun i => x (e i.1, i.2))) post →
        klDiv v.q.law post ≠ ⊤ ∧
        Real.log (evidence (gpLaw v.meanFunction k X) (outputLogLik v.likelihood Y)).toReal =
          l + (klDiv v.q.law post).toReal ∧
        (l = Real.log (evidence (gpLaw v.meanFunction k X) (outputLogLik v.likelihood Y)).toReal ↔ v.q.law = post) := by
  obtain ⟨hc, -, -⟩ := Builds.good h.builds
  obtain ⟨s, hs, hnd⟩ := kernel_ssm_nondegenerate h.builds h.noise h.two h.times
  obtain ⟨kl, hkl, hkl', hkl0, -⟩ := C13_kl_divergence v.q s h.q hnd h.two hc.pos
  have hkl' : klDiv v.q.law s.law = ENNReal.ofReal kl := hkl'
  have hX0 : ∀ j, -10000000000 < X j := fun j => by
    rw [he]; exact lt_of_lt_of_le h.lower (h.times.monotone (Fin.zero_le _))
  have hX1 : ∀ j, X j ≤ 10000000000 := fun j => by
    rw [he]; exact (h.times.monotone (Fin.le_last _)).trans h.upper
  obtain ⟨r, hr⟩ := C22_succeeds (c := v.posterior) h.builds h.noise h.q h.two h.times.monotone hX0 hX1
  have hrv : ∀ j, r j = (v.q.mus (e j), blk v.q.Kd (e j) (e j)) := fun j =>
    C22_at_training (c := v.posterior) h.builds h.jitter h.q h.two h.times.monotone h.lower hr
      (SSM.marginalMeans_eq h.two) (SSM.marginalCovariances_eq h.q h.two hc.pos) j (e j) (he j)
      (fun i' hi => h.times hi) rfl rfl
  obtain ⟨f, _, hf, -, hfv⟩ := (C45_formulas hr 0).2
  have hpq : IsProbabilityMeasure v.q.law := by rw [SSM.law_eq_gauss]; infer_instance
  have hps : IsProbabilityMeasure s.law := by rw [SSM.law_eq_gauss]; infer_instance
  have hpick : Measurable fun x : Ix n d → ℝ => fun i : Fin p × Fin d => x (e i.1, i.2) := by fun_prop
  obtain ⟨hi, hsum⟩ := data_term (ν := v.q.law) hlik v.kernel v.meanFunction X Y hpick
    (r := fun j => (v.q.mus (e j), blk v.q.Kd (e j) (e j)))
    (fun j => v.q.Kd_posSemidef.submatrix fun a : Fin d => (e j, a)) (fun j => by
      rw [SSM.law_eq_gauss]
      exact gaussLaw_comp v.q.Kd_posSemidef (stk v.q.mus) fun a : Fin d => (e j, a)) (f := f) (fun j => by
      obtain ⟨e1, e2, -⟩ := hfv j
      rw [hrv j] at e1 e2
      exact ⟨e1, e2⟩)
  have hel : v.elbo X Y = .ok ((∫ x, outputLogLik v.likelihood Y
      (latentAt v.kernel v.meanFunction X fun i => x (e i.1, i.2)) ∂v.q.law) - kl) := by
    unfold SVGP.elbo SVGP.distP
    rw [hf, hs, hsum]
    simp only [bind, Except.bind, hkl, pure, Except.pure]
    rcases hN with hN | hN <;> rw [hN]
    · simp only [mul_one]
    · simp only [div_self (Nat.cast_ne_zero.2 hp.ne' : (p : ℝ) ≠ 0), mul_one]
  refine ⟨s, _, hs, hel, fun post hpost => ?_⟩
  have hm : Measurable fun x : Ix n d → ℝ => outputLogLik v.likelihood Y
      (latentAt v.kernel v.meanFunction X fun i => x (e i.1, i.2)) :=
    (measurable_outputLogLik hlik Y).comp ((measurable_latentAt v.kernel v.meanFunction X).comp hpick)
  obtain ⟨h2, h3⟩ := elbo_identity hm hpost (by rw [hkl']; exact ENNReal.ofReal_ne_top) hi
  have hev : evidence s.law (fun x => outputLogLik v.likelihood Y
      (latentAt v.kernel v.meanFunction X fun i => x (e i.1, i.2))) =
      evidence (gpLaw v.meanFunction k X) (outputLogLik v.likelihood Y) := by
    have hmo := measurable_outputLogLik hlik Y
    have hml := measurable_latentAt v.kernel v.meanFunction X
    have hsnd : (priorLaw v.kernel v.inducing X).map Prod.snd =
        s.law.map fun x => fun i : Fin p × Fin d => x (e i.1, i.2) := by
      rw [(C23_prior_is_kernel h.builds h.jitter hs X).2, gpLaw_comp hc.statProc,
        show v.inducing ∘ e = X from funext fun j => (he j).symm, priorLaw, Measure.map_map measurable_snd measurable_atTimes]
      exact gpLaw_comp hc.statProc (Sum.elim v.inducing X) Sum.inr
    rw [← priorLaw_latent h.builds v.meanFunction v.inducing X]
    unfold evidence
    have hmm : Measurable fun x : (Fin (n + 1) × Fin d → ℝ) × (Fin p × Fin d → ℝ) =>
      latentAt v.kernel v.meanFunction X x.2 := hml.comp measurable_snd
    rw [show (fun x : (Fin (n + 1) × Fin d → ℝ) × (Fin p × Fin d → ℝ) => latentAt v.kernel v.meanFunction X x.2) =
      latentAt v.kernel v.meanFunction X ∘ Prod.snd from rfl, ← Measure.map_map hml measurable_snd, hsnd,
      Measure.map_map hml hpick, lintegral_map (by fun_prop) (hml.comp hpick)]
    rfl
  rw [hev, hkl', ENNReal.toReal_ofReal hkl0] at h3
  have hpp : IsProbabilityMeasure post := by
    rw [IsBayesPosterior.tilted hm hpost]
    exact isProbabilityMeasure_tilted (IsBayesPosterior.integrable_exp hm hpost)
  refine ⟨h2, h3, ?_⟩
  rw [h3, ← klDiv_eq_zero_iff]
  constructor
  · intro h4
    have h0 : (klDiv v.q.law post).toReal = 0 := by linarith
    exact (ENNReal.toReal_eq_zero_iff _).1 h0 |>.resolve_right h2
  · intro h4
    rw [h4]; simp

/-- Predictions depend on the law of the conditioning distribution only. -/
theorem predictState_congr_law {c₁ c₂ : CondProcess n o d} (hk : c₁.kernel = c₂.kernel) (ht : c₁.times = c₂.times)
    (hq₁ : c₁.q.Nondegenerate) (hq₂ : c₂.q.Nondegenerate) (hl : c₁.q.law = c₂.q.law) (hn : 0 < n) (hd : 0 < d)
    {X : Fin p → ℝ} {r₁ r₂} (h₁ : c₁.predictState X = .ok r₁) (h₂ : c₂.predictState X = .ok r₂) : r₁ = r₂ := by
  obtain ⟨cs₁, hcs₁, mu₁, C₁, S₁, hm₁, hC₁, hS₁, hr₁⟩ := predictState_ok hq₁ hn hd h₁
  obtain ⟨cs₂, hcs₂, mu₂, C₂, S₂, hm₂, hC₂, hS₂, hr₂⟩ := predictState_ok hq₂ hn hd h₂
  rw [SSM.law_eq_gauss, SSM.law_eq_gauss] at hl
  obtain ⟨e1, e2⟩ := (SSM.gaussLaw_inj c₁.q.Kd_posSemidef c₂.q.Kd_posSemidef).1 hl
  have e1 : c₁.q.mus = c₂.q.mus := by
    have := congrArg unstk e1
    exact this
  rw [hk, e1, ← hm₂] at hm₁
  rw [hk, e2, ← hC₂] at hC₁
  rw [e2, ← hS₂] at hS₁
  have hcs : cs₁ = cs₂ := by
    funext j
    have a := hcs₁ j
    have b := hcs₂ j
    rw [hk, ht] at a
    exact Except.ok.inj (a.symm.trans b)
  funext j
  rw [hr₁, hr₂, hm₁, hC₁, hS₁, hcs, ht]

/-- The log marginal likelihood of regression as an evidence. -/
theorem gpr_evidence {g : GPR n o d} {k} (h : g.Valid k) (ht0 : -10000000000 < g.times 0)
    (ht1 : g.times (Fin.last n) ≤ 10000000000) {σ2 : ℝ} (hσ : 0 < σ2)
    (hR : g.cholObsCov = Real.sqrt σ2 • 1) : ∃ (s : SSM n d) (c : CondProcess n o d) (L : ℝ),
    g.kernel.stateSpaceModel g.times = .ok s ∧ g.posterior = .ok c ∧ c.q.Nondegenerate ∧ c.kernel = g.kernel ∧
    c.times = g.times ∧ c.meanFunction = g.meanFunction ∧ g.logLikelihood = .ok L ∧
    L = Real.log (evidence (gpLaw g.meanFunction k g.times) (outputLogLik (gaussianLikelihood σ2) g.observations)).toReal ∧
    IsBayesPosterior s.law (fun x => outputLogLik (gaussianLikelihood σ2) g.observations
      (latentOf g.kernel g.meanFunction g.times x)) c.q.law := by
  obtain ⟨s, c, hs, hc, hqn, hck, hct, hcm, hb⟩ := GPR.posterior_ok h
  rw [hR] at hb
  rw [obsLogLik_residuals hσ] at hb
  have hv : (⟨g.times, g.observations, g.kernel, gaussianLikelihood σ2, g.meanFunction, c.q⟩ : VGP n o d).Valid k :=
    ⟨h.builds, h.noise, h.jitter, h.times, ht0, ht1, h.two, hqn⟩
  have hg : (⟨g.times, g.observations, g.kernel, gaussianLikelihood σ2, g.meanFunction, c.q⟩ : VGP n o d).toGPR σ2 = g := by
    unfold VGP.toGPR
    rw [← hR]
  obtain ⟨e, L, c₂, he, -, hL, hc₂, -, hLe, -⟩ := C33_gaussian hv hσ rfl
  rw [hg] at hL hc₂
  obtain rfl : c = c₂ := Except.ok.inj (hc.symm.trans hc₂)
  obtain ⟨s', e', hs', he', -, hall⟩ := C33_elbo hv (gaussianLikelihood_exact σ2)
  obtain rfl : s = s' := Except.ok.inj (hs.symm.trans hs')
  obtain rfl : e = e' := Except.ok.inj (he.symm.trans he')
  obtain ⟨-, h2, -⟩ := hall _ hb
  exact ⟨s, c, L, hs, hc, hqn, hck, hct, hcm, hL, by rw [hLe]; exact h2.symm, hb⟩

/-- C54: exact regression as a special case of the sparse model. With a Gaussian likelihood and inducing points at all the
training times (and possibly elsewhere), one sparse-CVI step of learning rate one, from any sites that have a `dist_q`,
has as its objective the log marginal likelihood of `GaussianProcessRegression` on the same data, and the same predictions
as its posterior at every time from the first to the last training time. -/
theorem C54_exact_regression {m : ℕ} {g : GPR m 1 d} {k} (hg : g.Valid k) (hmean : g.meanFunction = fun _ => 0) {σ2 : ℝ}
    (hσ : 0 < σ2) (hR : g.cholObsCov = Real.sqrt σ2 • 1) {c : SparseCVI n d} (h : c.Valid k) (hk : c.kernel = g.kernel)
    (hlik : c.likelihood = gaussianLikelihood σ2) (hr : c.learningRate = 1) {q} (hq : c.distQ = .ok q)
    (hsub : ∀ i, ∃ j, c.inducing j = g.times i) :
    ∃ (c' : SparseCVI n d) (post : CondProcess n 1 d) (gpost : CondProcess m 1 d) (L : ℝ),
      c.updateSites g.times g.observations = .ok c' ∧ c'.posterior = .ok post ∧ g.posterior = .ok gpost ∧
      g.logLikelihood = .ok L ∧ c'.classicElbo g.times g.observations = .ok L ∧
      ∀ (p : ℕ) (X : Fin p → ℝ), (∀ j, g.times 0 ≤ X j) → (∀ j, X j ≤ g.times (Fin.last m)) →
        ∃ r f, post.predictState X = .ok r ∧ gpost.predictState X = .ok r ∧
          post.predictF X = .ok f ∧ gpost.predictF X = .ok f := by
  obtain ⟨j0, hj0⟩ := hsub 0
  obtain ⟨j1, hj1⟩ := hsub (Fin.last m)
  have hl : -10000000000 < g.times 0 := by
    rw [← hj0]; exact lt_of_lt_of_le h.lower (h.times.monotone (Fin.zero_le _))
  have hu : g.times (Fin.last m) ≤ 10000000000 := by
    rw [← hj1]; exact (h.times.monotone (Fin.le_last _)).trans h.upper
  have hX0 : ∀ j, -10000000000 < g.times j := fun j => lt_of_lt_of_le hl (hg.times.monotone (Fin.zero_le _))
  have hX1 : ∀ j, g.times j ≤ 10000000000 := fun j => (hg.times.monotone (Fin.le_last _)).trans hu
  have hex := gaussianLikelihood_exact σ2
  obtain ⟨hco, -, -⟩ := Builds.good h.builds
  obtain ⟨s, gp, L, hs, hgp, hqn, hgk, hgt, hgm, hL, hLe, hb⟩ := gpr_evidence hg hl hu hσ hR
  -- the exact posterior as a sparse model on the training times
  have hv0 : (⟨g.kernel, gaussianLikelihood σ2, g.times, fun _ => 0, none, gp.q⟩ : SVGP m 1 d).Valid k :=
    ⟨hg.builds, hg.noise, hg.jitter, hg.times, hl, hu, hg.two, hqn⟩
  obtain ⟨s', l0, hs', hl0, hdt⟩ := C54_data_times hv0 hex (Nat.succ_pos m) (.inl rfl) (X := g.times) (e := id)
    (fun _ => rfl) g.observations
  obtain rfl : s = s' := Except.ok.inj (hs.symm.trans hs')
  rw [hmean] at hb hLe
  obtain ⟨-, -, hiff⟩ := hdt _ hb
  have hl0L : l0 = L := (hiff.2 rfl).trans hLe.symm
  obtain ⟨q2, ν, hv2, -, -, -, href⟩ := C54_refine hv0 h.times h.lower h.upper hsub
  obtain ⟨-, -, -, hY⟩ := href _ g.times (fun j => hg.times.monotone (Fin.zero_le _)) fun j => hg.times.monotone (Fin.le_last _)
  obtain ⟨l0', hl0', he2⟩ := hY g.observations
  obtain rfl : l0 = l0' := Except.ok.inj (hl0.symm.trans hl0')
  obtain ⟨c', q', e', hup, hq', hel, hall⟩ := C36_gaussian_optimal h hq hσ hlik hr hX0 hX1 g.observations
  obtain ⟨c'', _, _, _, _, hup', -, -, -, hcc, -⟩ := C36_update h hq hX0 hX1 g.observations
  obtain rfl : c' = c'' := Except.ok.inj (hup.symm.trans hup')
  have hvc' := C36_reachable h hup
  obtain ⟨_, _, _, hqd, _⟩ := C36_dist_q hvc'
  have hq'n := (hqd q' hq').1
  have hsv : ∀ q₂ : SSM n d, c.toSVGP q₂ =
      (⟨g.kernel, gaussianLikelihood σ2, g.times, fun _ => 0, none, gp.q⟩ : SVGP m 1 d).withInducing c.inducing q₂ := by
    intro q₂
    unfold SparseCVI.toSVGP SVGP.withInducing
    rw [hk, hlik]
  obtain ⟨e3, he3, hfin, hle⟩ := hall q2 hv2.q
  rw [hsv] at he3
  have he3 : e3 = l0 + _ := Except.ok.inj (he3.symm.trans he2)
  -- the bound
  have hvq' : (c.toSVGP q').Valid k :=
    ⟨h.builds, h.noise, h.jitter, h.times, h.lower, h.upper, h.two, hq'n⟩
  choose e he using hsub
  obtain ⟨s2, e4, hs2, he4, hbd⟩ := C54_data_times hvq' (by rw [show (c.toSVGP q').likelihood = c.likelihood from rfl, hlik]; exact hex)
    (Nat.succ_pos m) (.inl rfl) (X := g.times) (e := e) (fun j => (he j).symm) g.observations
  have he4e : e4 = e' := by
    obtain ⟨e5, he5, -, h5⟩ := hall q' hq'n
    have hpq : IsProbabilityMeasure q'.law := by rw [SSM.law_eq_gauss]; infer_instance
    rw [klDiv_self, ENNReal.toReal_zero, sub_zero] at h5
    rw [← h5]
    exact Except.ok.inj (he4.symm.trans he5)
  have hbound : e' ≤ L := by
    have hps : IsProbabilityMeasure s2.law := by rw [SSM.law_eq_gauss]; infer_instance
    have hpick : Measurable fun x : Ix n d → ℝ => fun i : Fin (m + 1) × Fin d => x (e i.1, i.2) := by fun_prop
    obtain ⟨post, hpost⟩ := exists_bayes (π := s2.law) (ℓ := fun x => outputLogLik (c.toSVGP q').likelihood g.observations
        (latentAt (c.toSVGP q').kernel (c.toSVGP q').meanFunction g.times fun i => x (e i.1, i.2)))
      ((measurable_outputLogLik (by rw [show (c.toSVGP q').likelihood = c.likelihood from rfl, hlik]; exact hex) _).comp
        ((measurable_latentAt _ _ _).comp hpick))
      (B := ∑ _j : Fin (m + 1), ∑ _a : Fin 1, -(1 / 2) * (Real.log (2 * Real.pi) + Real.log σ2)) (fun x => by
        unfold outputLogLik
        refine Finset.sum_le_sum fun j _ => Finset.sum_le_sum fun a _ => ?_
        rw [show (c.toSVGP q').likelihood = c.likelihood from rfl, hlik]
        have : 0 ≤ (latentAt (c.toSVGP q').kernel (c.toSVGP q').meanFunction g.times (fun i => x (e i.1, i.2)) (j, a) -
          g.observations j a) ^ 2 / σ2 := by positivity
        simp only [gaussianLikelihood]; linarith)
    obtain ⟨-, h5, -⟩ := hbd post hpost
    rw [show (c.toSVGP q').likelihood = c.likelihood from rfl, hlik] at h5
    rw [hLe, ← he4e]
    have := ENNReal.toReal_nonneg (a := klDiv (c.toSVGP q').q.law post)
    have h5 : Real.log (evidence (gpLaw (fun _ => 0) k g.times) (outputLogLik (gaussianLikelihood σ2) g.observations)).toReal =
      e4 + (klDiv (c.toSVGP q').q.law post).toReal := h5
    linarith
  have hk0 := ENNReal.toReal_nonneg (a := klDiv q2.law q'.law)
  have hg0 := ENNReal.toReal_nonneg (a := klDiv (ν.map Prod.snd) q2.law)
  have hz : (klDiv q2.law q'.law).toReal = 0 := by linarith
  have he'L : e' = L := by linarith
  have hp2 : IsProbabilityMeasure q2.law := by rw [SSM.law_eq_gauss]; infer_instance
  have hp1 : IsProbabilityMeasure q'.law := by rw [SSM.law_eq_gauss]; infer_instance
  have hlaw : q2.law = q'.law := klDiv_eq_zero_iff.1 (((ENNReal.toReal_eq_zero_iff _).1 hz).resolve_right hfin)
  have hkp : c'.kernel = c.kernel ∧ c'.inducing = c.inducing := by rw [hcc]; exact ⟨rfl, rfl⟩
  have hpost : c'.posterior = .ok ⟨q', c.kernel, c.inducing, fun _ => 0⟩ := by
    unfold SparseCVI.posterior; rw [hq', hkp.1, hkp.2]; rfl
  have hgpe : gp = ⟨gp.q, g.kernel, g.times, fun _ => 0⟩ := by
    rw [← hgk, ← hgt, ← hmean, ← hgm]
  refine ⟨c', _, gp, L, hup, hpost, hgp, hL, by rw [hel, he'L], fun p X h0 h1 => ?_⟩
  obtain ⟨hps, hpf, -, -⟩ := href p X h0 h1
  have hY0 : ∀ j, -10000000000 < X j := fun j => lt_of_lt_of_le hl (h0 j)
  have hY1 : ∀ j, X j ≤ 10000000000 := fun j => (h1 j).trans hu
  obtain ⟨r, hr'⟩ := C22_succeeds (c := (⟨q', c.kernel, c.inducing, fun _ => 0⟩ : CondProcess n 1 d)) h.builds h.noise hq'n
    h.two h.times.monotone hY0 hY1
  obtain ⟨r2, hr2⟩ := C22_succeeds (c := (⟨q2, g.kernel, c.inducing, fun _ => 0⟩ : CondProcess n 1 d)) hg.builds hg.noise hv2.q
    h.two h.times.monotone hY0 hY1
  have hrr : r = r2 := predictState_congr_law (c₁ := (⟨q', c.kernel, c.inducing, fun _ => 0⟩ : CondProcess n 1 d))
    (c₂ := (⟨q2, g.kernel, c.inducing, fun _ => 0⟩ : CondProcess n 1 d)) hk rfl hq'n hv2.q hlaw.symm h.two hco.pos hr' hr2
  subst hrr
  have hgr : gp.predictState X = .ok r := by
    rw [hgpe]; exact hps.symm.trans hr2
  obtain ⟨f, hf, hfv⟩ := (C45_formulas hr' 0).1
  obtain ⟨f', hf', hfv'⟩ := (C45_formulas hgr 0).1
  refine ⟨r, f, hr', hgr, hf, ?_⟩
  rw [hf']
  congr 1
  funext j
  refine Prod.ext ?_ ?_
  · rw [(hfv j).1, (hfv' j).1, hgk, hgm, hmean, hk]
  · rw [(hfv j).2, (hfv' j).2, hgk, hk]

/-- Non-vacuity: a sparse model of counts on three inducing points (and a `q` that is not the prior), refined to five; and
regression on three times inside a sparse model with five inducing points, freshly constructed. -/
example : ∃ (K : Stationary 1 2) (k : ℝ → ℝ → Mat 1 1) (z' : Fin 5 → ℝ) (v : SVGP 2 1 2) (g : GPR 2 1 2)
    (c : SparseCVI 4 2) (q : SSM 4 2),
    v.Valid k ∧ v.likelihood = poissonLikelihood ∧ v.q.mu0 ≠ 0 ∧ StrictMono z' ∧ -10000000000 < z' 0 ∧
    z' (Fin.last 4) ≤ 10000000000 ∧ (∀ i, ∃ j, z' j = v.inducing i) ∧
    g.Valid k ∧ (g.meanFunction = fun _ => 0) ∧ g.cholObsCov = Real.sqrt 2 • 1 ∧ c.Valid k ∧ c.kernel = g.kernel ∧
    c.likelihood = gaussianLikelihood 2 ∧ c.learningRate = 1 ∧ c.distQ = .ok q ∧ (∀ i, ∃ j, c.inducing j = g.times i) ∧
    g.observations 1 ≠ 0 ∧ K = g.kernel := by
  obtain ⟨K, hK⟩ := (C28_constructors (o := 1) 2 3 1 1 1 0).2.1.2 (by norm_num)
  have hj : K.jitter = 0 := by rw [(kernelInit_ok hK).2.2]; rfl
  have hz' : StrictMono (![-1, 0, 1 / 2, 1, 3] : Fin 5 → ℝ) := by
    refine Fin.strictMono_iff_lt_succ.2 fun i => ?_
    fin_cases i <;> simp <;> norm_num
  have hz : StrictMono (![0, 1, 3] : Fin 3 → ℝ) := by
    refine Fin.strictMono_iff_lt_succ.2 fun i => ?_
    fin_cases i <;> simp
  have hsub : ∀ i : Fin 3, ∃ j : Fin 5, (![-1, 0, 1 / 2, 1, 3] : Fin 5 → ℝ) j = (![0, 1, 3] : Fin 3 → ℝ) i := by
    intro i
    fin_cases i
    exacts [⟨1, rfl⟩, ⟨3, rfl⟩, ⟨4, rfl⟩]
  have h0 : (-10000000000 : ℝ) < (![-1, 0, 1 / 2, 1, 3] : Fin 5 → ℝ) 0 := by
    show (-10000000000 : ℝ) < -1; norm_num
  have h1 : (![-1, 0, 1 / 2, 1, 3] : Fin 5 → ℝ) (Fin.last 4) ≤ 10000000000 := by
    show (3 : ℝ) ≤ 10000000000; norm_num
  obtain ⟨hcv, -, q, -, hq, -⟩ := C36_init (.leaf (.matern32 hK)) (.matern32 hK) hj hz' h0 h1 (by norm_num)
    (gaussianLikelihood 2) none 1
  refine ⟨K, _, _, ⟨K, poissonLikelihood, ![0, 1, 3], fun t => ![t], some 5,
      ⟨![1, 0], 1, fun _ => 1, fun _ => 0, fun _ => 1⟩⟩,
    ⟨![0, 1, 3], fun i => ![(i : ℝ)], K, fun _ => 0, Real.sqrt 2 • 1⟩, _, q,
    ⟨.leaf (.matern32 hK), .matern32 hK, hj, hz, ?_, ?_, by norm_num, ?_⟩, rfl, ?_, hz', h0, h1, hsub,
    ⟨.leaf (.matern32 hK), .matern32 hK, hj, hz, ⟨fun i j hij => ?_, fun i => ?_⟩, by norm_num⟩, rfl, rfl, hcv, rfl, rfl, rfl, hq,
    hsub, ?_, rfl⟩
  · show -10000000000 < (0 : ℝ); norm_num
  · show (3 : ℝ) ≤ 10000000000; norm_num
  · intro i
    refine Fin.cases ?_ (fun i => ?_) i <;>
    exact ⟨fun a b hab => Matrix.one_apply_ne hab.ne, fun a => (Matrix.one_apply_eq (α := ℝ) a).trans_ne one_ne_zero⟩
  · intro h; have := congrFun h 0; simp at this
  · simp [hij.ne]
  · simp
  · intro h; have := congrFun h 0; simp at this

end MF
