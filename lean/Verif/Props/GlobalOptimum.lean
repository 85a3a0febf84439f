import Verif.Lemmas.OptimumExists
import Verif.Props.LogConcave
import Verif.Props.CVINatGrad
import Verif.Props.SparseCVINatGrad

/-!
# C77: with a log-concave likelihood, a stationary point of the variational bound is its unique global maximum
-/

namespace MF
open Matrix Spec MeasureTheory ProbabilityTheory InformationTheory Filter Topology
variable {n o d p : ℕ}

/-- C77, variational GP: with a log-concave likelihood the gradient of `loss()` in the expectation parameters of `dist_q` vanishes exactly when no
other (non-degenerate) Gaussian Markov distribution has a larger `elbo()`, and then every distribution with an equal bound has the same law. -/
theorem C77_vgp {v : VGP n o d} {k} (h : v.Valid k) (he : ExactLikelihood v.likelihood) (hl : LogConcaveLikelihood v.likelihood)
    (hd : DifferentiableVarExp v.likelihood) (hem : ∀ t a, v.kernel.emission (v.times t) a ≠ 0) {η : ExpPar n d}
    (hη : ssmToExpectations v.q = .ok η) :
    ∃ e : SSM n d → ℝ, (∀ s : SSM n d, s.Nondegenerate → ({ v with q := s } : VGP n o d).elbo = .ok (e s)) ∧
      (IsGradient (lossOfExpectations v.lossOf) η 0 ↔ ∀ s : SSM n d, s.Nondegenerate → e s ≤ e v.q) ∧
      (IsGradient (lossOfExpectations v.lossOf) η 0 → ∀ s : SSM n d, s.Nondegenerate → e s = e v.q → s.law = v.q.law) := by
  obtain ⟨hc, -, -⟩ := Builds.good h.builds
  have e1 := ssmToExpectations_eq v.q h.q h.two hc.pos
  rw [hη] at e1
  obtain rfl : η = expPar v.q := Except.ok.inj e1
  obtain ⟨p, hp, hpn, -, hL⟩ := VGP.lossOf_eq h
  set H : Fin (n + 1) → Mat o d := fun t => v.kernel.emission (v.times t) with hH
  obtain ⟨k1, k2⟩ := elbo_stationary (q := v.q) (p := p) he hl hd h.q hpn (ι := Fin (n + 1) × Fin o) (outRow H)
    (α := fun i => siteNaturals H (unitSite i) 0) (β := fun i => siteNaturals H 0 (unitSite i))
    (κ := fun _ => 1) (b := fun i => v.meanFunction (v.times i.1) i.2) (r := fun _ => 0) (y := fun i => v.observations i.1 i.2) (L := v.lossOf)
    (fun i => siteNaturals_symDiag _ _ _) (fun i => siteNaturals_symDiag _ _ _)
    (fun i s => by rw [(pairing_unitSite H i s).1, outRow_mean]) (fun i s => by rw [(pairing_unitSite H i s).2, outRow_mean, outRow_var])
    (fun i => denseOf_unitSite1 H i) (fun i => denseOf_unitSite H i) (fun _ => zero_le_one) (fun _ => le_rfl)
    (fun i => by rw [outRow_var, add_zero]; exact out_var_pos h.q (hem i.1 i.2) i.1)
    (fun s hs => by
      rw [hL s hs]
      congr 1
      refine Finset.sum_congr rfl fun i _ => ?_
      rw [outRow_mean, outRow_var, one_mul, add_zero])
  refine ⟨fun s => -v.lossOf s, fun s hs => ?_, ?_, ?_⟩
  · obtain ⟨e, he1, he2⟩ := VGP.loss_ok (v := { v with q := s }) (k := k) ⟨h.builds, h.noise, h.jitter, h.times, h.lower, h.upper, h.two, hs⟩
    have : v.lossOf s = -e := by
      unfold VGP.lossOf
      rw [he2]
    beta_reduce
    rw [this, neg_neg, he1]
  · rw [k1]
    simp only [neg_le_neg_iff]
  · intro hg s hs hes
    exact k2 hg s hs (neg_injective hes)

theorem SVGP.scale_nonneg (v : SVGP n o d) (p : ℕ) : 0 ≤ v.scale p := by
  unfold SVGP.scale
  split <;> positivity

/-- C77, sparse variational GP: the same for `elbo((X, Y))` as a function of the distribution of the inducing states, for every minibatch. -/
theorem C77_svgp {v : SVGP n o d} {k} (h : v.Valid k) (he : ExactLikelihood v.likelihood) (hl : LogConcaveLikelihood v.likelihood)
    (hd : DifferentiableVarExp v.likelihood) {X : Fin p → ℝ} (h0 : ∀ j, -10000000000 < X j) (h1 : ∀ j, X j ≤ 10000000000)
    (hem : ∀ j a, v.kernel.emission (X j) a ≠ 0) (Y : Fin p → Vec o) {η : ExpPar n d} (hη : ssmToExpectations v.q = .ok η) :
    ∃ e : SSM n d → ℝ, (∀ s : SSM n d, s.Nondegenerate → ({ v with q := s } : SVGP n o d).elbo X Y = .ok (e s)) ∧
      (IsGradient (lossOfExpectations (v.lossOf X Y)) η 0 ↔ ∀ s : SSM n d, s.Nondegenerate → e s ≤ e v.q) ∧
      (IsGradient (lossOfExpectations (v.lossOf X Y)) η 0 → ∀ s : SSM n d, s.Nondegenerate → e s = e v.q → s.law = v.q.law) := by
  obtain ⟨hc, -, -⟩ := Builds.good h.builds
  have e1 := ssmToExpectations_eq v.q h.q h.two hc.pos
  rw [hη] at e1
  obtain rfl : η = expPar v.q := Except.ok.inj e1
  obtain ⟨fx, P, T, hf, hst⟩ := SVGP.stats_ok h h0 h1
  obtain ⟨s0, hs, hsn, hL⟩ := SVGP.lossOf_formula h h0 h1 Y hst
  have hpos := fun i a => row_var_pos h.builds h.noise h.jitter h.q h.times.monotone h0 h1 hst i a (hem i a)
  set J : Fin p → Fin (n + 2) := fun i => searchsortedLeft v.inducing (X i) with hJ
  obtain ⟨k1, k2⟩ := elbo_stationary (q := v.q) (p := s0) he hl hd h.q hsn (ι := Fin p × Fin o)
    (fun i => pairRow (projRow v.kernel X P i.1 i.2) (J i.1))
    (α := fun i : Fin p × Fin o => pairSiteNaturals (Pi.single (J i.1) (projRow v.kernel X P i.1 i.2)) 0)
    (β := fun i => pairSiteNaturals 0 (Pi.single (J i.1) (vecMulVec (projRow v.kernel X P i.1 i.2) (projRow v.kernel X P i.1 i.2))))
    (κ := fun _ => v.scale p) (b := fun i => v.meanFunction (X i.1) i.2) (r := fun i => restRow v.kernel v.inducing X P T i.1 i.2)
    (y := fun i => Y i.1 i.2) (L := v.lossOf X Y)
    (fun i => pairSiteNaturals_symDiag fun j => transpose_zero)
    (fun i => pairSiteNaturals_symDiag fun j => by
      by_cases hj : j = J i.1
      · rw [hj, Pi.single_eq_same, transpose_vecMulVec]
      · rw [Pi.single_eq_of_ne hj, transpose_zero])
    (fun i s => by rw [(pairing_single _ (J i.1) s).1, pairRow_mean])
    (fun i s => by rw [(pairing_single _ (J i.1) s).2, pairRow_mean, pairRow_var])
    (fun i => denseOf_zero_pair) (fun i => denseOf_pairRow _ _) (fun _ => SVGP.scale_nonneg v p)
    (fun i => restRow_nonneg h.builds h.noise h.jitter h.times.monotone h0 h1 hst i.1 i.2)
    (fun i => by rw [pairRow_var]; exact hpos i.1 i.2)
    (fun s hs => by
      rw [(hL s hs).2]
      congr 1
      refine Finset.sum_congr rfl fun i _ => ?_
      rw [pairRow_mean, pairRow_var])
  refine ⟨fun s => -v.lossOf X Y s, fun s hs => (hL s hs).1, ?_, ?_⟩
  · rw [k1]
    simp only [neg_le_neg_iff]
  · intro hg s hs hes
    exact k2 hg s hs (neg_injective hes)

/-- C77, CVI: with a log-concave likelihood, `update_sites()` leaves `dist_q` unchanged exactly when `classic_elbo()` is the largest bound that any
Gaussian Markov distribution attains on the data. -/
theorem C77_cvi {c : CVI n d} {k} (h : c.Valid k) (he : ExactLikelihood c.likelihood) (hl : LogConcaveLikelihood c.likelihood)
    (hd : DifferentiableVarExp c.likelihood) (hem : ∀ t, c.kernel.emission (c.times t) ≠ 0) (hr : c.learningRate ≠ 0) {q : SSM n d}
    (hq : c.distQ = .ok q) :
    ∃ e : ℝ, c.classicElbo = .ok e ∧
      ((∃ c' q', c.updateSites = .ok c' ∧ c'.distQ = .ok q' ∧ q'.law = q.law) ↔
        ∀ s : SSM n d, s.Nondegenerate → ∃ e', (c.toVGP s).elbo = .ok e' ∧ e' ≤ e) ∧
      ((∃ c' q', c.updateSites = .ok c' ∧ c'.distQ = .ok q' ∧ q'.law = q.law) →
        ∀ s : SSM n d, s.Nondegenerate → (c.toVGP s).elbo = .ok e → s.law = q.law) := by
  obtain ⟨hc, -, -⟩ := Builds.good h.builds
  obtain ⟨_, -, hq1, -⟩ := C34_dist_q h
  have hqn := (hq1 q hq).1
  have hη : ssmToExpectations q = .ok (expPar q) := ssmToExpectations_eq q hqn h.two hc.pos
  have hem' : ∀ t (a : Fin 1), (c.toVGP q).kernel.emission ((c.toVGP q).times t) a ≠ 0 := fun t a h0 => hem t (by
    funext b
    rw [Subsingleton.elim b a]; exact h0)
  obtain ⟨e, h1, h2, h3⟩ := C77_vgp (CVI.toVGP_valid h hqn) he hl hd hem' (η := expPar q) hη
  have hfix := C56_fixed_point h hd hem hr hq hη
  have h1' : ∀ s : SSM n d, s.Nondegenerate → (c.toVGP s).elbo = .ok (e s) := h1
  refine ⟨e q, by rw [C56_same_bound hq]; exact h1' q hqn, ?_, ?_⟩
  · rw [hfix, h2]
    constructor
    · intro hm s hs
      exact ⟨e s, h1' s hs, hm s hs⟩
    · intro hm s hs
      obtain ⟨e', b1, b2⟩ := hm s hs
      rw [h1' s hs] at b1
      rw [Except.ok.inj b1]
      exact b2
  · intro hf s hs hes
    rw [h1' s hs] at hes
    exact h3 (hfix.1 hf) s hs (Except.ok.inj hes)

/-- C77, sparse CVI: the same for `classic_elbo((X, Y))`, among all distributions of the inducing states. -/
theorem C77_sparse_cvi {c : SparseCVI n d} {k} (h : c.Valid k) (he : ExactLikelihood c.likelihood) (hl : LogConcaveLikelihood c.likelihood)
    (hd : DifferentiableVarExp c.likelihood) {X : Fin p → ℝ} (h0 : ∀ j, -10000000000 < X j) (h1 : ∀ j, X j ≤ 10000000000)
    (hem : ∀ j, c.kernel.emission (X j) ≠ 0) (Y : Fin p → Vec 1) (hr : c.learningRate ≠ 0) {q : SSM n d} (hq : c.distQ = .ok q) :
    ∃ e : ℝ, c.classicElbo X Y = .ok e ∧
      ((∃ c' q', c.updateSites X Y = .ok c' ∧ c'.distQ = .ok q' ∧ q'.law = q.law) ↔
        ∀ s : SSM n d, s.Nondegenerate → ∃ e', (c.toSVGP s).elbo X Y = .ok e' ∧ e' ≤ e) ∧
      ((∃ c' q', c.updateSites X Y = .ok c' ∧ c'.distQ = .ok q' ∧ q'.law = q.law) →
        ∀ s : SSM n d, s.Nondegenerate → (c.toSVGP s).elbo X Y = .ok e → s.law = q.law) := by
  obtain ⟨hc, -, -⟩ := Builds.good h.builds
  obtain ⟨_, -, -, hq1, -⟩ := C36_dist_q h
  have hqn := (hq1 q hq).1
  have hη : ssmToExpectations q = .ok (expPar q) := ssmToExpectations_eq q hqn h.two hc.pos
  have hem' : ∀ j (a : Fin 1), (c.toSVGP q).kernel.emission (X j) a ≠ 0 := fun t a h0 => hem t (by
    funext b
    rw [Subsingleton.elim b a]; exact h0)
  obtain ⟨e, g1, g2, g3⟩ := C77_svgp (SparseCVI.toSVGP_valid h hqn) he hl hd h0 h1 hem' Y (η := expPar q) hη
  have hfix := C56_sparse_fixed_point h hd h0 h1 hem Y hr hq hη
  have g1' : ∀ s : SSM n d, s.Nondegenerate → (c.toSVGP s).elbo X Y = .ok (e s) := g1
  refine ⟨e q, by rw [C56_sparse_same_bound hq]; exact g1' q hqn, ?_, ?_⟩
  · rw [hfix, g2]
    constructor
    · intro hm s hs
      exact ⟨e s, g1' s hs, hm s hs⟩
    · intro hm s hs
      obtain ⟨e', b1, b2⟩ := hm s hs
      rw [g1' s hs] at b1
      rw [Except.ok.inj b1]
      exact b2
  · intro hf s hs hes
    rw [g1' s hs] at hes
    exact g3 (hfix.1 hf) s hs (Except.ok.inj hes)

/-! ### the optimum exists -/

/-- C77, variational GP: there is exactly one best distribution. Some non-degenerate Gaussian Markov distribution has an `elbo()` at least that of
every other, strictly larger unless the laws agree. -/
theorem C77_vgp_exists {v : VGP n o d} {k} (h : v.Valid k) (he : ExactLikelihood v.likelihood) (hl : LogConcaveLikelihood v.likelihood)
    (hd : DifferentiableVarExp v.likelihood) (hem : ∀ t a, v.kernel.emission (v.times t) a ≠ 0) :
    ∃ (q : SSM n d) (e : ℝ), q.Nondegenerate ∧ ({ v with q := q } : VGP n o d).elbo = .ok e ∧
      ∀ s : SSM n d, s.Nondegenerate → ∃ e', ({ v with q := s } : VGP n o d).elbo = .ok e' ∧ e' ≤ e ∧ (e' = e → s.law = q.law) := by
  obtain ⟨hc, -, -⟩ := Builds.good h.builds
  obtain ⟨p, hp, hpn, -, hL⟩ := VGP.lossOf_eq h
  set H : Fin (n + 1) → Mat o d := fun t => v.kernel.emission (v.times t) with hH
  obtain ⟨q, hq, hmin⟩ := elbo_exists_min (p := p) he hl hd hpn (ι := Fin (n + 1) × Fin o) (outRow H)
    (κ := fun _ => 1) (b := fun i => v.meanFunction (v.times i.1) i.2) (r := fun _ => 0) (y := fun i => v.observations i.1 i.2) (L := v.lossOf)
    (fun _ => zero_le_one) (fun _ => le_rfl)
    (fun s hs i => by rw [outRow_var, add_zero]; exact out_var_pos hs (hem i.1 i.2) i.1)
    (fun s hs => by
      rw [hL s hs]
      congr 1
      refine Finset.sum_congr rfl fun i _ => ?_
      rw [outRow_mean, outRow_var, one_mul, add_zero])
  have hv : ({ v with q := q } : VGP n o d).Valid k := ⟨h.builds, h.noise, h.jitter, h.times, h.lower, h.upper, h.two, hq⟩
  obtain ⟨e, h1, h2, h3⟩ := C77_vgp hv he hl hd hem (η := expPar q) (ssmToExpectations_eq q hq h.two hc.pos)
  have hle : ∀ s : SSM n d, s.Nondegenerate → v.lossOf s = -e s := fun s hs => by
    have := h1 s hs
    have hv' : ({ v with q := s } : VGP n o d).Valid k := ⟨h.builds, h.noise, h.jitter, h.times, h.lower, h.upper, h.two, hs⟩
    obtain ⟨e', f1, f2⟩ := VGP.loss_ok hv'
    have f3 : e s = e' := Except.ok.inj (this.symm.trans f1)
    unfold VGP.lossOf
    rw [f2, f3]
  have hm : ∀ s : SSM n d, s.Nondegenerate → e s ≤ e q := fun s hs => by
    have := hmin s hs
    rw [hle s hs, hle q hq] at this
    linarith
  exact ⟨q, e q, hq, h1 q hq, fun s hs => ⟨e s, h1 s hs, hm s hs, h3 (h2.2 hm) s hs⟩⟩

/-- C77, sparse variational GP: there is exactly one best distribution of the inducing states, for every minibatch. -/
theorem C77_svgp_exists {v : SVGP n o d} {k} (h : v.Valid k) (he : ExactLikelihood v.likelihood) (hl : LogConcaveLikelihood v.likelihood)
    (hd : DifferentiableVarExp v.likelihood) {X : Fin p → ℝ} (h0 : ∀ j, -10000000000 < X j) (h1 : ∀ j, X j ≤ 10000000000)
    (hem : ∀ j a, v.kernel.emission (X j) a ≠ 0) (Y : Fin p → Vec o) :
    ∃ (q : SSM n d) (e : ℝ), q.Nondegenerate ∧ ({ v with q := q } : SVGP n o d).elbo X Y = .ok e ∧
      ∀ s : SSM n d, s.Nondegenerate → ∃ e', ({ v with q := s } : SVGP n o d).elbo X Y = .ok e' ∧ e' ≤ e ∧ (e' = e → s.law = q.law) := by
  obtain ⟨hc, -, -⟩ := Builds.good h.builds
  obtain ⟨fx, P, T, hf, hst⟩ := SVGP.stats_ok h h0 h1
  obtain ⟨s0, hs, hsn, hL⟩ := SVGP.lossOf_formula h h0 h1 Y hst
  set J : Fin p → Fin (n + 2) := fun i => searchsortedLeft v.inducing (X i) with hJ
  obtain ⟨q, hq, hmin⟩ := elbo_exists_min (p := s0) he hl hd hsn (ι := Fin p × Fin o)
    (fun i => pairRow (projRow v.kernel X P i.1 i.2) (J i.1))
    (κ := fun _ => v.scale p) (b := fun i => v.meanFunction (X i.1) i.2) (r := fun i => restRow v.kernel v.inducing X P T i.1 i.2)
    (y := fun i => Y i.1 i.2) (L := v.lossOf X Y) (fun _ => SVGP.scale_nonneg v p)
    (fun i => restRow_nonneg h.builds h.noise h.jitter h.times.monotone h0 h1 hst i.1 i.2)
    (fun s hs i => by
      rw [pairRow_var]
      exact row_var_pos h.builds h.noise h.jitter hs h.times.monotone h0 h1 hst i.1 i.2 (hem i.1 i.2))
    (fun s hs => by
      rw [(hL s hs).2]
      congr 1
      refine Finset.sum_congr rfl fun i _ => ?_
      rw [pairRow_mean, pairRow_var])
  have hv : ({ v with q := q } : SVGP n o d).Valid k := ⟨h.builds, h.noise, h.jitter, h.times, h.lower, h.upper, h.two, hq⟩
  obtain ⟨e, g1, g2, g3⟩ := C77_svgp hv he hl hd h0 h1 hem Y (η := expPar q) (ssmToExpectations_eq q hq h.two hc.pos)
  have hle : ∀ s : SSM n d, s.Nondegenerate → v.lossOf X Y s = -e s := fun s hs => by
    have f3 : e s = -v.lossOf X Y s := Except.ok.inj ((g1 s hs).symm.trans (hL s hs).1)
    rw [f3, neg_neg]
  have hm : ∀ s : SSM n d, s.Nondegenerate → e s ≤ e q := fun s hs => by
    have := hmin s hs
    rw [hle s hs, hle q hq] at this
    linarith
  exact ⟨q, e q, hq, g1 q hq, fun s hs => ⟨e s, g1 s hs, hm s hs, g3 (g2.2 hm) s hs⟩⟩

/-- C77, CVI: the optimum is reached by sites, and the fixed points of `update_sites()` all have its distribution. For every data set there are
sites whose `dist_q` is left unchanged by `update_sites()` and attains the largest bound of all Gaussian Markov distributions; whenever, with any other
sites, `update_sites()` leaves `dist_q` unchanged, that `dist_q` is the same distribution. -/
theorem C77_cvi_exists {c : CVI n d} {k} (h : c.Valid k) (he : ExactLikelihood c.likelihood) (hl : LogConcaveLikelihood c.likelihood)
    (hd : DifferentiableVarExp c.likelihood) (hem : ∀ t, c.kernel.emission (c.times t) ≠ 0) (hr : c.learningRate ≠ 0) :
    ∃ (best : UnivariateSites (n + 1)) (q : SSM n d) (e : ℝ), ({ c with sites := best } : CVI n d).distQ = .ok q ∧
      ({ c with sites := best } : CVI n d).classicElbo = .ok e ∧
      (∃ c' q', ({ c with sites := best } : CVI n d).updateSites = .ok c' ∧ c'.distQ = .ok q' ∧ q'.law = q.law) ∧
      (∀ s : SSM n d, s.Nondegenerate → ∃ e', (c.toVGP s).elbo = .ok e' ∧ e' ≤ e) ∧
      ∀ (sites : UnivariateSites (n + 1)) (q₂ : SSM n d), ({ c with sites := sites } : CVI n d).distQ = .ok q₂ →
        (∃ c' q', ({ c with sites := sites } : CVI n d).updateSites = .ok c' ∧ c'.distQ = .ok q' ∧ q'.law = q₂.law) → q₂.law = q.law := by
  obtain ⟨hc, -, -⟩ := Builds.good h.builds
  have hem' : ∀ (q : SSM n d) t (a : Fin 1), (c.toVGP q).kernel.emission ((c.toVGP q).times t) a ≠ 0 := fun q t a h0 => hem t (by
    funext b
    rw [Subsingleton.elim b a]; exact h0)
  obtain ⟨s0, hs0, hnd⟩ := kernel_ssm_nondegenerate h.builds h.noise h.two h.times
  obtain ⟨q0, e, hq0, he0, hmax⟩ := C77_vgp_exists (CVI.toVGP_valid h hnd) he hl hd (hem' s0)
  have hmax' : ∀ s : SSM n d, s.Nondegenerate → ∃ e', (c.toVGP s).elbo = .ok e' ∧ e' ≤ e ∧ (e' = e → s.law = q0.law) := hmax
  have he0' : (c.toVGP q0).elbo = .ok e := he0
  obtain ⟨p, η, m, var, hp, hη, -, hgr⟩ := C56_gradient (CVI.toVGP_valid h hq0) hd (hem' q0)
  replace hgr := isGradient_of_total hq0 h.two hc.pos hη hgr
  obtain ⟨eb, f1, f2, -⟩ := C77_vgp (CVI.toVGP_valid h hq0) he hl hd (hem' q0) hη
  have f1' : ∀ s : SSM n d, s.Nondegenerate → (c.toVGP s).elbo = .ok (eb s) := f1
  have hz := f2.2 fun s hs => by
    obtain ⟨e', a1, a2, -⟩ := hmax' s hs
    rw [Except.ok.inj ((f1' s hs).symm.trans a1)]
    exact a2.trans_eq (Except.ok.inj (he0'.symm.trans (f1' q0 hq0)))
  have hθ := sub_eq_zero.1 (IsGradient.unique hgr hz)
  have hθ' : ∃ (l1 l2 : Fin (n + 1) → Vec 1), ssmToNaturals q0 = ssmToNaturals p +
      siteNaturals (fun t => c.kernel.emission (c.times t)) l1 l2 := ⟨_, _, hθ⟩
  obtain ⟨l1, l2, hθ⟩ := hθ'
  have hp' : c.kernel.stateSpaceModel c.times = .ok p := hp
  obtain rfl : s0 = p := Except.ok.inj (hs0.symm.trans hp')
  set best : UnivariateSites (n + 1) := ⟨l1, fun t a _ => l2 t a⟩ with hbest
  have hval : ∀ sites, ({ c with sites := sites } : CVI n d).Valid k := fun sites =>
    ⟨h.builds, h.noise, h.jitter, h.times, h.lower, h.upper, h.two⟩
  have hdq := CVI.distQ_naturals (hval best) hs0 hnd
  have hth : ({ c with sites := best } : CVI n d).thetas s0 = ssmToNaturals q0 := by
    rw [hθ]; rfl
  rw [hth] at hdq
  obtain ⟨q, b1, b2, b3⟩ := C17_naturals_round_trip (ssmToNaturals q0).1 (ssmToNaturals q0).2.1 (ssmToNaturals q0).2.2 h.two hc.pos
    (symDiag_naturals hq0) (proper_of_ssm hq0)
  rw [b1] at hdq
  have hlaw : q.law = q0.law := law_of_naturals b2 hq0 b3
  have hge : ∀ s : SSM n d, s.Nondegenerate → ∃ e', (c.toVGP s).elbo = .ok e' ∧ e' ≤ e := fun s hs => by
    obtain ⟨e', a1, a2, -⟩ := hmax' s hs
    exact ⟨e', a1, a2⟩
  have heq : (c.toVGP q).elbo = .ok e := by
    obtain ⟨p1, -, -, -, hL⟩ := VGP.lossOf_eq (CVI.toVGP_valid h hq0)
    have hlo : (c.toVGP q0).lossOf q = (c.toVGP q0).lossOf q0 := by
      obtain ⟨m1, m2⟩ := mus_Kd_of_law hlaw
      have hlaw' : q.law = q0.law := hlaw
      rw [hL q b2, hL q0 hq0, m1, m2, hlaw']
    obtain ⟨e1, g1, g2⟩ := VGP.loss_ok (CVI.toVGP_valid h b2)
    obtain ⟨e2, g3, g4⟩ := VGP.loss_ok (CVI.toVGP_valid h hq0)
    have l1 : (c.toVGP q0).lossOf q = -e1 := by
      unfold VGP.lossOf
      rw [show ({ c.toVGP q0 with q := q } : VGP n 1 d) = c.toVGP q from rfl, g2]
    have l2 : (c.toVGP q0).lossOf q0 = -e2 := by
      unfold VGP.lossOf
      rw [show ({ c.toVGP q0 with q := q0 } : VGP n 1 d) = c.toVGP q0 from rfl, g4]
    rw [l1, l2, neg_inj] at hlo
    rw [g1, hlo, ← g3, he0']
  obtain ⟨e2, k1, k2, k3⟩ := C77_cvi (c := { c with sites := best }) (hval best) he hl hd hem hr hdq
  have ke : e2 = e := by
    rw [C56_same_bound hdq] at k1
    exact Except.ok.inj (k1.symm.trans heq)
  subst ke
  have hfix := k2.2 hge
  refine ⟨best, q, e2, hdq, k1, hfix, hge, fun sites q₂ hq₂ hf => ?_⟩
  obtain ⟨e3, m1, m2, m3⟩ := C77_cvi (c := { c with sites := sites }) (hval sites) he hl hd hem hr hq₂
  obtain ⟨_, -, hqq, -⟩ := C34_dist_q (hval sites)
  have hq₂n := (hqq q₂ hq₂).1
  rw [C56_same_bound hq₂] at m1
  obtain ⟨e4, n1, n2⟩ := m2.1 hf q b2
  obtain ⟨e5, n3, n4⟩ := hge q₂ hq₂n
  have r1 : e4 = e2 := Except.ok.inj (n1.symm.trans heq)
  have r2 : e5 = e3 := Except.ok.inj (n3.symm.trans m1)
  have r3 : e3 = e2 := le_antisymm (r2 ▸ n4) (r1 ▸ n2)
  exact (m3 hf q b2 (by rw [r3]; exact heq)).symm

/-- C77, sparse CVI: the same for the sites on the pairs of inducing states, for any data (symmetric `nat2`, as every update produces). -/
theorem C77_sparse_cvi_exists {c : SparseCVI n d} {k} (h : c.Valid k) (he : ExactLikelihood c.likelihood)
    (hl : LogConcaveLikelihood c.likelihood) (hd : DifferentiableVarExp c.likelihood) {X : Fin p → ℝ} (h0 : ∀ j, -10000000000 < X j)
    (h1 : ∀ j, X j ≤ 10000000000) (hem : ∀ j, c.kernel.emission (X j) ≠ 0) (Y : Fin p → Vec 1) (hr : c.learningRate ≠ 0) :
    ∃ (b1 : Fin (n + 2) → Fin d ⊕ Fin d → ℝ) (b2 : Fin (n + 2) → Matrix (Fin d ⊕ Fin d) (Fin d ⊕ Fin d) ℝ) (q : SSM n d) (e : ℝ),
      ({ c with nat1 := b1, nat2 := b2 } : SparseCVI n d).Valid k ∧
      ({ c with nat1 := b1, nat2 := b2 } : SparseCVI n d).distQ = .ok q ∧
      ({ c with nat1 := b1, nat2 := b2 } : SparseCVI n d).classicElbo X Y = .ok e ∧
      (∃ c' q', ({ c with nat1 := b1, nat2 := b2 } : SparseCVI n d).updateSites X Y = .ok c' ∧ c'.distQ = .ok q' ∧ q'.law = q.law) ∧
      (∀ s : SSM n d, s.Nondegenerate → ∃ e', (c.toSVGP s).elbo X Y = .ok e' ∧ e' ≤ e) ∧
      ∀ n1 n2 (q₂ : SSM n d), (∀ j, (n2 j)ᵀ = n2 j) → ({ c with nat1 := n1, nat2 := n2 } : SparseCVI n d).distQ = .ok q₂ →
        (∃ c' q', ({ c with nat1 := n1, nat2 := n2 } : SparseCVI n d).updateSites X Y = .ok c' ∧ c'.distQ = .ok q' ∧ q'.law = q₂.law) →
        q₂.law = q.law := by
  obtain ⟨hc, -, -⟩ := Builds.good h.builds
  have hem' : ∀ (q : SSM n d) j (a : Fin 1), (c.toSVGP q).kernel.emission (X j) a ≠ 0 := fun q t a h0 => hem t (by
    funext b
    rw [Subsingleton.elim b a]; exact h0)
  obtain ⟨s0, hs0, hnd⟩ := kernel_ssm_nondegenerate h.builds h.noise h.two h.times
  obtain ⟨q0, e, hq0, he0, hmax⟩ := C77_svgp_exists (SparseCVI.toSVGP_valid h hnd) he hl hd h0 h1 (hem' s0) Y
  have hmax' : ∀ s : SSM n d, s.Nondegenerate → ∃ e', (c.toSVGP s).elbo X Y = .ok e' ∧ e' ≤ e ∧ (e' = e → s.law = q0.law) := hmax
  have he0' : (c.toSVGP q0).elbo X Y = .ok e := he0
  obtain ⟨p, η, fx, P, T, hp, hη, -, hst, -, hgr⟩ := C56_sparse_gradient h hd hq0 h0 h1 hem Y
  replace hgr := isGradient_of_total hq0 h.two hc.pos hη (hgr _ (fun _ => rfl) _ (fun _ => rfl))
  obtain ⟨eb, f1, f2, -⟩ := C77_svgp (SparseCVI.toSVGP_valid h hq0) he hl hd h0 h1 (hem' q0) Y hη
  have f1' : ∀ s : SSM n d, s.Nondegenerate → (c.toSVGP s).elbo X Y = .ok (eb s) := f1
  have hz := f2.2 fun s hs => by
    obtain ⟨e', a1, a2, -⟩ := hmax' s hs
    rw [Except.ok.inj ((f1' s hs).symm.trans a1)]
    exact a2.trans_eq (Except.ok.inj (he0'.symm.trans (f1' q0 hq0)))
  have hθ := sub_eq_zero.1 (IsGradient.unique hgr hz)
  have hθ' : ∃ (l1 : Fin (n + 2) → Fin d ⊕ Fin d → ℝ) (l2 : Fin (n + 2) → Matrix (Fin d ⊕ Fin d) (Fin d ⊕ Fin d) ℝ),
      (∀ j, (l2 j)ᵀ = l2 j) ∧ ssmToNaturals q0 = ssmToNaturals p + pairSiteNaturals l1 l2 := by
    refine ⟨_, _, fun j => ?_, hθ⟩
    rw [transpose_sum]
    exact Finset.sum_congr rfl fun i _ => by rw [transpose_smul, transpose_vecMulVec]
  obtain ⟨l1, l2, hsy, hθ⟩ := hθ'
  obtain rfl : s0 = p := Except.ok.inj (hs0.symm.trans hp)
  have hval : ∀ n1 n2, (∀ j, (n2 j)ᵀ = n2 j) → ({ c with nat1 := n1, nat2 := n2 } : SparseCVI n d).Valid k := fun n1 n2 hs =>
    ⟨h.builds, h.noise, h.jitter, h.times, h.lower, h.upper, h.two, hs⟩
  have hdq := SparseCVI.distQ_naturals (hval l1 l2 hsy) hs0 hnd
  have hth : ({ c with nat1 := l1, nat2 := l2 } : SparseCVI n d).thetas s0 = ssmToNaturals q0 := by
    rw [hθ]; rfl
  rw [hth] at hdq
  obtain ⟨q, b1, b2, b3⟩ := C17_naturals_round_trip (ssmToNaturals q0).1 (ssmToNaturals q0).2.1 (ssmToNaturals q0).2.2 h.two hc.pos
    (symDiag_naturals hq0) (proper_of_ssm hq0)
  rw [b1] at hdq
  have hlaw : q.law = q0.law := law_of_naturals b2 hq0 b3
  have hge : ∀ s : SSM n d, s.Nondegenerate → ∃ e', (c.toSVGP s).elbo X Y = .ok e' ∧ e' ≤ e := fun s hs => by
    obtain ⟨e', a1, a2, -⟩ := hmax' s hs
    exact ⟨e', a1, a2⟩
  have heq : (c.toSVGP q).elbo X Y = .ok e := by
    have hlo := SVGP.ofLaw (SparseCVI.toSVGP_valid h hq0) h0 h1 Y hst q q0 b2 hq0 hlaw
    obtain ⟨s', -, -, hL⟩ := SVGP.lossOf_formula (SparseCVI.toSVGP_valid h hq0) h0 h1 Y hst
    have g1 : (c.toSVGP q).elbo X Y = .ok (-(c.toSVGP q0).lossOf X Y q) := (hL q b2).1
    have g2 : (c.toSVGP q0).elbo X Y = .ok (-(c.toSVGP q0).lossOf X Y q0) := (hL q0 hq0).1
    rw [g1, hlo, ← g2, he0']
  obtain ⟨e2, k1, k2, k3⟩ := C77_sparse_cvi (c := { c with nat1 := l1, nat2 := l2 }) (hval l1 l2 hsy) he hl hd h0 h1 hem Y hr hdq
  have ke : e2 = e := by
    rw [C56_sparse_same_bound hdq] at k1
    exact Except.ok.inj (k1.symm.trans heq)
  subst ke
  refine ⟨l1, l2, q, e2, hval l1 l2 hsy, hdq, k1, k2.2 hge, hge, fun n1 n2 q₂ hn hq₂ hf => ?_⟩
  obtain ⟨e3, m1, m2, m3⟩ := C77_sparse_cvi (c := { c with nat1 := n1, nat2 := n2 }) (hval n1 n2 hn) he hl hd h0 h1 hem Y hr hq₂
  obtain ⟨_, -, -, hqq, -⟩ := C36_dist_q (hval n1 n2 hn)
  have hq₂n := (hqq q₂ hq₂).1
  rw [C56_sparse_same_bound hq₂] at m1
  obtain ⟨e4, n1', n2'⟩ := m2.1 hf q b2
  obtain ⟨e5, n3, n4⟩ := hge q₂ hq₂n
  have r1 : e4 = e2 := Except.ok.inj (n1'.symm.trans heq)
  have r2 : e5 = e3 := Except.ok.inj (n3.symm.trans m1)
  have r3 : e3 = e2 := le_antisymm (r2 ▸ n4) (r1 ▸ n2')
  exact (m3 hf q b2 (by rw [r3]; exact heq)).symm

/-- Non-vacuity: CVI on three counts with a Poisson likelihood and a Matérn kernel meets the hypotheses, so its bound has exactly one maximiser and
`update_sites()` exactly one fixed point. -/
example (r : ℝ) (hr : r ≠ 0) : ∃ (c : CVI 2 2) (best : UnivariateSites 3) (q : SSM 2 2), c.learningRate = r ∧ c.likelihood = poissonLikelihood ∧
    ({ c with sites := best } : CVI 2 2).distQ = .ok q ∧
    ∀ (sites : UnivariateSites 3) (q₂ : SSM 2 2), ({ c with sites := sites } : CVI 2 2).distQ = .ok q₂ →
      (∃ c' q', ({ c with sites := sites } : CVI 2 2).updateSites = .ok c' ∧ c'.distQ = .ok q' ∧ q'.law = q₂.law) → q₂.law = q.law := by
  obtain ⟨K, hK⟩ := (C28_constructors (o := 1) 2 3 1 1 1 0).2.1.2 (by norm_num)
  have hB : ∃ k, Builds K k := ⟨_, .leaf (.matern32 hK)⟩
  obtain ⟨k, hB⟩ := hB
  have hv : (CVI.init ![0, 1, 3] (fun i => ![(i : ℝ)]) K poissonLikelihood none r : CVI 2 2).Valid k := by
    refine ⟨hB, .matern32 hK, by show K.jitter = 0; rw [(kernelInit_ok hK).2.2]; rfl, ?_, ?_, ?_, by norm_num⟩
    · refine Fin.strictMono_iff_lt_succ.2 fun i => ?_
      fin_cases i <;> simp [CVI.init] <;> norm_num
    · show -10000000000 < (0 : ℝ); norm_num
    · show (3 : ℝ) ≤ 10000000000; norm_num
  obtain ⟨best, q, e, h1, -, -, -, h2⟩ := C77_cvi_exists hv poissonLikelihood_exact poissonLikelihood_logConcave poisson_differentiable
    (fun t h => by
      have := congrFun (congrFun h 0) 0
      rw [show (CVI.init ![0, 1, 3] (fun i => ![(i : ℝ)]) K poissonLikelihood none r : CVI 2 2).kernel = K from rfl, (kernelInit_ok hK).2.2] at this
      exact one_ne_zero this) hr
  exact ⟨_, best, q, rfl, rfl, h1, h2⟩

end MF
