import Verif.Lemmas.Descent
import Verif.Props.CVINatGrad
import Verif.Props.SparseCVINatGrad

/-!
# C68: small enough natural gradient steps, and CVI updates, make progress
-/

namespace MF
open Matrix Spec MeasureTheory ProbabilityTheory InformationTheory Filter Topology
variable {n o d p : ℕ}

/-- Along the line of natural parameters against the gradient the loss decreases, near its start. -/
theorem descent {L : SSM n d → ℝ} (hL : OfLaw L) {q : SSM n d} (hq : q.Nondegenerate) (hn : 0 < n) (hd : 0 < d) {η g : ExpPar n d}
    (hη : ssmToExpectations q = .ok η) (hg : IsTotalGradient (lossOfExpectations L) η g) (h0 : g ≠ 0) :
    ∃ ε : ℝ, 0 < ε ∧ ∀ γ : ℝ, 0 < γ → γ < ε → ProperNaturals (ssmToNaturals q - γ • g) ∧
      ∀ q' : SSM n d, q'.Nondegenerate → ssmToNaturals q' = ssmToNaturals q - γ • g → L q' < L q := by
  have e := ssmToExpectations_eq q hq hn hd
  rw [hη] at e
  obtain rfl : η = expPar q := Except.ok.inj e
  have hsg : SymDiag ((-1 : ℝ) • g) := SymDiag.smul hg.1 _
  obtain ⟨c, c', c0, cs, cv, cp, cev, cx⟩ := naturals_line hq hsg
  have hne : (-1 : ℝ) • g ≠ 0 := fun h => h0 (by simpa using h)
  have hpos := cp hne
  rw [pairing_smul_left] at hpos
  have hder := hg.2 c c' c0 cs cv
  have hlt : ∀ᶠ t in 𝓝[>] (0 : ℝ), lossOfExpectations L (c t) < lossOfExpectations L (c 0) := by
    have hs := (hasDerivAt_iff_tendsto_slope.1 hder)
    have hs' : Tendsto (slope (fun t => lossOfExpectations L (c t)) 0) (𝓝[>] 0) (𝓝 (pairing g c')) :=
      hs.mono_left (nhdsWithin_mono _ fun x (hx : 0 < x) => ne_of_gt hx)
    have hneg : pairing g c' < 0 := by linarith
    filter_upwards [hs'.eventually (eventually_lt_nhds hneg), self_mem_nhdsWithin] with t ht (htp : 0 < t)
    rw [slope_def_field, sub_zero] at ht
    have := (div_neg_iff.1 ht).resolve_left (fun h => absurd h.2 (not_lt.2 htp.le))
    linarith [this.1]
  have hall := hlt.and (cev.filter_mono (nhdsWithin_le_nhds (s := Set.Ioi (0 : ℝ))))
  obtain ⟨ε, hε, hsub⟩ := mem_nhdsGT_iff_exists_Ioo_subset.1 hall
  refine ⟨ε, hε, fun γ h1 h2 => ?_⟩
  obtain ⟨a1, a2⟩ := hsub ⟨h1, h2⟩
  have hθ : ssmToNaturals q + γ • (-1 : ℝ) • g = ssmToNaturals q - γ • g := by module
  rw [hθ] at a2
  refine ⟨a2, fun q' hq' hqe => ?_⟩
  have := cx γ q' hq' (by rw [hθ]; exact hqe)
  rw [c0, ← this, lossOfExpectations_expPar hL hq', lossOfExpectations_expPar hL hq] at a1
  exact a1

/-- C68: a natural gradient step with a small enough rate succeeds and strictly decreases the loss, for any loss that is a property of
the distribution and has a gradient (in the strong sense) that is not zero; the optimiser's state does not change. -/
theorem C68_step {L : SSM n d → ℝ} (hL : OfLaw L) {q : SSM n d} (hq : q.Nondegenerate) (hn : 0 < n) (hd : 0 < d) {η g : ExpPar n d}
    (hη : ssmToExpectations q = .ok η) (hg : IsTotalGradient (lossOfExpectations L) η g) (h0 : g ≠ 0) (gθ : ExpPar n d) :
    ∃ ε : ℝ, 0 < ε ∧ ∀ opt : NatGrad n d, opt.momentum = false → 0 < opt.gamma → opt.gamma < ε →
      ∃ q', opt.step q g gθ = .ok (opt, q') ∧ q'.Nondegenerate ∧ L q' < L q := by
  obtain ⟨ε, hε, hs⟩ := descent hL hq hn hd hη hg h0
  refine ⟨ε, hε, fun opt hm h1 h2 => ?_⟩
  obtain ⟨a1, a2⟩ := hs opt.gamma h1 h2
  obtain ⟨q', b1, b2, b3⟩ := (C39_step opt hm hq hn hd g gθ hg.1).1 a1
  exact ⟨q', b1, b2, a2 q' b2 b3⟩

/-- C68: conversely, where the gradient is zero a step of any rate leaves the distribution, hence the loss, as it is. -/
theorem C68_stationary {L : SSM n d → ℝ} (hL : OfLaw L) {q : SSM n d} (hq : q.Nondegenerate) (hn : 0 < n) (hd : 0 < d)
    (gθ : ExpPar n d) (opt : NatGrad n d) (hm : opt.momentum = false) :
    ∃ q', opt.step q 0 gθ = .ok (opt, q') ∧ q'.law = q.law ∧ L q' = L q := by
  obtain ⟨s1, -⟩ := C39_step opt hm hq hn hd 0 gθ (fun _ => by simp)
  rw [smul_zero, sub_zero] at s1
  obtain ⟨q', f1, f2, f3⟩ := s1 (proper_of_ssm hq)
  have hl := law_of_naturals f2 hq f3
  exact ⟨q', f1, hl, hL _ _ f2 hq hl⟩

/-- C68: the first call of a fresh optimiser with momentum. It goes in the same direction, so with a small enough rate it strictly decreases the
loss, if the number used as the squared norm is not negative (which C39 shows it can be). -/
theorem C68_momentum_first {L : SSM n d → ℝ} (hL : OfLaw L) {q : SSM n d} (hq : q.Nondegenerate) (hn : 0 < n) (hd : 0 < d)
    {η g : ExpPar n d} (hη : ssmToExpectations q = .ok η) (hg : IsTotalGradient (lossOfExpectations L) η g) (h0 : g ≠ 0)
    (gθ : ExpPar n d) {beta1 beta2 epsilon : ℝ} (hb1 : beta1 < 1) (hb2 : beta2 < 1) (hep : 0 < epsilon)
    (hnorm : 0 ≤ pairing g gθ + ∑ k, ∑ i, ∑ j, g.2.2 k i j * gθ.2.2 k i j) :
    ∃ ε : ℝ, 0 < ε ∧ ∀ γ : ℝ, 0 < γ → γ < ε →
      ∃ opt' q', (NatGrad.init γ true beta1 beta2 epsilon).step q g gθ = .ok (opt', q') ∧ q'.Nondegenerate ∧ L q' < L q := by
  obtain ⟨ε, hε, hs⟩ := descent hL hq hn hd hη hg h0
  set v' : ℝ := beta2 * 0 + (1 - beta2) * (pairing g gθ + ∑ k, ∑ i, ∑ j, g.2.2 k i j * gθ.2.2 k i j) with hv'
  have hv0 : 0 ≤ v' := by
    rw [hv', mul_zero, zero_add]; exact mul_nonneg (by linarith) hnorm
  set C : ℝ := Real.sqrt (1 - beta2) / (Real.sqrt v' + epsilon) with hC
  have hCp : 0 < C := div_pos (Real.sqrt_pos.2 (by linarith)) (by have := Real.sqrt_nonneg v'; linarith)
  refine ⟨ε / C, div_pos hε hCp, fun γ h1 h2 => ?_⟩
  obtain ⟨a1, a2⟩ := hs (γ * C) (mul_pos h1 hCp) ((lt_div_iff₀ hCp).1 h2)
  set opt : NatGrad n d := NatGrad.init γ true beta1 beta2 epsilon with ho
  have hθ : ssmToNaturals q - (γ * C) • g = ssmToNaturals q - (opt.gamma * Real.sqrt (1 - opt.beta2 ^ opt.stepCounter) /
      (1 - opt.beta1 ^ opt.stepCounter) / (Real.sqrt v' + opt.epsilon)) • (opt.beta1 • opt.ms + (1 - opt.beta1) • g) := by
    have hb : (1 : ℝ) - beta1 ≠ 0 := by linarith
    show ssmToNaturals q - (γ * C) • g = ssmToNaturals q - (γ * Real.sqrt (1 - beta2 ^ 1) / (1 - beta1 ^ 1) / (Real.sqrt v' + epsilon)) •
      (beta1 • (0 : ExpPar n d) + (1 - beta1) • g)
    rw [smul_zero, zero_add, smul_smul, pow_one, pow_one, hC]
    congr 2
    field_simp
  obtain ⟨-, -, b⟩ := C39_momentum_step opt rfl hq hn hd g gθ hg.1 (fun _ => by show (0 : Mat d d)ᵀ = 0; simp) _ _ v' rfl rfl hθ
  obtain ⟨q', b1, b2, b3⟩ := b hv0 a1
  exact ⟨_, q', b1, b2, a2 q' b2 b3⟩

/-- C68: the strong sense of gradient implies the gradient as directional derivatives that C39 and C56 speak of, and there is only one. -/
theorem C68_total_gradient {q : SSM n d} (hq : q.Nondegenerate) (hn : 0 < n) (hd : 0 < d) {f : ExpPar n d → ℝ} {η g g' : ExpPar n d}
    (hη : ssmToExpectations q = .ok η) (h : IsTotalGradient f η g) : IsGradient f η g ∧ (IsGradient f η g' → g' = g) := by
  have := isGradient_of_total hq hn hd hη h
  exact ⟨this, fun h' => IsGradient.unique h' this⟩

/-! ### the variational GP -/

theorem mus_Kd_of_law {s s' : SSM n d} (h : s.law = s'.law) : s.mus = s'.mus ∧ s.Kd = s'.Kd := by
  rw [SSM.law_eq_gauss, SSM.law_eq_gauss] at h
  obtain ⟨h1, h2⟩ := (SSM.gaussLaw_inj s.Kd_posSemidef s'.Kd_posSemidef).1 h
  exact ⟨by funext t i; exact congrFun h1 (t, i), h2⟩

theorem VGP.ofLaw {v : VGP n o d} {k} (h : v.Valid k) : OfLaw v.lossOf := by
  obtain ⟨p, -, -, -, hL⟩ := VGP.lossOf_eq h
  intro s s' hs hs' he
  obtain ⟨h1, h2⟩ := mus_Kd_of_law he
  have he' : s.law = s'.law := he
  rw [hL s hs, hL s' hs', h1, h2, he']

/-- C68: natural gradient descent on a variational GP, any differentiable likelihood. With the gradient `g` of `loss()` in the expectation
parameters of `dist_q`: either `g = 0`, or all steps with small enough rates succeed and strictly increase `elbo()`. -/
theorem C68_vgp {v : VGP n o d} {k} (h : v.Valid k) (hlik : DifferentiableVarExp v.likelihood)
    (hem : ∀ t a, v.kernel.emission (v.times t) a ≠ 0) {η g : ExpPar n d} (hη : ssmToExpectations v.q = .ok η)
    (hg : IsGradient (lossOfExpectations v.lossOf) η g) (gθ : ExpPar n d) :
    g = 0 ∨ ∃ ε : ℝ, 0 < ε ∧ ∀ opt : NatGrad n d, opt.momentum = false → 0 < opt.gamma → opt.gamma < ε →
      ∃ q' e e', opt.step v.q g gθ = .ok (opt, q') ∧ v.elbo = .ok e ∧ ({ v with q := q' } : VGP n o d).elbo = .ok e' ∧ e < e' := by
  obtain ⟨hco, -, -⟩ := Builds.good h.builds
  obtain ⟨_, η', _, _, -, hη', -, hgr⟩ := C56_gradient h hlik hem
  obtain rfl : η = η' := Except.ok.inj (hη.symm.trans hη')
  have hu := (C68_total_gradient h.q h.two hco.pos hη hgr).2 hg
  rw [← hu] at hgr
  by_cases h0 : g = 0
  · exact .inl h0
  refine .inr ?_
  obtain ⟨ε, hε, hs⟩ := C68_step (VGP.ofLaw h) h.q h.two hco.pos hη hgr h0 gθ
  refine ⟨ε, hε, fun opt hm h1 h2 => ?_⟩
  obtain ⟨q', a1, a2, a3⟩ := hs opt hm h1 h2
  have hv : ({ v with q := q' } : VGP n o d).Valid k :=
    ⟨h.builds, h.noise, h.jitter, h.times, h.lower, h.upper, h.two, a2⟩
  obtain ⟨e, e1, e2⟩ := VGP.loss_ok h
  obtain ⟨e', f1, f2⟩ := VGP.loss_ok hv
  refine ⟨q', e, e', a1, e1, f1, ?_⟩
  unfold VGP.lossOf at a3
  rw [f2, show ({ v with q := v.q } : VGP n o d) = v from rfl, e2] at a3
  have : -e' < -e := a3
  linarith

/-- C68: CVI, any differentiable likelihood. Either no learning rate moves `dist_q`, or every small enough rate makes `update_sites()` succeed
and strictly increase `classic_elbo()`. -/
theorem C68_cvi {c : CVI n d} {k} (h : c.Valid k) (hlik : DifferentiableVarExp c.likelihood)
    (hem : ∀ t, c.kernel.emission (c.times t) ≠ 0) {q : SSM n d} (hq : c.distQ = .ok q) :
    (∀ r : ℝ, ∃ c' q', ({ c with learningRate := r } : CVI n d).updateSites = .ok c' ∧ c'.distQ = .ok q' ∧ q'.law = q.law) ∨
    ∃ ε : ℝ, 0 < ε ∧ ∀ r : ℝ, 0 < r → r < ε → ∃ c' e e', ({ c with learningRate := r } : CVI n d).updateSites = .ok c' ∧
      c.classicElbo = .ok e ∧ c'.classicElbo = .ok e' ∧ e < e' := by
  obtain ⟨hco, -, -⟩ := Builds.good h.builds
  obtain ⟨_, -, hq1, -⟩ := C34_dist_q h
  have hqn := (hq1 q hq).1
  have hem' : ∀ t (a : Fin 1), (c.toVGP q).kernel.emission ((c.toVGP q).times t) a ≠ 0 := fun t a h0 => hem t (by
    funext b
    rw [Subsingleton.elim b a]; exact h0)
  have hV := CVI.toVGP_valid h hqn
  obtain ⟨s, η, m, var, hs, hη, hmv, hgt⟩ := C56_gradient hV hlik hem'
  generalize hgd : (ssmToNaturals (c.toVGP q).q - (ssmToNaturals s + _)) = g at hgt
  have hgr := isGradient_of_total hqn h.two hco.pos hη hgt
  have step : ∀ r : ℝ, ∃ c', ({ c with learningRate := r } : CVI n d).updateSites = .ok c' ∧
      (NatGrad.init r false 0 0 0).step q g 0 = c'.distQ.map fun q' => (NatGrad.init r false 0 0 0, q') := fun r =>
    C56_step (c := { c with learningRate := r }) ⟨h.builds, h.noise, h.jitter, h.times, h.lower, h.upper, h.two⟩ hlik hem hq hη hgr
      (NatGrad.init r false 0 0 0) rfl rfl 0
  have out : ∀ {c' : CVI n d} {o1 : NatGrad n d} {q' : SSM n d}, (.ok (o1, q') : Except Err _) = c'.distQ.map (fun q' => (o1, q')) →
      c'.distQ = .ok q' := fun {c' o1 q'} he => by
    cases h3 : c'.distQ with
    | error e => rw [h3] at he; cases he
    | ok q2 => rw [h3] at he; exact congrArg Except.ok (congrArg Prod.snd (Except.ok.inj he)).symm
  rcases C68_vgp hV hlik hem' hη hgr 0 with h0 | ⟨ε, hε, hst⟩
  · refine .inl fun r => ?_
    obtain ⟨c', b1, b2⟩ := step r
    obtain ⟨q', f1, f2, -⟩ := C68_stationary (VGP.ofLaw hV) hqn h.two hco.pos 0 (NatGrad.init r false 0 0 0) rfl
    rw [h0, f1] at b2
    exact ⟨c', q', b1, out b2, f2⟩
  · refine .inr ⟨ε, hε, fun r r0 r1 => ?_⟩
    obtain ⟨c', b1, b2⟩ := step r
    obtain ⟨q', e, e', f1, f2, f3, f4⟩ := hst (NatGrad.init r false 0 0 0) rfl r0 r1
    rw [show (c.toVGP q).q = q from rfl, b2] at f1
    have hq' := out f1.symm
    refine ⟨c', e, e', b1, (C56_same_bound hq).trans f2, (C56_same_bound hq').trans ?_, f4⟩
    have hc' : c'.toVGP q' = c.toVGP q' := by
      obtain ⟨c2, _, _, e1, -, e2, -⟩ := C34_update (c := { c with learningRate := r })
        ⟨h.builds, h.noise, h.jitter, h.times, h.lower, h.upper, h.two⟩ hq
      obtain rfl : c' = c2 := Except.ok.inj (b1.symm.trans e1)
      rw [e2]; rfl
    rw [hc']
    exact f3

/-! ### the sparse models -/

/-- C68: the sparse CVI model, any differentiable likelihood and any minibatch. Either no learning rate moves `dist_q`, or every small enough
rate makes `update_sites((X, Y))` succeed and strictly increase `classic_elbo((X, Y))` of the same minibatch. -/
theorem C68_sparse_cvi {c : SparseCVI n d} {k} (h : c.Valid k) (hlik : DifferentiableVarExp c.likelihood)
    {X : Fin p → ℝ} (h0 : ∀ j, -10000000000 < X j) (h1 : ∀ j, X j ≤ 10000000000) (hem : ∀ j, c.kernel.emission (X j) ≠ 0)
    (Y : Fin p → Vec 1) {q : SSM n d} (hq : c.distQ = .ok q) :
    (∀ r : ℝ, ∃ c' q', ({ c with learningRate := r } : SparseCVI n d).updateSites X Y = .ok c' ∧ c'.distQ = .ok q' ∧ q'.law = q.law) ∨
    ∃ ε : ℝ, 0 < ε ∧ ∀ r : ℝ, 0 < r → r < ε → ∃ c' e e', ({ c with learningRate := r } : SparseCVI n d).updateSites X Y = .ok c' ∧
      c.classicElbo X Y = .ok e ∧ c'.classicElbo X Y = .ok e' ∧ e < e' := by
  obtain ⟨hco, -, -⟩ := Builds.good h.builds
  obtain ⟨_, -, -, hq1, -⟩ := C36_dist_q h
  have hqn := (hq1 q hq).1
  obtain ⟨s', η, fx, P, T, hs', hη, hf, hst, -, hgt⟩ := C56_sparse_gradient h hlik hqn h0 h1 hem Y
  have hgt := hgt _ (fun _ => rfl) _ (fun _ => rfl)
  generalize hgd : (ssmToNaturals q - (ssmToNaturals s' + _)) = g at hgt
  have hgr := isGradient_of_total hqn h.two hco.pos hη hgt
  obtain ⟨s, hs, hsn, hL⟩ := SVGP.lossOf_eq h h0 h1 Y hst q
  have hOf : OfLaw ((c.toSVGP q).lossOf X Y) := by
    intro a b ha hb he
    obtain ⟨m1, m2⟩ := mus_Kd_of_law he
    have he' : a.law = b.law := he
    rw [(hL a ha).2, (hL b hb).2, m1, m2, he']
  have step : ∀ r : ℝ, ∃ c', ({ c with learningRate := r } : SparseCVI n d).updateSites X Y = .ok c' ∧
      (NatGrad.init r false 0 0 0).step q g 0 = c'.distQ.map fun q' => (NatGrad.init r false 0 0 0, q') := fun r =>
    C56_sparse_step (c := { c with learningRate := r }) ⟨h.builds, h.noise, h.jitter, h.times, h.lower, h.upper, h.two, h.symm⟩ hlik h0 h1 hem Y
      hq hη hgr (NatGrad.init r false 0 0 0) rfl rfl 0
  have out : ∀ {c' : SparseCVI n d} {o1 : NatGrad n d} {q' : SSM n d}, (.ok (o1, q') : Except Err _) = c'.distQ.map (fun q' => (o1, q')) →
      c'.distQ = .ok q' := fun {c' o1 q'} he => by
    cases h3 : c'.distQ with
    | error e => rw [h3] at he; cases he
    | ok q2 => rw [h3] at he; exact congrArg Except.ok (congrArg Prod.snd (Except.ok.inj he)).symm
  by_cases hg0 : g = 0
  · refine .inl fun r => ?_
    obtain ⟨c', b1, b2⟩ := step r
    obtain ⟨q', f1, f2, -⟩ := C68_stationary hOf hqn h.two hco.pos 0 (NatGrad.init r false 0 0 0) rfl
    rw [hg0, f1] at b2
    exact ⟨c', q', b1, out b2, f2⟩
  · obtain ⟨ε, hε, hst'⟩ := C68_step hOf hqn h.two hco.pos hη hgt hg0 0
    refine .inr ⟨ε, hε, fun r r0 r1 => ?_⟩
    obtain ⟨c', b1, b2⟩ := step r
    obtain ⟨q', f1, f2, f3⟩ := hst' (NatGrad.init r false 0 0 0) rfl r0 r1
    rw [b2] at f1
    have hq' := out f1.symm
    have hc' : c'.toSVGP q' = c.toSVGP q' := by
      obtain ⟨c2, _, _, _, _, e1, -, -, -, e2, -⟩ := C36_update (c := { c with learningRate := r })
        ⟨h.builds, h.noise, h.jitter, h.times, h.lower, h.upper, h.two, h.symm⟩ hq h0 h1 Y
      obtain rfl : c' = c2 := Except.ok.inj (b1.symm.trans e1)
      rw [e2]; rfl
    obtain ⟨⟨l, l1, l2⟩, -⟩ := hL q hqn
    obtain ⟨⟨l', l1', l2'⟩, -⟩ := hL q' f2
    have el : ∀ {v : SVGP n 1 d} {x : ℝ}, v.loss X Y = .ok x → v.elbo X Y = .ok (-x) := fun {v x} hv => by
      unfold SVGP.loss at hv
      cases h3 : v.elbo X Y with
      | error e => rw [h3] at hv; cases hv
      | ok y =>
        rw [h3] at hv
        have : -y = x := Except.ok.inj hv
        rw [← this, neg_neg]
    refine ⟨c', -l, -l', b1, (C56_sparse_same_bound hq X Y).trans (el l1), (C56_sparse_same_bound hq' X Y).trans ?_, by
      rw [l2, l2'] at f3; linarith⟩
    rw [hc']
    exact el l1'

/-- Non-vacuity: a Matérn 3/2 kernel, three counts with a Poisson likelihood, `dist_q` the prior. The hypotheses of `C68_step`, `C68_vgp` and
`C68_momentum_first` hold and the gradient is not zero. -/
example : ∃ (v : VGP 2 1 2) (k : ℝ → ℝ → Mat 1 1) (η g : ExpPar 2 2), v.Valid k ∧ v.likelihood = poissonLikelihood ∧
    DifferentiableVarExp v.likelihood ∧ (∀ t a, v.kernel.emission (v.times t) a ≠ 0) ∧ ssmToExpectations v.q = .ok η ∧
    OfLaw v.lossOf ∧ IsTotalGradient (lossOfExpectations v.lossOf) η g ∧ g ≠ 0 := by
  obtain ⟨K, hK⟩ := (C28_constructors (o := 1) 2 3 1 1 1 0).2.1.2 (by norm_num)
  have hem : ∀ t : ℝ, K.emission t 0 0 = 1 := fun t => by
    rw [(kernelInit_ok hK).2.2]
    simp [Stationary.base, sdeEmission]
  have hmono : StrictMono (![0, 1, 3] : Fin 3 → ℝ) := Fin.strictMono_iff_lt_succ.2 fun i => by fin_cases i <;> simp
  obtain ⟨s, hs, hnd⟩ := kernel_ssm_nondegenerate (.leaf (.matern32 hK)) (.matern32 hK) (by norm_num) hmono
  set v : VGP 2 1 2 := ⟨![0, 1, 3], fun i => ![(i : ℝ)], K, poissonLikelihood, fun _ => 0, s⟩ with hv
  have hval : v.Valid _ := ⟨.leaf (.matern32 hK), .matern32 hK, by show K.jitter = 0; rw [(kernelInit_ok hK).2.2]; rfl, hmono,
    by show -10000000000 < (0 : ℝ); norm_num, by show (3 : ℝ) ≤ 10000000000; norm_num, by norm_num, hnd⟩
  have hem' : ∀ t a, v.kernel.emission (v.times t) a ≠ 0 := fun t a h0 => by
    have : K.emission (v.times t) 0 0 = 0 := by rw [Subsingleton.elim a 0] at h0; exact congrFun h0 0
    rw [hem] at this; exact one_ne_zero this
  obtain ⟨s', η, m, var, hs', hη, hmv, hg⟩ := C56_gradient hval poisson_differentiable hem'
  obtain rfl : s' = s := Except.ok.inj (hs'.symm.trans hs)
  refine ⟨v, _, η, _, hval, rfl, poisson_differentiable, hem', hη, VGP.ofLaw hval, hg, fun h0 => ?_⟩
  have key : ∀ (θ : ExpPar 2 2) (l1 l2 : Fin 3 → Vec 1),
      θ - (θ + siteNaturals (fun t => v.kernel.emission (v.times t)) l1 l2) = 0 → l2 0 0 = 0 := fun θ l1 l2 h => by
    have h1 : siteNaturals (fun t => v.kernel.emission (v.times t)) l1 l2 = 0 := by
      rwa [sub_add_cancel_left, neg_eq_zero] at h
    have h2 := congrFun (congrFun (congrFun (congrArg (fun x : ExpPar 2 2 => x.2.1) h1) 0) 0) 0
    have h3 : ((K.emission (v.times 0))ᵀ * Matrix.diagonal (l2 0) * K.emission (v.times 0)) 0 0 = 0 := h2
    rw [Matrix.mul_apply, Fin.sum_univ_one, Matrix.mul_apply, Fin.sum_univ_one, transpose_apply, hem, Matrix.diagonal_apply_eq] at h3
    linarith
  have h4 := key _ _ _ h0
  have hder : ∀ a b y : ℝ, HasDerivAt (fun x => poissonLikelihood.varExp a x y) (-(Real.exp (a + b / 2) * (1 / 2))) b := fun a b y => by
    unfold poissonLikelihood
    exact ((((hasDerivAt_id b).div_const 2).const_add a).exp.const_sub (y * a)).sub_const (Real.log (Real.Gamma (y + 1)))
  rw [show v.likelihood = poissonLikelihood from rfl, (hder _ _ _).deriv] at h4
  have := Real.exp_pos (m 0 0 + v.meanFunction (v.times 0) 0 + var 0 0 / 2)
  linarith

end MF
