import Verif.Lemmas.NatGradPath
import Verif.Props.Transformations
import Verif.Props.VGP

/-!
# C39: natural gradient steps
-/

namespace MF
open Matrix Spec MeasureTheory ProbabilityTheory InformationTheory
variable {n o d : ℕ}

theorem tril_of_nondegenerate {s : SSM n d} (h : s.Nondegenerate) :
    ({ s with cholP0 := tril s.cholP0, cholQ := fun k => tril (s.cholQ k) } : SSM n d) = s := by
  obtain ⟨m, P, A, b, Q⟩ := s
  have h0 : tril P = P := (h 0).1.tril_eq
  have hQ : (fun k => tril (Q k)) = Q := funext fun k => (h k.succ).1.tril_eq
  simp only [h0, hQ]

theorem natgrad_tail {θ : ExpPar n d} (hn : 0 < n) (hd : 0 < d) (hs : SymDiag θ) (opt : NatGrad n d) :
    (ProperNaturals θ → ∃ q', (do
        let new ← naturalsToSSM θ.1 θ.2.1 θ.2.2
        return (opt, ({ new with cholP0 := tril new.cholP0, cholQ := fun k => tril (new.cholQ k) } : SSM n d)) :
          Except Err (NatGrad n d × SSM n d)) = .ok (opt, q') ∧ q'.Nondegenerate ∧ ssmToNaturals q' = θ ∧
          naturalsToSSM θ.1 θ.2.1 θ.2.2 = .ok q') ∧
    (¬ ProperNaturals θ → (do
        let new ← naturalsToSSM θ.1 θ.2.1 θ.2.2
        return (opt, ({ new with cholP0 := tril new.cholP0, cholQ := fun k => tril (new.cholQ k) } : SSM n d)) :
          Except Err (NatGrad n d × SSM n d)) = .error .invalidArgument) := by
  constructor
  · intro hp
    obtain ⟨q', h1, h2, h3⟩ := C17_naturals_round_trip θ.1 θ.2.1 θ.2.2 hn hd hs hp
    refine ⟨q', ?_, h2, h3, h1⟩
    simp only [h1, bind, Except.bind, pure, Except.pure]
    rw [tril_of_nondegenerate h2]
  · intro hp
    have h1 := C17_improper_raises θ.1 θ.2.1 θ.2.2 hn hs hp
    simp only [h1, bind, Except.bind]

theorem step_eq (opt : NatGrad n d) (hm : opt.momentum = false) (q : SSM n d) (g gθ : ExpPar n d) :
    opt.step q g gθ = (do
        let new ← naturalsToSSM (ssmToNaturals q - opt.gamma • g).1 (ssmToNaturals q - opt.gamma • g).2.1
          (ssmToNaturals q - opt.gamma • g).2.2
        return (opt, ({ new with cholP0 := tril new.cholP0, cholQ := fun k => tril (new.cholQ k) } : SSM n d))) := by
  unfold NatGrad.step
  simp only [hm, Bool.false_eq_true, if_false, bind, Except.bind]

/-- C39: without momentum, a step with gradient `g = ∂L/∂η` maps the natural parameters `θ` to `θ - γ g` exactly; it raises
precisely when `θ - γ g` is not a proper Gaussian. The optimiser's state does not change. -/
theorem C39_step (opt : NatGrad n d) (hm : opt.momentum = false) {q : SSM n d} (hq : q.Nondegenerate) (hn : 0 < n) (hd : 0 < d)
    (g gθ : ExpPar n d) (hg : SymDiag g) :
    (ProperNaturals (ssmToNaturals q - opt.gamma • g) → ∃ q', opt.step q g gθ = .ok (opt, q') ∧ q'.Nondegenerate ∧
      ssmToNaturals q' = ssmToNaturals q - opt.gamma • g) ∧
    (¬ ProperNaturals (ssmToNaturals q - opt.gamma • g) → opt.step q g gθ = .error .invalidArgument) := by
  obtain ⟨h1, h2⟩ := natgrad_tail hn hd (SymDiag.sub (symDiag_naturals hq) (SymDiag.smul hg opt.gamma)) opt
  rw [step_eq opt hm]
  refine ⟨fun hp => ?_, h2⟩
  obtain ⟨q', e1, e2, e3, -⟩ := h1 hp
  exact ⟨q', e1, e2, e3⟩

/-- C39: with momentum, a step maps `θ` to `θ - lr / (√v' + ε) m'` with the updated moving averages `m'` (of the gradient) and
`v'` (of its norm) and the debiased rate; it raises when `v' < 0` (the square root is not a number) or when the result is not a
proper Gaussian. -/
theorem C39_momentum_step (opt : NatGrad n d) (hm : opt.momentum = true) {q : SSM n d} (hq : q.Nondegenerate) (hn : 0 < n)
    (hd : 0 < d) (g gθ : ExpPar n d) (hg : SymDiag g) (hms : SymDiag opt.ms) (m' θ' : ExpPar n d) (v' : ℝ)
    (hm' : m' = opt.beta1 • opt.ms + (1 - opt.beta1) • g)
    (hv' : v' = opt.beta2 * opt.v + (1 - opt.beta2) * (pairing g gθ + ∑ k, ∑ i, ∑ j, g.2.2 k i j * gθ.2.2 k i j))
    (hθ' : θ' = ssmToNaturals q - (opt.gamma * Real.sqrt (1 - opt.beta2 ^ opt.stepCounter) / (1 - opt.beta1 ^ opt.stepCounter) /
      (Real.sqrt v' + opt.epsilon)) • m') :
    (v' < 0 → opt.step q g gθ = .error .invalidArgument) ∧
    (0 ≤ v' → ¬ ProperNaturals θ' → opt.step q g gθ = .error .invalidArgument) ∧
    (0 ≤ v' → ProperNaturals θ' → ∃ q', opt.step q g gθ = .ok
        ({ opt with ms := m', v := v', stepCounter := opt.stepCounter + 1 }, q') ∧ q'.Nondegenerate ∧ ssmToNaturals q' = θ') := by
  have ev : opt.v * opt.beta2 + (1 - opt.beta2) * NatGrad.natgradNorm g gθ = v' := by
    rw [hv', NatGrad.natgradNorm, pairing]; ring
  have hsm : SymDiag m' := hm' ▸ SymDiag.add (SymDiag.smul hms _) (SymDiag.smul hg _)
  have hsθ : SymDiag θ' := hθ' ▸ SymDiag.sub (symDiag_naturals hq) (SymDiag.smul hsm _)
  have hstep : 0 ≤ v' → opt.step q g gθ = (do
        let new ← naturalsToSSM θ'.1 θ'.2.1 θ'.2.2
        return ({ opt with ms := m', v := v', stepCounter := opt.stepCounter + 1 },
          ({ new with cholP0 := tril new.cholP0, cholQ := fun k => tril (new.cholQ k) } : SSM n d))) := by
    intro h0
    unfold NatGrad.step
    simp only [hm, if_true, bind, Except.bind, ev, if_neg (not_lt.2 h0), ← hm', NatGrad.lr, ← hθ']
  obtain ⟨h1, h2⟩ := natgrad_tail hn hd hsθ ({ opt with ms := m', v := v', stepCounter := opt.stepCounter + 1 } : NatGrad n d)
  refine ⟨fun h0 => ?_, fun h0 hp => by rw [hstep h0]; exact h2 hp, fun h0 hp => ?_⟩
  · unfold NatGrad.step
    simp only [hm, if_true, bind, Except.bind, ev, if_pos h0]
  · rw [hstep h0]
    obtain ⟨q', e1, e2, e3, -⟩ := h1 hp
    exact ⟨q', e1, e2, e3⟩

/-- C39: the moving averages after `N` successful calls, in closed form: exponentially weighted sums of the gradients (and of their
norms) met on the way, and the step counter counts the calls. -/
theorem C39_moving_averages (gamma beta1 beta2 epsilon : ℝ) (grad : ℕ → SSM n d → ExpPar n d × ExpPar n d) (q0 : SSM n d) (N : ℕ)
    (opt : NatGrad n d) (q : SSM n d)
    (h : NatGrad.steps grad N (NatGrad.init gamma true beta1 beta2 epsilon, q0) = .ok (opt, q)) :
    ∃ qs : ℕ → SSM n d, qs 0 = q0 ∧ qs N = q ∧
      (∀ i ≤ N, ∃ o, NatGrad.steps grad i (NatGrad.init gamma true beta1 beta2 epsilon, q0) = .ok (o, qs i)) ∧
      opt.stepCounter = N + 1 ∧ opt.gamma = gamma ∧ opt.momentum = true ∧
      opt.beta1 = beta1 ∧ opt.beta2 = beta2 ∧ opt.epsilon = epsilon ∧
      opt.ms = ∑ i ∈ Finset.range N, ((1 - beta1) * beta1 ^ (N - 1 - i)) • (grad i (qs i)).1 ∧
      opt.v = ∑ i ∈ Finset.range N, ((1 - beta2) * beta2 ^ (N - 1 - i)) * (pairing (grad i (qs i)).1 (grad i (qs i)).2 +
        ∑ k, ∑ a, ∑ b, (grad i (qs i)).1.2.2 k a b * (grad i (qs i)).2.2.2 k a b) := by
  induction N generalizing opt q with
  | zero =>
    simp only [NatGrad.steps, Except.ok.injEq, Prod.mk.injEq] at h
    obtain ⟨rfl, rfl⟩ := h
    refine ⟨fun _ => q0, rfl, rfl, fun i _ => ⟨NatGrad.init gamma true beta1 beta2 epsilon, ?_⟩, rfl, rfl, rfl, rfl, rfl, rfl, ?_, ?_⟩
    · obtain rfl : i = 0 := by omega
      rfl
    · simp [NatGrad.init]
    · simp [NatGrad.init]
  | succ N ih =>
    have hfull := h
    simp only [NatGrad.steps, bind, Except.bind] at h
    cases h1 : NatGrad.steps grad N (NatGrad.init gamma true beta1 beta2 epsilon, q0) with
    | error e => rw [h1] at h; cases h
    | ok st =>
      obtain ⟨o1, q1⟩ := st
      rw [h1] at h
      obtain ⟨qs, a0, aN, ai, as, ag, am, ab1, ab2, ae, ams, av⟩ := ih o1 q1 h1
      simp only [NatGrad.step, am, if_true, bind, Except.bind, pure, Except.pure] at h
      generalize hG : (grad N q1) = G at h
      split_ifs at h with hv
      cases h2 : naturalsToSSM ((ssmToNaturals q1 : ExpPar n d) - (o1.lr / (Real.sqrt (o1.v * o1.beta2 + (1 - o1.beta2) *
          NatGrad.natgradNorm G.1 G.2) + o1.epsilon)) • (o1.beta1 • o1.ms + (1 - o1.beta1) • G.1)).1
          ((ssmToNaturals q1 : ExpPar n d) - (o1.lr / (Real.sqrt (o1.v * o1.beta2 + (1 - o1.beta2) *
          NatGrad.natgradNorm G.1 G.2) + o1.epsilon)) • (o1.beta1 • o1.ms + (1 - o1.beta1) • G.1)).2.1
          ((ssmToNaturals q1 : ExpPar n d) - (o1.lr / (Real.sqrt (o1.v * o1.beta2 + (1 - o1.beta2) *
          NatGrad.natgradNorm G.1 G.2) + o1.epsilon)) • (o1.beta1 • o1.ms + (1 - o1.beta1) • G.1)).2.2 with
      | error e => simp only [h2] at h; cases h
      | ok new =>
        simp only [h2, Except.ok.injEq, Prod.mk.injEq] at h
        obtain ⟨rfl, hq⟩ := h
        have hqs : ∀ i < N + 1, Function.update qs (N + 1) q i = qs i := fun i hi => Function.update_of_ne (by omega) _ _
        refine ⟨Function.update qs (N + 1) q, ?_, Function.update_self .., fun i hi => ?_, by rw [as], ag, rfl, ab1, ab2, ae, ?_, ?_⟩
        · rw [hqs 0 (by omega)]; exact a0
        · rcases Nat.lt_or_ge i (N + 1) with hi' | hi'
          · rw [hqs i hi']; exact ai i (by omega)
          · obtain rfl : i = N + 1 := by omega
            rw [Function.update_self]
            exact ⟨_, hfull⟩
        · show o1.beta1 • o1.ms + (1 - o1.beta1) • G.1 = _
          rw [Finset.sum_range_succ, hqs N (by omega), aN, hG, ams, ab1, Finset.smul_sum]
          congr 1
          · refine Finset.sum_congr rfl fun i hi => ?_
            rw [hqs i (by have := Finset.mem_range.1 hi; omega), smul_smul]
            congr 1
            have := Finset.mem_range.1 hi
            rw [show N + 1 - 1 - i = (N - 1 - i) + 1 by omega]; ring
          · simp
        · show o1.v * o1.beta2 + (1 - o1.beta2) * NatGrad.natgradNorm G.1 G.2 = _
          rw [Finset.sum_range_succ, hqs N (by omega), aN, hG, av, ab2, Finset.sum_mul]
          congr 1
          · refine Finset.sum_congr rfl fun i hi => ?_
            rw [hqs i (by have := Finset.mem_range.1 hi; omega)]
            have := Finset.mem_range.1 hi
            rw [show N + 1 - 1 - i = (N - 1 - i) + 1 by omega]; ring
          · simp only [Nat.add_sub_cancel, Nat.sub_self, pow_zero, mul_one]
            rw [NatGrad.natgradNorm, pairing]; ring

theorem proper_of_ssm {s : SSM n d} (h : s.Nondegenerate) : ProperNaturals (ssmToNaturals s) := by
  unfold ProperNaturals
  rw [ssmToNaturals_eq s h]
  have e1 : (fun b => (-2 : ℝ) • (-(1 / 2) : ℝ) • s.precD b) = s.precD := by funext b; rw [smul_smul]; norm_num
  have e2 : (fun k => -(-s.precS k)) = s.precS := by funext k; exact neg_neg _
  show (denseSym (fun b => (-2 : ℝ) • (-(1 / 2) : ℝ) • s.precD b) fun k => -(-s.precS k)).PosDef
  rw [e1, e2, SSM.denseSym_prec h, ← SSM.Kd_inv h]
  exact (SSM.Kd_posDef h).inv

theorem denseSym_comb (a b : ℝ) (D D' : Fin (n + 1) → Mat d d) (S S' : Fin n → Mat d d) :
    denseSym (fun k => a • D k + b • D' k) (fun k => a • S k + b • S' k) = a • denseSym D S + b • denseSym D' S' := by
  ext ⟨p, i⟩ ⟨q, j⟩
  simp only [denseSym, ofBlk, symBlk, Matrix.add_apply, Matrix.smul_apply, of_apply]
  split_ifs <;> simp

theorem proper_convex {θ θ' : ExpPar n d} (h : ProperNaturals θ) (h' : ProperNaturals θ') {γ : ℝ} (h0 : 0 ≤ γ) (h1 : γ ≤ 1) :
    ProperNaturals ((1 - γ) • θ + γ • θ') := by
  unfold ProperNaturals at *
  have e1 : (fun b => (-2 : ℝ) • ((1 - γ) • θ + γ • θ').2.1 b) =
      fun b => (1 - γ) • ((-2 : ℝ) • θ.2.1 b) + γ • ((-2 : ℝ) • θ'.2.1 b) := by
    funext b
    show (-2 : ℝ) • ((1 - γ) • θ.2.1 b + γ • θ'.2.1 b) = _
    rw [smul_add, smul_comm, smul_comm (-2 : ℝ) γ]
  have e2 : (fun k => -((1 - γ) • θ + γ • θ').2.2 k) = fun k => (1 - γ) • (-θ.2.2 k) + γ • (-θ'.2.2 k) := by
    funext b
    show -((1 - γ) • θ.2.2 b + γ • θ'.2.2 b) = _
    rw [neg_add, smul_neg, smul_neg]
  rw [e1, e2, denseSym_comb]
  rcases h0.eq_or_lt with rfl | h0'
  · simpa using h
  · rcases h1.eq_or_lt with rfl | h1'
    · simpa using h'
    · exact (h.smul (by linarith)).add (h'.smul h0')

/-- Models with the same natural parameters have the same law. -/
theorem law_of_naturals {q p : SSM n d} (hq : q.Nondegenerate) (hp : p.Nondegenerate)
    (h : ssmToNaturals q = ssmToNaturals p) : q.law = p.law := by
  have hpq : IsProbabilityMeasure q.law := by rw [SSM.law_eq_gauss]; infer_instance
  have hpp : IsProbabilityMeasure p.law := by rw [SSM.law_eq_gauss]; infer_instance
  have e := klDiv_symm hq hp
  rw [h, sub_self, show (0 : ExpPar n d) = (0 : ℝ) • 0 from (zero_smul _ _).symm, pairing_smul_left, zero_mul] at e
  have n1 := ENNReal.toReal_nonneg (a := klDiv q.law p.law)
  have n2 := ENNReal.toReal_nonneg (a := klDiv p.law q.law)
  have e0 : (klDiv q.law p.law).toReal = 0 := by linarith
  exact klDiv_eq_zero_iff.1 (((ENNReal.toReal_eq_zero_iff _).1 e0).resolve_right (klDiv_natural hq hp).1)

/-- C39: with learning rate 0 a step leaves the distribution unchanged, whatever the gradient (with momentum: whenever it does not
raise); the parameters too, up to the signs of the Cholesky factors' columns. -/
theorem C39_zero_rate (opt : NatGrad n d) (h0 : opt.gamma = 0) {q : SSM n d} (hq : q.Nondegenerate) (hn : 0 < n) (hd : 0 < d)
    (g gθ : ExpPar n d) :
    (opt.momentum = false → ∃ r, opt.step q g gθ = .ok r) ∧
    ∀ opt' q', opt.step q g gθ = .ok (opt', q') → SameModel q q' ∧ (PositiveFactors q → q' = q) ∧ q'.law = q.law := by
  obtain ⟨s', e1, e2, e3⟩ := C17_model_round_trip q hq hn hd
  have e1' : naturalsToSSM (ssmToNaturals q - (0 : ExpPar n d)).1 (ssmToNaturals q - (0 : ExpPar n d)).2.1
      (ssmToNaturals q - (0 : ExpPar n d)).2.2 = .ok s' := by rw [sub_zero]; exact e1
  obtain ⟨q1, f1, f2, f3⟩ := C17_naturals_round_trip _ _ _ hn hd (symDiag_naturals hq) (proper_of_ssm hq)
  obtain rfl : s' = q1 := Except.ok.inj (e1.symm.trans f1)
  have ht := tril_of_nondegenerate f2
  have hl : s'.law = q.law := law_of_naturals f2 hq f3
  constructor
  · intro hm
    rw [step_eq opt hm, h0, zero_smul, e1']
    exact ⟨_, rfl⟩
  · intro opt' q' h
    suffices q' = s' by subst this; exact ⟨e2, e3, hl⟩
    cases hm : opt.momentum with
    | false =>
      rw [step_eq opt hm, h0, zero_smul, e1'] at h
      simp only [bind, Except.bind, pure, Except.pure, Except.ok.injEq, Prod.mk.injEq, ht] at h
      exact h.2.symm
    | true =>
      simp only [NatGrad.step, NatGrad.lr, hm, if_true, bind, Except.bind, pure, Except.pure, h0, zero_mul, zero_div,
        zero_smul] at h
      split_ifs at h
      simp only [e1', Except.ok.injEq, Prod.mk.injEq, ht] at h
      exact h.2.symm

/-! ### conjugate losses -/

/-- C39: for a loss that is the divergence from a fixed model up to a constant, the gradient in the expectation parameters is the
difference of the natural parameters, and nothing else is. -/
theorem C39_gradient_of_kl {q p : SSM n d} (hq : q.Nondegenerate) (hp : p.Nondegenerate) (hn : 0 < n) (hd : 0 < d) {L : SSM n d → ℝ}
    {c : ℝ} (hL : ∀ s : SSM n d, s.Nondegenerate → L s = (klDiv s.law p.law).toReal + c) {η : ExpPar n d}
    (hη : ssmToExpectations q = .ok η) (g : ExpPar n d) :
    IsGradient (lossOfExpectations L) η g ↔ g = ssmToNaturals q - ssmToNaturals p := by
  obtain rfl : expPar q = η := Except.ok.inj ((ssmToExpectations_eq q hq hn hd).symm.trans hη)
  have := gradient_kl hq hp hL
  exact ⟨fun h => IsGradient.unique h this, fun h => h ▸ this⟩

/-- The gradient that the optimiser is given is the derivative of the loss in the expectation parameters. -/
def GivesGradient (L : SSM n d → ℝ) (grad : ℕ → SSM n d → ExpPar n d × ExpPar n d) : Prop :=
  ∀ i q η, q.Nondegenerate → ssmToExpectations q = .ok η → IsGradient (lossOfExpectations L) η (grad i q).1

/-- C39: for a conjugate loss (a divergence to a fixed model `p`, up to a constant) with a rate `γ ∈ [0, 1]`, every call succeeds and
the natural parameters approach those of `p` geometrically, from any start; the loss never increases. -/
theorem C39_conjugate {q p : SSM n d} (hq : q.Nondegenerate) (hp : p.Nondegenerate) (hn : 0 < n) (hd : 0 < d) {L : SSM n d → ℝ}
    {c : ℝ} (hL : ∀ s : SSM n d, s.Nondegenerate → L s = (klDiv s.law p.law).toReal + c)
    {grad : ℕ → SSM n d → ExpPar n d × ExpPar n d} (hgrad : GivesGradient L grad) (opt : NatGrad n d) (hm : opt.momentum = false)
    (h0 : 0 ≤ opt.gamma) (h1 : opt.gamma ≤ 1) (N : ℕ) :
    ∃ q', NatGrad.steps grad N (opt, q) = .ok (opt, q') ∧ q'.Nondegenerate ∧
      ssmToNaturals q' = (1 - opt.gamma) ^ N • ssmToNaturals q + (1 - (1 - opt.gamma) ^ N) • ssmToNaturals p ∧
      (∃ q'', opt.step q' (grad N q').1 (grad N q').2 = .ok (opt, q'') ∧ L q'' ≤ L q') := by
  have one : ∀ i (r : SSM n d), r.Nondegenerate → ∃ r', opt.step r (grad i r).1 (grad i r).2 = .ok (opt, r') ∧ r'.Nondegenerate ∧
      ssmToNaturals r' = (1 - opt.gamma) • ssmToNaturals r + opt.gamma • ssmToNaturals p := by
    intro i r hr
    have hg := hgrad i r _ hr (ssmToExpectations_eq r hr hn hd)
    have eg : (grad i r).1 = ssmToNaturals r - ssmToNaturals p := IsGradient.unique hg (gradient_kl hr hp hL)
    have eθ : (ssmToNaturals r : ExpPar n d) - opt.gamma • (grad i r).1 =
        (1 - opt.gamma) • ssmToNaturals r + opt.gamma • ssmToNaturals p := by
      rw [eg]; module
    obtain ⟨r', a1, a2, a3⟩ := (C39_step opt hm hr hn hd (grad i r).1 (grad i r).2 hg.1).1
      (by rw [eθ]; exact proper_convex (proper_of_ssm hr) (proper_of_ssm hp) h0 h1)
    exact ⟨r', a1, a2, a3.trans eθ⟩
  have dec : ∀ r r' : SSM n d, r.Nondegenerate → r'.Nondegenerate →
      ssmToNaturals r' = (1 - opt.gamma) • ssmToNaturals r + opt.gamma • ssmToNaturals p → L r' ≤ L r := by
    intro r r' hr hr' e
    rw [hL r hr, hL r' hr']
    have k1 := klDiv_three hr hr' hp
    have k2 := klDiv_symm hr' hr
    have n1 := ENNReal.toReal_nonneg (a := klDiv r.law r'.law)
    have n2 := ENNReal.toReal_nonneg (a := klDiv r'.law r.law)
    rw [e] at k1 k2
    rw [show (1 - opt.gamma) • ssmToNaturals r + opt.gamma • ssmToNaturals p - ssmToNaturals p =
        (1 - opt.gamma) • ((ssmToNaturals r : ExpPar n d) - ssmToNaturals p) by module, pairing_smul_left] at k1
    rw [show (1 - opt.gamma) • ssmToNaturals r + opt.gamma • ssmToNaturals p - ssmToNaturals r =
        opt.gamma • ((ssmToNaturals p : ExpPar n d) - ssmToNaturals r) by module, pairing_smul_left] at k2
    have k3 : pairing ((ssmToNaturals r : ExpPar n d) - ssmToNaturals p) (expPar r - expPar r') =
        pairing ((ssmToNaturals p : ExpPar n d) - ssmToNaturals r) (expPar r' - expPar r) := by
      simp only [pairing_sub_left, pairing_sub_right]; ring
    rw [k3] at k1
    rcases h0.eq_or_lt with h | h
    · have hs : r'.law = r.law := law_of_naturals hr' hr (by rw [e, ← h]; simp)
      rw [hs]
    · have : 0 ≤ pairing ((ssmToNaturals p : ExpPar n d) - ssmToNaturals r) (expPar r' - expPar r) := by
        by_contra hneg
        nlinarith
      nlinarith [mul_nonneg (sub_nonneg.2 h1) this]
  have main : ∃ q', NatGrad.steps grad N (opt, q) = .ok (opt, q') ∧ q'.Nondegenerate ∧
      ssmToNaturals q' = (1 - opt.gamma) ^ N • ssmToNaturals q + (1 - (1 - opt.gamma) ^ N) • ssmToNaturals p := by
    induction N with
    | zero => exact ⟨q, rfl, hq, by simp⟩
    | succ N ih =>
      obtain ⟨r, a1, a2, a3⟩ := ih
      obtain ⟨r', b1, b2, b3⟩ := one N r a2
      refine ⟨r', ?_, b2, ?_⟩
      · simp only [NatGrad.steps, a1, bind, Except.bind]; exact b1
      · rw [b3, a3, pow_succ]; module
  obtain ⟨q', a1, a2, a3⟩ := main
  obtain ⟨r', b1, b2, b3⟩ := one N q' a2
  exact ⟨q', a1, a2, a3, r', b1, dec q' r' a2 b2 b3⟩

/-- C39: one step of rate 1 on a conjugate loss lands on the optimum exactly, from any start. -/
theorem C39_conjugate_one_step {q p : SSM n d} (hq : q.Nondegenerate) (hp : p.Nondegenerate) (hn : 0 < n) (hd : 0 < d)
    {L : SSM n d → ℝ} {c : ℝ} (hL : ∀ s : SSM n d, s.Nondegenerate → L s = (klDiv s.law p.law).toReal + c)
    {grad : ℕ → SSM n d → ExpPar n d × ExpPar n d} (hgrad : GivesGradient L grad) (opt : NatGrad n d) (hm : opt.momentum = false)
    (h1 : opt.gamma = 1) :
    ∃ q', opt.step q (grad 0 q).1 (grad 0 q).2 = .ok (opt, q') ∧ q'.law = p.law := by
  obtain ⟨q', a1, a2, a3, -⟩ := C39_conjugate hq hp hn hd hL hgrad opt hm (by rw [h1]; norm_num) (by rw [h1]) 1
  refine ⟨q', a1, law_of_naturals a2 hp ?_⟩
  rw [a3, h1]; simp

/-- The value of `loss()` as a function of `dist_q`. -/
noncomputable def VGP.lossOf (v : VGP n o d) (s : SSM n d) : ℝ :=
  match ({ v with q := s } : VGP n o d).loss with
  | .ok x => x
  | .error _ => 0

/-- With a Gaussian likelihood the loss is the divergence to the exact posterior (that of GP regression), up to the log marginal likelihood. -/
theorem VGP.gaussian_kl {v : VGP n o d} {k} (h : v.Valid k) {σ2 : ℝ} (hσ : 0 < σ2) (hlik : v.likelihood = gaussianLikelihood σ2) :
    ∃ (c : CondProcess n o d) (L : ℝ), (v.toGPR σ2).posterior = .ok c ∧ (v.toGPR σ2).logLikelihood = .ok L ∧ c.q.Nondegenerate ∧
      ∀ s : SSM n d, s.Nondegenerate → v.lossOf s = (klDiv s.law c.q.law).toReal + -L := by
  have hnf : NoiseFactor (Real.sqrt σ2 • (1 : Mat o o)) := by
    refine ⟨fun i j hij => ?_, fun i => ?_⟩
    · simp [hij.ne]
    · simpa using (Real.sqrt_pos.2 hσ).ne'
  have hg : (v.toGPR σ2).Valid k := ⟨h.builds, h.noise, h.jitter, h.times, hnf, h.two⟩
  obtain ⟨s, c, hs, hc, hcn, -⟩ := GPR.posterior_ok hg
  obtain ⟨-, L, -, -, -, hL, -⟩ := C33_gaussian h hσ hlik
  refine ⟨c, L, hc, hL, hcn, ?_⟩
  · intro s hsn
    have hv : ({ v with q := s } : VGP n o d).Valid k :=
      ⟨h.builds, h.noise, h.jitter, h.times, h.lower, h.upper, h.two, hsn⟩
    obtain ⟨e, L', c', e1, e2, e3, e4, e5, e6, -⟩ := C33_gaussian hv hσ hlik
    obtain rfl : L = L' := Except.ok.inj (hL.symm.trans e3)
    obtain rfl : c = c' := Except.ok.inj (hc.symm.trans e4)
    unfold VGP.lossOf
    rw [e2]
    show -e = (klDiv s.law c.q.law).toReal + -L
    have e6' : L = e + (klDiv s.law c.q.law).toReal := e6
    linarith

/-- C39: for a variational GP with Gaussian likelihood, one natural gradient step of rate 1 from any `dist_q` gives the exact
posterior (that of GP regression). -/
theorem C39_vgp_gaussian {v : VGP n o d} {k} (h : v.Valid k) {σ2 : ℝ} (hσ : 0 < σ2) (hlik : v.likelihood = gaussianLikelihood σ2)
    {grad : ℕ → SSM n d → ExpPar n d × ExpPar n d} (hgrad : GivesGradient v.lossOf grad) (opt : NatGrad n d)
    (hm : opt.momentum = false) (h1 : opt.gamma = 1) :
    ∃ (q' : SSM n d) (c : CondProcess n o d), opt.step v.q (grad 0 v.q).1 (grad 0 v.q).2 = .ok (opt, q') ∧
      (v.toGPR σ2).posterior = .ok c ∧ q'.law = c.q.law := by
  obtain ⟨hco, -, -⟩ := Builds.good h.builds
  obtain ⟨c, L, hc, -, hcn, hall⟩ := VGP.gaussian_kl h hσ hlik
  obtain ⟨q', a1, a2⟩ := C39_conjugate_one_step h.q hcn h.two hco.pos hall hgrad opt hm h1
  exact ⟨q', c, a1, hc, a2⟩

/-! ### the norm used with momentum -/

open Filter Topology in
/-- Two scalar states: the moments in terms of the natural parameters. -/
theorem scalar_pair {s : SSM 1 1} (hs : s.Nondegenerate) {θ : ExpPar 1 1} (h : ssmToNaturals s = θ) {a b c Δ : ℝ}
    (ha : a = -2 * θ.2.1 0 0 0) (hb : b = -θ.2.2 0 0 0) (hc : c = -2 * θ.2.1 1 0 0) (hΔ : Δ = a * c - b * b) (h0 : Δ ≠ 0) :
    blk s.Kd 0 0 0 0 = c / Δ ∧ blk s.Kd 1 1 0 0 = a / Δ ∧ blk s.Kd 1 0 0 0 = -b / Δ ∧
      s.mus 0 0 = (c * θ.1 0 0 - b * θ.1 1 0) / Δ ∧ s.mus 1 0 = (a * θ.1 1 0 - b * θ.1 0 0) / Δ := by
  rw [ssmToNaturals_eq s hs] at h
  have h1 : vblk (s.Pd *ᵥ stk s.mus) = θ.1 := by rw [← h]
  have h2 : s.precD = fun k => (-2 : ℝ) • θ.2.1 k := by
    rw [← h]; funext k; show _ = (-2 : ℝ) • (-(1 / 2) : ℝ) • s.precD k; rw [smul_smul]; norm_num
  have h3 : s.precS = fun k => -θ.2.2 k := by
    rw [← h]; funext k; exact (neg_neg _).symm
  have hP : s.Pd = denseSym s.precD s.precS := (SSM.denseSym_prec hs).symm
  set C : Matrix (Ix 1 1) (Ix 1 1) ℝ := Matrix.of fun p q => if p.1 = 0 then (if q.1 = 0 then c / Δ else -b / Δ)
    else if q.1 = 0 then -b / Δ else a / Δ with hC
  have e00 : s.Pd (0, 0) (0, 0) = a := by
    rw [hP, h2, h3, ha]; simp [denseSym, ofBlk, symBlk]
  have e11 : s.Pd (1, 0) (1, 0) = c := by
    rw [hP, h2, h3, hc]; simp [denseSym, ofBlk, symBlk]
  have e10 : s.Pd (1, 0) (0, 0) = b := by
    rw [hP, h2, h3, hb]; simp [denseSym, ofBlk, symBlk]
  have e01 : s.Pd (0, 0) (1, 0) = b := by
    rw [hP, h2, h3, hb]; simp [denseSym, ofBlk, symBlk]
  have hK : s.Kd = C := by
    have hi : s.Kd * s.Pd = 1 := by
      rw [← SSM.Kd_inv hs, mul_nonsing_inv _ (isUnit_det' (SSM.Kd_posDef hs).isUnit)]
    have hCi : s.Pd * C = 1 := by
      ext ⟨p, i⟩ ⟨q, j⟩
      obtain rfl : i = 0 := Subsingleton.elim _ _
      obtain rfl : j = 0 := Subsingleton.elim _ _
      rw [Matrix.mul_apply, Fintype.sum_prod_type, Fin.sum_univ_two, Fin.sum_univ_one, Fin.sum_univ_one]
      fin_cases p <;> fin_cases q <;> simp only [Fin.zero_eta, Fin.mk_one]
      · rw [e00, e01]; simp [hC]; field_simp; rw [hΔ]; ring
      · rw [e00, e01]; simp [hC]; field_simp; ring
      · rw [e10, e11]; simp [hC]; field_simp; ring
      · rw [e10, e11]; simp [hC]; field_simp; rw [hΔ]; ring
    calc s.Kd = s.Kd * (s.Pd * C) := by rw [hCi, Matrix.mul_one]
      _ = C := by rw [← Matrix.mul_assoc, hi, Matrix.one_mul]
  have hm : stk s.mus = C *ᵥ stk θ.1 := by
    have hi : s.Kd * s.Pd = 1 := by
      rw [← SSM.Kd_inv hs, mul_nonsing_inv _ (isUnit_det' (SSM.Kd_posDef hs).isUnit)]
    have : stk θ.1 = s.Pd *ᵥ stk s.mus := by rw [← h1]; rfl
    rw [this, mulVec_mulVec, ← hK, hi, one_mulVec]
  refine ⟨by rw [hK]; simp [blk, hC], by rw [hK]; simp [blk, hC], by rw [hK]; simp [blk, hC], ?_, ?_⟩
  · have := congrFun hm (0, 0)
    simp only [mulVec, dotProduct, Fintype.sum_prod_type, Fin.sum_univ_two, Fin.sum_univ_one, hC, stk] at this
    rw [this]; simp; ring
  · have := congrFun hm (1, 0)
    simp only [mulVec, dotProduct, Fintype.sum_prod_type, Fin.sum_univ_two, Fin.sum_univ_one, hC, stk] at this
    rw [this]; simp; ring

/-- A pair of scalar states with unit variances and correlation 4/5. -/
noncomputable def pairSSM : SSM 1 1 := ⟨0, 1, fun _ => !![4 / 5], fun _ => 0, fun _ => !![3 / 5]⟩

theorem pairSSM_nondegenerate : pairSSM.Nondegenerate := by
  intro b
  refine Fin.cases ?_ (fun k => ?_) b
  · exact ⟨fun i j hij => by rw [Subsingleton.elim i j] at hij; exact absurd hij (lt_irrefl _), fun i => by
      show (1 : Mat 1 1) i i ≠ 0; simp⟩
  · exact ⟨fun i j hij => by rw [Subsingleton.elim i j] at hij; exact absurd hij (lt_irrefl _), fun i => by
      fin_cases i
      show (3 / 5 : ℝ) ≠ 0; norm_num⟩

/-- The expectation of `x₀² + x₁² - 1.5 x₀ x₁`. -/
noncomputable def quadLoss (s : SSM 1 1) : ℝ :=
  match ssmToExpectations s with
  | .ok η => η.2.1 0 0 0 + η.2.1 1 0 0 - 3 / 2 * η.2.2 0 0 0
  | .error _ => 0

theorem pair_naturals : ssmToNaturals pairSSM = (0, fun _ _ _ => -(25 / 18), fun _ _ _ => 20 / 9) := by
  have hq1 : ∀ k : Fin 1, (pairSSM.Q k)⁻¹ = !![25 / 9] := fun k => by
    refine Matrix.inv_eq_left_inv ?_
    ext i j
    fin_cases i; fin_cases j
    show (!![25 / 9] * (!![3 / 5] * (!![3 / 5] : Mat 1 1)ᵀ) : Mat 1 1) 0 0 = 1
    rw [Matrix.mul_apply, Fin.sum_univ_one, Matrix.mul_apply, Fin.sum_univ_one]; simp; norm_num
  have hq0 : (pairSSM.Qc 0)⁻¹ = 1 := by
    refine Matrix.inv_eq_left_inv ?_
    show (1 : Mat 1 1) * ((1 : Mat 1 1) * (1 : Mat 1 1)ᵀ) = 1
    simp
  rw [ssmToNaturals_eq _ pairSSM_nondegenerate]
  have hm : pairSSM.mus = 0 := by
    apply SSM.IsMeans.unique SSM.mus_isMeans
    refine ⟨rfl, fun k => ?_⟩
    show (0 : Vec 1) = _ *ᵥ 0 + 0
    simp
  refine Prod.ext ?_ (Prod.ext ?_ ?_)
  · show vblk (pairSSM.Pd *ᵥ stk pairSSM.mus) = 0
    rw [hm]
    show vblk (pairSSM.Pd *ᵥ 0) = 0
    rw [mulVec_zero]; rfl
  · funext b
    ext i j
    show -(1 / 2) * pairSSM.precD b i j = -(25 / 18)
    fin_cases i; fin_cases j
    refine Fin.cases ?_ (fun k => ?_) b
    · rw [SSM.precD, hq0]
      show -(1 / 2) * ((1 : Mat 1 1) 0 0 + (Fin.snoc (α := fun _ => Mat 1 1) (fun k => (pairSSM.A k)ᵀ * ((pairSSM.Q k)⁻¹ * pairSSM.A k)) 0 (Fin.castSucc 0)) 0 0) = _
      rw [Fin.snoc_castSucc, hq1]
      simp [pairSSM, Matrix.mul_apply]; norm_num
    · obtain rfl : k = 0 := Subsingleton.elim _ _
      have : (pairSSM.Qc (Fin.succ 0))⁻¹ = !![25 / 9] := hq1 0
      rw [SSM.precD, this]
      show -(1 / 2) * (25 / 9 + (Fin.snoc (α := fun _ => Mat 1 1) (fun k => (pairSSM.A k)ᵀ * ((pairSSM.Q k)⁻¹ * pairSSM.A k)) 0 (Fin.last 1)) 0 0) = _
      rw [Fin.snoc_last]; simp; norm_num
  · funext k
    ext i j
    show -pairSSM.precS k i j = 20 / 9
    fin_cases i; fin_cases j
    rw [SSM.precS, hq1]
    show -(-((!![25 / 9] : Mat 1 1) * !![4 / 5] : Mat 1 1) 0 0) = _
    rw [Matrix.mul_apply, Fin.sum_univ_one]; simp; norm_num

theorem quadLoss_eq {s : SSM 1 1} (hs : s.Nondegenerate) :
    quadLoss s = blk s.Kd 0 0 0 0 + s.mus 0 0 * s.mus 0 0 + (blk s.Kd 1 1 0 0 + s.mus 1 0 * s.mus 1 0) -
      3 / 2 * (blk s.Kd 1 0 0 0 + s.mus 1 0 * s.mus 0 0) := by
  unfold quadLoss
  rw [ssmToExpectations_eq s hs one_pos one_pos]
  rfl

/-- The gradients of the loss at `pairSSM`. -/
noncomputable def pairEta : ExpPar 1 1 := (0, fun _ => !![1], fun _ => !![-(3 / 2)])
noncomputable def pairTheta : ExpPar 1 1 := (0, fun _ => !![22 / 25], fun _ => !![37 / 50])

open Filter Topology in
theorem pair_gradient_eta {η : ExpPar 1 1} (hη : ssmToExpectations pairSSM = .ok η) :
    IsGradient (lossOfExpectations quadLoss) η pairEta := by
  obtain rfl : expPar pairSSM = η := Except.ok.inj ((ssmToExpectations_eq _ pairSSM_nondegenerate one_pos one_pos).symm.trans hη)
  refine ⟨fun b => by ext i j; fin_cases i; fin_cases j; rfl, fun h hh => ?_⟩
  have hcc : Continuous fun t : ℝ => expPar pairSSM + t • h := by fun_prop
  obtain ⟨hev, -⟩ := ExpPar.path pairSSM_nondegenerate (fun t => expPar pairSSM + t • h) hcc.continuousAt
    (by rw [zero_smul, add_zero]) (fun t => SymDiag.add (symDiag_expPar _) (SymDiag.smul hh t))
  have key : (fun t : ℝ => lossOfExpectations quadLoss (expPar pairSSM + t • h)) =ᶠ[𝓝 0]
      fun t => (expPar pairSSM).2.1 0 0 0 + (expPar pairSSM).2.1 1 0 0 - 3 / 2 * (expPar pairSSM).2.2 0 0 0 +
        t * (h.2.1 0 0 0 + h.2.1 1 0 0 - 3 / 2 * h.2.2 0 0 0) := by
    refine hev.mono fun t ⟨q, a1, a2, a3, _⟩ => ?_
    unfold lossOfExpectations
    beta_reduce
    rw [a1]
    show quadLoss q = _
    unfold quadLoss
    rw [show ssmToExpectations q = .ok (expPar q) from ssmToExpectations_eq q a2 one_pos one_pos]
    show (expPar q).2.1 0 0 0 + (expPar q).2.1 1 0 0 - 3 / 2 * (expPar q).2.2 0 0 0 = _
    rw [a3]
    simp only [Prod.fst_add, Prod.snd_add, Prod.smul_fst, Prod.smul_snd, Pi.add_apply, Pi.smul_apply, Matrix.add_apply,
      Matrix.smul_apply, smul_eq_mul]
    ring
  refine HasDerivAt.congr_of_eventuallyEq ?_ key
  refine (((hasDerivAt_id (0 : ℝ)).mul_const _).const_add _).congr_deriv ?_
  simp [pairing, pairEta, Fin.sum_univ_two]
  ring

open Filter Topology in
theorem pair_gradient_theta : IsGradient (lossOfNaturals quadLoss) (ssmToNaturals pairSSM) pairTheta := by
  refine ⟨fun b => by ext i j; fin_cases i; fin_cases j; rfl, fun h hh => ?_⟩
  rw [pair_naturals]
  set a : ℝ → ℝ := fun t => 25 / 9 - 2 * (t * h.2.1 0 0 0) with ha
  set c : ℝ → ℝ := fun t => 25 / 9 - 2 * (t * h.2.1 1 0 0) with hc
  set b : ℝ → ℝ := fun t => -(20 / 9) - t * h.2.2 0 0 0 with hb
  set Δ : ℝ → ℝ := fun t => a t * c t - b t * b t with hΔ
  have dl : ∀ k : ℝ, HasDerivAt (fun t : ℝ => t * k) k 0 := fun k => by
    simpa using (hasDerivAt_id (0 : ℝ)).mul_const k
  have da : HasDerivAt a (-(2 * h.2.1 0 0 0)) 0 := by
    have := ((dl (h.2.1 0 0 0)).const_mul 2).const_sub (25 / 9)
    exact this
  have dc : HasDerivAt c (-(2 * h.2.1 1 0 0)) 0 := ((dl (h.2.1 1 0 0)).const_mul 2).const_sub (25 / 9)
  have db : HasDerivAt b (-(h.2.2 0 0 0)) 0 := (dl (h.2.2 0 0 0)).const_sub (-(20 / 9))
  have a0 : a 0 = 25 / 9 := by simp [ha]
  have c0 : c 0 = 25 / 9 := by simp [hc]
  have b0 : b 0 = -(20 / 9) := by simp [hb]
  have dΔ : HasDerivAt Δ (-(50 / 9) * (h.2.1 0 0 0 + h.2.1 1 0 0) - 40 / 9 * h.2.2 0 0 0) 0 := by
    refine ((da.mul dc).sub (db.mul db)).congr_deriv ?_
    rw [a0, b0, c0]; ring
  have Δ0 : Δ 0 = 25 / 9 := by simp only [hΔ, a0, b0, c0]; norm_num
  have hΔne : Δ 0 ≠ 0 := by rw [Δ0]; norm_num
  set u : ℝ → ℝ := fun t => (c t * (t * h.1 0 0) - b t * (t * h.1 1 0)) / Δ t with hu
  set w : ℝ → ℝ := fun t => (a t * (t * h.1 1 0) - b t * (t * h.1 0 0)) / Δ t with hw
  obtain ⟨u', du⟩ : ∃ u', HasDerivAt u u' 0 := ⟨_, ((dc.mul (dl _)).sub (db.mul (dl _))).div dΔ hΔne⟩
  obtain ⟨w', dw⟩ : ∃ w', HasDerivAt w w' 0 := ⟨_, ((da.mul (dl _)).sub (db.mul (dl _))).div dΔ hΔne⟩
  have u0 : u 0 = 0 := by simp [hu]
  have w0 : w 0 = 0 := by simp [hw]
  have hev : ∀ᶠ t in 𝓝 0, 0 < Δ t ∧ 0 < a t := by
    refine (dΔ.continuousAt.eventually (lt_mem_nhds ?_)).and (da.continuousAt.eventually (lt_mem_nhds ?_))
    · rw [Δ0]; norm_num
    · rw [a0]; norm_num
  have key : (fun t : ℝ => lossOfNaturals quadLoss (((0, fun _ _ _ => -(25 / 18), fun _ _ _ => 20 / 9) : ExpPar 1 1) + t • h)) =ᶠ[𝓝 0]
      fun t => (c t / Δ t + u t * u t) + (a t / Δ t + w t * w t) - 3 / 2 * (-b t / Δ t + w t * u t) := by
    refine hev.mono fun t ⟨hp, hpa⟩ => ?_
    beta_reduce
    generalize hθ : (((0, fun _ _ _ => -(25 / 18), fun _ _ _ => 20 / 9) : ExpPar 1 1) + t • h) = θ
    have ea : a t = -2 * θ.2.1 0 0 0 := by
      rw [← hθ]; show 25 / 9 - 2 * (t * h.2.1 0 0 0) = -2 * (-(25 / 18) + t * h.2.1 0 0 0); ring
    have ec : c t = -2 * θ.2.1 1 0 0 := by
      rw [← hθ]; show 25 / 9 - 2 * (t * h.2.1 1 0 0) = -2 * (-(25 / 18) + t * h.2.1 1 0 0); ring
    have eb : b t = -θ.2.2 0 0 0 := by
      rw [← hθ]; show -(20 / 9) - t * h.2.2 0 0 0 = -(20 / 9 + t * h.2.2 0 0 0); ring
    have el : ∀ i, θ.1 i 0 = t * h.1 i 0 := fun i => by
      rw [← hθ]; show 0 + t * h.1 i 0 = _; ring
    have hsym : ∀ k, (θ.2.1 k)ᵀ = θ.2.1 k := fun k => by ext i j; rw [Subsingleton.elim i j]; rfl
    have hprop : (denseSym (fun k => (-2 : ℝ) • θ.2.1 k) fun k => -θ.2.2 k).PosDef := by
      have e00 : denseSym (fun k => (-2 : ℝ) • θ.2.1 k) (fun k => -θ.2.2 k) (0, 0) (0, 0) = a t := by
        rw [ea]; simp [denseSym, ofBlk, symBlk]
      have e11 : denseSym (fun k => (-2 : ℝ) • θ.2.1 k) (fun k => -θ.2.2 k) (1, 0) (1, 0) = c t := by
        rw [ec]; simp [denseSym, ofBlk, symBlk]
      have e10 : denseSym (fun k => (-2 : ℝ) • θ.2.1 k) (fun k => -θ.2.2 k) (1, 0) (0, 0) = b t := by
        rw [eb]; simp [denseSym, ofBlk, symBlk]
      have e01 : denseSym (fun k => (-2 : ℝ) • θ.2.1 k) (fun k => -θ.2.2 k) (0, 0) (1, 0) = b t := by
        rw [eb]; simp [denseSym, ofBlk, symBlk]
      generalize denseSym (fun k => (-2 : ℝ) • θ.2.1 k) (fun k => -θ.2.2 k) = P at *
      refine PosDef.of_dotProduct_mulVec_pos ?_ fun x hx => ?_
      · ext ⟨p, i⟩ ⟨q, j⟩
        obtain rfl : i = 0 := Subsingleton.elim _ _
        obtain rfl : j = 0 := Subsingleton.elim _ _
        rw [conjTranspose_apply, star_trivial]
        fin_cases p <;> fin_cases q <;> simp [e01, e10]
      · have e : star x ⬝ᵥ P *ᵥ x = a t * x (0, 0) ^ 2 + 2 * b t * (x (0, 0) * x (1, 0)) + c t * x (1, 0) ^ 2 := by
          simp only [star_trivial, dotProduct, mulVec, Fintype.sum_prod_type, Fin.sum_univ_one]
          rw [Fin.sum_univ_two, Fin.sum_univ_two, Fin.sum_univ_two, e00, e01, e10, e11]; ring
        rw [e]
        have id : a t * (a t * x (0, 0) ^ 2 + 2 * b t * (x (0, 0) * x (1, 0)) + c t * x (1, 0) ^ 2) =
            (a t * x (0, 0) + b t * x (1, 0)) ^ 2 + Δ t * x (1, 0) ^ 2 := by simp only [hΔ]; ring
        refine pos_of_mul_pos_right (a := a t) ?_ hpa.le
        rw [id]
        rcases eq_or_ne (x (1, 0)) 0 with h1 | h1
        · have h2 : x (0, 0) ≠ 0 := fun h2 => hx (by
            funext ⟨p, i⟩
            obtain rfl : i = 0 := Subsingleton.elim _ _
            fin_cases p
            · exact h2
            · exact h1)
          rw [h1]
          have : 0 < (a t * x (0, 0)) ^ 2 := by positivity
          simpa using this
        · have : 0 < Δ t * x (1, 0) ^ 2 := by positivity
          positivity
    obtain ⟨s, s1, s2, s3⟩ := C17_naturals_round_trip θ.1 θ.2.1 θ.2.2 one_pos one_pos hsym hprop
    obtain ⟨k1, k2, k3, k4, k5⟩ := scalar_pair s2 s3 ea eb ec rfl hp.ne'
    unfold lossOfNaturals
    rw [s1]
    show quadLoss s = _
    rw [quadLoss_eq s2, k1, k2, k3, k4, k5, el, el]
  refine HasDerivAt.congr_of_eventuallyEq ?_ key
  have d := (((dc.div dΔ hΔne).add (du.mul du)).add ((da.div dΔ hΔne).add (dw.mul dw))).sub
    (((db.neg.div dΔ hΔne).add (dw.mul du)).const_mul (3 / 2))
  refine d.congr_deriv ?_
  simp only [Pi.neg_apply, u0, w0, a0, b0, c0, Δ0]
  simp [pairing, pairTheta, Fin.sum_univ_two]
  ring

/-- C39, negative result: the number that the momentum variant uses as the squared length of the natural gradient is not
`(∂L/∂η)ᵀ (∂L/∂θ)`: the off-diagonal part is counted twice (although `∂L/∂η` for the off-diagonal block already pairs with the whole
off-diagonal parameter), so that it can be negative. Then the very first call fails, for every learning rate and all momentum parameters
(`0 ≤ β₂ < 1`), although the gradients are correct and their true product is positive. Loss: the expectation of
`x₀² + x₁² - 1.5 x₀ x₁`, two scalar states with correlation 4/5. -/
theorem C39_momentum_norm_negative :
    pairSSM.Nondegenerate ∧
    (∀ η, ssmToExpectations pairSSM = .ok η → IsGradient (lossOfExpectations quadLoss) η pairEta) ∧
    IsGradient (lossOfNaturals quadLoss) (ssmToNaturals pairSSM) pairTheta ∧
    pairing pairEta pairTheta = 13 / 20 ∧ NatGrad.natgradNorm pairEta pairTheta = -(23 / 50) ∧
    ∀ gamma beta1 beta2 epsilon : ℝ, beta2 < 1 →
      (NatGrad.init gamma true beta1 beta2 epsilon).step pairSSM pairEta pairTheta = .error .invalidArgument := by
  have hp : pairing pairEta pairTheta = 13 / 20 := by
    simp [pairing, pairEta, pairTheta, Fin.sum_univ_two]; norm_num
  have hnorm : NatGrad.natgradNorm pairEta pairTheta = -(23 / 50) := by
    simp [NatGrad.natgradNorm, pairEta, pairTheta, Fin.sum_univ_two]; norm_num
  refine ⟨pairSSM_nondegenerate, fun η hη => pair_gradient_eta hη, pair_gradient_theta, hp, hnorm, ?_⟩
  intro gamma beta1 beta2 epsilon hb
  unfold NatGrad.step
  have : (0 : ℝ) * beta2 + (1 - beta2) * -(23 / 50) < 0 := by nlinarith
  simp only [NatGrad.init, if_true, hnorm, Bind.bind, Except.bind, if_pos this]

/-- Non-vacuity of the gradient hypotheses: for every conjugate loss there is such a gradient function. -/
theorem givesGradient_exists {p : SSM n d} (hp : p.Nondegenerate) (hn : 0 < n) (hd : 0 < d) {L : SSM n d → ℝ} {c : ℝ}
    (hL : ∀ s : SSM n d, s.Nondegenerate → L s = (klDiv s.law p.law).toReal + c) :
    GivesGradient L fun _ q => (ssmToNaturals q - ssmToNaturals p, 0) := fun _ q _ hq hη =>
  (C39_gradient_of_kl hq hp hn hd hL hη _).2 rfl

/-- Non-vacuity: rate 1/2, starting from a model different from the target. -/
example : ∃ (opt : NatGrad 2 2) (q : SSM 2 2) (L : SSM 2 2 → ℝ) (grad : ℕ → SSM 2 2 → ExpPar 2 2 × ExpPar 2 2),
    opt.momentum = false ∧ 0 < opt.gamma ∧ opt.gamma < 1 ∧ q.Nondegenerate ∧ exSSM.Nondegenerate ∧ q.mu0 ≠ exSSM.mu0 ∧
    (∀ s : SSM 2 2, s.Nondegenerate → L s = (klDiv s.law exSSM.law).toReal + 3) ∧ GivesGradient L grad :=
  ⟨NatGrad.init (1 / 2) false 0 0 0, { exSSM with mu0 := exSSM.mu0 + 1 }, fun s => (klDiv s.law exSSM.law).toReal + 3, _, rfl,
    by norm_num [NatGrad.init], by norm_num [NatGrad.init], exSSM_nondegenerate, exSSM_nondegenerate,
    fun h => by have := congrFun h 0; simp at this, fun _ _ => rfl,
    givesGradient_exists exSSM_nondegenerate (by norm_num) (by norm_num) (c := 3) fun _ _ => rfl⟩

end MF
