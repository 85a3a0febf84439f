import Verif.Lemmas.HullBound

/-!
# C84: natural gradient training of the sparse variational GP on random minibatches (Gaussian likelihood)
-/

namespace MF
open Matrix Spec MeasureTheory ProbabilityTheory InformationTheory Filter Topology
variable {n d o p N : ℕ}

/-- One step on a loss that is a divergence, up to a constant. -/
theorem conjugate_step {r P : SSM n d} (hr : r.Nondegenerate) (hP : P.Nondegenerate) (hn : 0 < n) (hd : 0 < d) {L : SSM n d → ℝ} {c : ℝ}
    (hL : ∀ s : SSM n d, s.Nondegenerate → L s = (klDiv s.law P.law).toReal + c)
    {grad : SSM n d → ExpPar n d × ExpPar n d} (hgrad : GivesGradient L fun _ => grad) (opt : NatGrad n d) (hm : opt.momentum = false)
    (h0 : 0 ≤ opt.gamma) (h1 : opt.gamma ≤ 1) :
    ∃ r', opt.step r (grad r).1 (grad r).2 = .ok (opt, r') ∧ r'.Nondegenerate ∧
      ssmToNaturals r' = (1 - opt.gamma) • ssmToNaturals r + opt.gamma • ssmToNaturals P := by
  obtain ⟨r', a1, a2, a3, -⟩ := C39_conjugate hr hP hn hd hL hgrad opt hm h0 h1 1
  refine ⟨r', a1, a2, by rw [a3, pow_one, sub_sub_cancel]⟩

theorem Spec.Optimum.lossOf {v : SVGP n o d} {X : Fin p → ℝ} {Y : Fin p → Vec o} {best : SSM n d} (h : Optimum v X Y best) :
    ∃ E : ℝ, ∀ s : SSM n d, s.Nondegenerate → v.lossOf X Y s = (klDiv s.law best.law).toReal + -E := by
  obtain ⟨-, E, hE⟩ := h
  refine ⟨E, fun s hs => ?_⟩
  unfold SVGP.lossOf SVGP.loss
  rw [(hE s hs).2]
  simp only [Bind.bind, Except.bind, Pure.pure, Except.pure]
  show -(E - _) = _
  ring

/-- Every minibatch has an optimum. -/
theorem exists_optimum {v : SVGP n o d} {k} (h : v.Valid k) {σ2 : ℝ} (hσ : 0 < σ2) (hlik : v.likelihood = gaussianLikelihood σ2)
    {X : Fin p → ℝ} (h0 : ∀ j, -10000000000 < X j) (h1 : ∀ j, X j ≤ 10000000000) (Y : Fin p → Vec o) : ∃ best, Optimum v X Y best := by
  obtain ⟨qs, E, a, b, -⟩ := C69_gaussian h hσ hlik h0 h1 Y
  exact ⟨qs, a, E, b⟩

/-- The natural parameters of the optimum of a minibatch are the average of those of its data. -/
theorem optimum_minibatch {v : SVGP n o d} (hN : v.numData = some N) {X : Fin N → ℝ} {Y : Fin N → Vec o} {best : SSM n d}
    (hbest : Optimum v X Y best) {one : Fin N → SSM n d} (hone : ∀ j, Optimum v (fun _ : Fin 1 => X j) (fun _ => Y j) (one j)) (hp : 0 < p)
    (f : Fin p → Fin N) {b : SSM n d} (hb : Optimum v (X ∘ f) (Y ∘ f) b) :
    ssmToNaturals b = ∑ i, (p : ℝ)⁻¹ • ssmToNaturals (one (f i)) := by
  have hp' : (p : ℝ) ≠ 0 := Nat.cast_ne_zero.2 hp.ne'
  obtain ⟨hbn, Eb, hEb⟩ := hb
  obtain ⟨-, E, hE⟩ := hbest
  choose hon E1 hE1 using hone
  refine naturals_of_kl_average (w := fun _ => (p : ℝ)⁻¹) (c := ∑ i, (p : ℝ)⁻¹ * E1 (f i) - Eb) ?_ (fun i => hon (f i)) hbn fun s hs => ?_
  · rw [Finset.sum_const, Finset.card_univ, Fintype.card_fin, nsmul_eq_mul, mul_inv_cancel₀ hp']
  · obtain ⟨g, kl, -, hg⟩ := SVGP.elbo_comp (hE s hs).2
    have e1 := Except.ok.inj ((hEb s hs).2.symm.trans (hg f))
    have e2 : ∀ i, E1 (f i) - (klDiv s.law (one (f i)).law).toReal = (N : ℝ) * g (f i) - kl := fun i => by
      have := Except.ok.inj ((hE1 (f i) s hs).2.symm.trans (hg fun _ : Fin 1 => f i))
      rw [this, SVGP.scale, hN]
      simp
    have e3 : v.scale p = N / p := by rw [SVGP.scale, hN]
    have e4 : ({ v with q := s } : SVGP n o d).scale p = N / p := e3
    rw [e4] at e1
    have e5 : ∀ i, (p : ℝ)⁻¹ * (klDiv s.law (one (f i)).law).toReal = (p : ℝ)⁻¹ * E1 (f i) - ((p : ℝ)⁻¹ * (N : ℝ)) * g (f i) + (p : ℝ)⁻¹ * kl := fun i => by
      linear_combination -(p : ℝ)⁻¹ * e2 i
    rw [Finset.sum_congr rfl fun i _ => e5 i, Finset.sum_add_distrib, Finset.sum_sub_distrib, ← Finset.mul_sum, ← Finset.mul_sum,
      Finset.sum_const, Finset.card_univ, Fintype.card_fin, nsmul_eq_mul, ← mul_assoc, mul_inv_cancel₀ hp']
    linear_combination e1

/-- C84: training never fails. For a Gaussian likelihood, from any `dist_q`, on any sequence of minibatches of any size, with any rates in `[0, 1]`,
every call of `minimize` succeeds. -/
theorem C84_runs {v : SVGP n o d} {k} (h : v.Valid k) {σ2 : ℝ} (hσ : 0 < σ2) (hlik : v.likelihood = gaussianLikelihood σ2)
    {X : Fin N → ℝ} (h0 : ∀ j, -10000000000 < X j) (h1 : ∀ j, X j ≤ 10000000000) (Y : Fin N → Vec o)
    {grad : (Fin p → Fin N) → SSM n d → ExpPar n d × ExpPar n d} (hgrad : ∀ f, GivesGradient (v.lossOf (X ∘ f) (Y ∘ f)) fun _ => grad f)
    (opt : NatGrad n d) (hm : opt.momentum = false) {γ : ℕ → ℝ} (hγ : ∀ t, 0 ≤ γ t ∧ γ t ≤ 1) (T : ℕ) (F : Fin T → Fin p → Fin N) :
    ∃ o q, NatGrad.train grad γ opt v.q T F = .ok (o, q) ∧ o.momentum = false ∧ q.Nondegenerate := by
  obtain ⟨hc, -, -⟩ := Builds.good h.builds
  induction T with
  | zero => exact ⟨opt, v.q, rfl, hm, h.q⟩
  | succ T ih =>
    obtain ⟨o1, q1, a1, a2, a3⟩ := ih fun i => F i.castSucc
    obtain ⟨b, hb⟩ := exists_optimum h hσ hlik (X := X ∘ F (Fin.last T)) (fun _ => h0 _) (fun _ => h1 _) (Y ∘ F (Fin.last T))
    obtain ⟨E, hE⟩ := hb.lossOf
    obtain ⟨r, c1, c2, -⟩ := conjugate_step a3 hb.1 h.two hc.pos hE (hgrad (F (Fin.last T))) { o1 with gamma := γ T } a2 (hγ T).1 (hγ T).2
    refine ⟨{ o1 with gamma := γ T }, r, ?_, a2, c2⟩
    simp only [NatGrad.train, a1, Bind.bind, Except.bind]
    exact c1

/-- The effect of training on the natural parameters. -/
theorem Spec.TrainedOn.step {v : SVGP n o d} {k} (h : v.Valid k) {σ2 : ℝ} (hσ : 0 < σ2) (hlik : v.likelihood = gaussianLikelihood σ2)
    {X : Fin N → ℝ} (h0 : ∀ j, -10000000000 < X j) (h1 : ∀ j, X j ≤ 10000000000) {Y : Fin N → Vec o} {γ : ℕ → ℝ}
    {q : (T : ℕ) → (Fin T → Fin p → Fin N) → SSM n d} (hq : TrainedOn v X Y γ q) :
    ∃ b : (Fin p → Fin N) → SSM n d, (∀ f, Optimum v (X ∘ f) (Y ∘ f) (b f)) ∧ (∀ F, q 0 F = v.q) ∧ (∀ T F, (q T F).Nondegenerate) ∧
      ∀ T F, ssmToNaturals (q (T + 1) F) =
        (1 - γ T) • ssmToNaturals (q T fun i => F i.castSucc) + γ T • ssmToNaturals (b (F (Fin.last T))) := by
  obtain ⟨hc, -, -⟩ := Builds.good h.builds
  obtain ⟨hγ, grad, opt, hm, hgrad, hrun⟩ := hq
  choose b hb using fun f : Fin p → Fin N => exists_optimum h hσ hlik (X := X ∘ f) (fun _ => h0 _) (fun _ => h1 _) (Y ∘ f)
  have hnd : ∀ T F, ∃ o, NatGrad.train grad γ opt v.q T F = .ok (o, q T F) ∧ o.momentum = false ∧ (q T F).Nondegenerate := fun T F => by
    obtain ⟨o1, a1⟩ := hrun T F
    obtain ⟨o2, q2, b1, b2, b3⟩ := C84_runs h hσ hlik h0 h1 Y hgrad opt hm hγ T F
    obtain ⟨rfl, rfl⟩ := Prod.mk.inj (Except.ok.inj (a1.symm.trans b1))
    exact ⟨o1, a1, b2, b3⟩
  refine ⟨b, hb, fun F => ?_, fun T F => (hnd T F).choose_spec.2.2, fun T F => ?_⟩
  · obtain ⟨o1, a1⟩ := hrun 0 F
    exact (Prod.mk.inj (Except.ok.inj a1)).2.symm
  · obtain ⟨o1, a1, a2, a3⟩ := hnd T fun i => F i.castSucc
    obtain ⟨E, hE⟩ := (hb (F (Fin.last T))).lossOf
    obtain ⟨r, c1, c2, c3⟩ := conjugate_step a3 (hb (F (Fin.last T))).1 h.two hc.pos hE (hgrad (F (Fin.last T))) { o1 with gamma := γ T } a2
      (hγ T).1 (hγ T).2
    obtain ⟨o2, d1⟩ := hrun (T + 1) F
    simp only [NatGrad.train, a1, Bind.bind, Except.bind] at d1
    have := Except.ok.inj (d1.symm.trans c1)
    rw [(Prod.mk.inj this).2]
    exact c3

/-- The optima of the minibatches scatter around the optimum of the full objective. -/
theorem optimum_average {v : SVGP n o d} (hN : v.numData = some N) (hN0 : 0 < N) {X : Fin N → ℝ} {Y : Fin N → Vec o} {best : SSM n d}
    (hbest : Optimum v X Y best) {one : Fin N → SSM n d} (hone : ∀ j, Optimum v (fun _ : Fin 1 => X j) (fun _ => Y j) (one j)) :
    ssmToNaturals best = average fun j => ssmToNaturals (one j) := by
  rw [optimum_minibatch hN hbest hone hN0 id hbest, ← Finset.smul_sum, Spec.average, Fintype.card_fin]
  rfl

theorem exists_one {v : SVGP n o d} {k} (h : v.Valid k) {σ2 : ℝ} (hσ : 0 < σ2) (hlik : v.likelihood = gaussianLikelihood σ2)
    {X : Fin N → ℝ} (h0 : ∀ j, -10000000000 < X j) (h1 : ∀ j, X j ≤ 10000000000) (Y : Fin N → Vec o) :
    ∃ one : Fin N → SSM n d, ∀ j, Optimum v (fun _ : Fin 1 => X j) (fun _ => Y j) (one j) := by
  choose one hone using fun j => exists_optimum h hσ hlik (X := fun _ : Fin 1 => X j) (fun _ => h0 _) (fun _ => h1 _) fun _ => Y j
  exact ⟨one, hone⟩

/-- C84: the average over all sequences of minibatches. The expected natural parameters after `T` steps are those of training on the full data: they
move from the start to the optimum by the factor `Π (1 - γ t)`. -/
theorem C84_mean {v : SVGP n o d} {k} (h : v.Valid k) {σ2 : ℝ} (hσ : 0 < σ2) (hlik : v.likelihood = gaussianLikelihood σ2)
    (hN : v.numData = some N) (hN0 : 0 < N) (hp : 0 < p) {X : Fin N → ℝ} (h0 : ∀ j, -10000000000 < X j) (h1 : ∀ j, X j ≤ 10000000000)
    {Y : Fin N → Vec o} {best : SSM n d} (hbest : Optimum v X Y best) {γ : ℕ → ℝ} {q : (T : ℕ) → (Fin T → Fin p → Fin N) → SSM n d}
    (hq : TrainedOn v X Y γ q) (T : ℕ) :
    average (fun F => ssmToNaturals (q T F)) = (∏ t ∈ Finset.range T, (1 - γ t)) • ssmToNaturals v.q +
      (1 - ∏ t ∈ Finset.range T, (1 - γ t)) • ssmToNaturals best := by
  have : Nonempty (Fin N) := ⟨⟨0, hN0⟩⟩
  have hp' : (p : ℝ) ≠ 0 := Nat.cast_ne_zero.2 hp.ne'
  obtain ⟨one, hone⟩ := exists_one h hσ hlik h0 h1 Y
  obtain ⟨b, hb, q0, -, qs⟩ := Spec.TrainedOn.step h hσ hlik h0 h1 hq
  have hav : average (fun f => ssmToNaturals (b f)) = ssmToNaturals best := by
    have e : (fun f => ssmToNaturals (b f)) = fun f => (p : ℝ)⁻¹ • ∑ i, ssmToNaturals (one (f i)) := by
      funext f; rw [optimum_minibatch hN hbest hone hp f (hb f), Finset.smul_sum]
    rw [e, Spec.average_smul, average_sum_batch fun j => ssmToNaturals (one j), smul_smul, inv_mul_cancel₀ hp', one_smul,
      ← optimum_average hN hN0 hbest hone]
  induction T with
  | zero => simp [Spec.average, q0]
  | succ T ih =>
    simp only [qs]
    rw [Spec.average_snoc fun F f => (1 - γ T) • ssmToNaturals (q T F) + γ T • ssmToNaturals (b f)]
    simp only [Spec.average_add, Spec.average_smul, Spec.average_const, hav, ih]
    rw [Finset.prod_range_succ]
    module

/-- C84: the scatter. For every linear function `φ` of the natural parameters (for instance one of their entries), the expected squared distance to
the optimum follows an exact recursion: each step contracts it by `(1 - γ)²` and adds `γ² / p` times the scatter of the optima of single data. -/
theorem C84_scatter {v : SVGP n o d} {k} (h : v.Valid k) {σ2 : ℝ} (hσ : 0 < σ2) (hlik : v.likelihood = gaussianLikelihood σ2)
    (hN : v.numData = some N) (hN0 : 0 < N) (hp : 0 < p) {X : Fin N → ℝ} (h0 : ∀ j, -10000000000 < X j) (h1 : ∀ j, X j ≤ 10000000000)
    {Y : Fin N → Vec o} {best : SSM n d} (hbest : Optimum v X Y best) {one : Fin N → SSM n d}
    (hone : ∀ j, Optimum v (fun _ : Fin 1 => X j) (fun _ => Y j) (one j)) {γ : ℕ → ℝ}
    {q : (T : ℕ) → (Fin T → Fin p → Fin N) → SSM n d} (hq : TrainedOn v X Y γ q) (φ : ExpPar n d →ₗ[ℝ] ℝ) :
    average (fun F => φ (ssmToNaturals (q 0 F) - ssmToNaturals best) ^ 2) = φ (ssmToNaturals v.q - ssmToNaturals best) ^ 2 ∧
    ∀ T, average (fun F => φ (ssmToNaturals (q (T + 1) F) - ssmToNaturals best) ^ 2) =
      (1 - γ T) ^ 2 * average (fun F => φ (ssmToNaturals (q T F) - ssmToNaturals best) ^ 2) +
      γ T ^ 2 * (average (fun j => φ (ssmToNaturals (one j) - ssmToNaturals best) ^ 2) / p) := by
  have : Nonempty (Fin N) := ⟨⟨0, hN0⟩⟩
  have hp' : (p : ℝ) ≠ 0 := Nat.cast_ne_zero.2 hp.ne'
  obtain ⟨b, hb, q0, -, qs⟩ := Spec.TrainedOn.step h hσ hlik h0 h1 hq
  set δ : Fin N → ℝ := fun j => φ (ssmToNaturals (one j) - ssmToNaturals best) with hδ
  have hδ0 : average δ = 0 := by
    rw [hδ, Spec.average_map φ fun j => (ssmToNaturals (one j) - ssmToNaturals best : ExpPar n d),
      Spec.average_sub (fun j => (ssmToNaturals (one j) : ExpPar n d)) fun _ => ssmToNaturals best,
      Spec.average_const, ← optimum_average hN hN0 hbest hone, sub_self, map_zero]
  have hf : ∀ f, φ (ssmToNaturals (b f) - ssmToNaturals best) = (p : ℝ)⁻¹ * ∑ i, δ (f i) := fun f => by
    have e : (ssmToNaturals best : ExpPar n d) = ∑ _i : Fin p, (p : ℝ)⁻¹ • ssmToNaturals best := by
      rw [Finset.sum_const, Finset.card_univ, Fintype.card_fin, ← Nat.cast_smul_eq_nsmul ℝ, smul_smul, mul_inv_cancel₀ hp', one_smul]
    rw [e, optimum_minibatch hN hbest hone hp f (hb f), ← Finset.sum_sub_distrib, map_sum, Finset.mul_sum]
    refine Finset.sum_congr rfl fun i _ => ?_
    rw [← smul_sub, map_smul]; rfl
  have hv : average (fun f => φ (ssmToNaturals (b f) - ssmToNaturals best) ^ 2) = average (fun j => δ j ^ 2) / p := by
    simp only [hf, mul_pow]
    rw [Spec.average_mul, average_sq_batch δ hδ0]
    field_simp
  have hm : average (fun f => φ (ssmToNaturals (b f) - ssmToNaturals best)) = 0 := by
    simp only [hf]
    rw [Spec.average_mul, average_sum_batch δ, hδ0, smul_zero, mul_zero]
  refine ⟨by simp [Spec.average, q0], fun T => ?_⟩
  rw [← hv, ← average_sq_snoc (1 - γ T) (γ T) (fun F => φ (ssmToNaturals (q T F) - ssmToNaturals best)) _ hm]
  congr 1
  funext F
  rw [qs T F, show (1 - γ T) • ssmToNaturals (q T fun i => F i.castSucc) + γ T • ssmToNaturals (b (F (Fin.last T))) - ssmToNaturals best =
    (1 - γ T) • (ssmToNaturals (q T fun i => F i.castSucc) - ssmToNaturals best : ExpPar n d) +
      γ T • (ssmToNaturals (b (F (Fin.last T))) - ssmToNaturals best) by module, map_add, map_smul, map_smul]
  rfl

/-- C84: convergence. With rates in `[0, 1]` that tend to zero and have a divergent sum, the natural parameters converge in mean square to those of
the optimum of the full objective. -/
theorem C84_converges {v : SVGP n o d} {k} (h : v.Valid k) {σ2 : ℝ} (hσ : 0 < σ2) (hlik : v.likelihood = gaussianLikelihood σ2)
    (hN : v.numData = some N) (hN0 : 0 < N) (hp : 0 < p) {X : Fin N → ℝ} (h0 : ∀ j, -10000000000 < X j) (h1 : ∀ j, X j ≤ 10000000000)
    {Y : Fin N → Vec o} {best : SSM n d} (hbest : Optimum v X Y best) {γ : ℕ → ℝ} {q : (T : ℕ) → (Fin T → Fin p → Fin N) → SSM n d}
    (hq : TrainedOn v X Y γ q) (hγ : Tendsto γ atTop (𝓝 0)) (hs : Tendsto (fun T => ∑ t ∈ Finset.range T, γ t) atTop atTop)
    (φ : ExpPar n d →ₗ[ℝ] ℝ) :
    Tendsto (fun T => average fun F => φ (ssmToNaturals (q T F) - ssmToNaturals best) ^ 2) atTop (𝓝 0) := by
  obtain ⟨one, hone⟩ := exists_one h hσ hlik h0 h1 Y
  have hr := (C84_scatter h hσ hlik hN hN0 hp h0 h1 hbest hone hq φ).2
  set V := average (fun j => φ (ssmToNaturals (one j) - ssmToNaturals best) ^ 2) / p with hV
  refine tendsto_of_rates (ε := fun t => γ t * V) (fun T => Spec.average_nonneg fun F => sq_nonneg _) hq.rate hs
    (by simpa using hγ.mul_const V) fun T => ?_
  rw [hr T]
  have hx : 0 ≤ average fun F => φ (ssmToNaturals (q T F) - ssmToNaturals best) ^ 2 := Spec.average_nonneg fun F => sq_nonneg _
  obtain ⟨g0, g1⟩ := hq.rate T
  nlinarith [mul_nonneg (mul_nonneg g0 (sub_nonneg.2 g1)) hx]

/-- C84: constant rates. With one rate `γ` in `(0, 1]` the expected natural parameters converge to those of the optimum, but the mean square
distance does not tend to zero: its limit is `γ / (2 - γ)` times the scatter of the optima of minibatches. -/
theorem C84_constant {v : SVGP n o d} {k} (h : v.Valid k) {σ2 : ℝ} (hσ : 0 < σ2) (hlik : v.likelihood = gaussianLikelihood σ2)
    (hN : v.numData = some N) (hN0 : 0 < N) (hp : 0 < p) {X : Fin N → ℝ} (h0 : ∀ j, -10000000000 < X j) (h1 : ∀ j, X j ≤ 10000000000)
    {Y : Fin N → Vec o} {best : SSM n d} (hbest : Optimum v X Y best) {one : Fin N → SSM n d}
    (hone : ∀ j, Optimum v (fun _ : Fin 1 => X j) (fun _ => Y j) (one j)) {γ : ℝ} (hγ : 0 < γ)
    {q : (T : ℕ) → (Fin T → Fin p → Fin N) → SSM n d} (hq : TrainedOn v X Y (fun _ => γ) q) (φ : ExpPar n d →ₗ[ℝ] ℝ) :
    Tendsto (fun T => average fun F => φ (ssmToNaturals (q T F))) atTop (𝓝 (φ (ssmToNaturals best))) ∧
    Tendsto (fun T => average fun F => φ (ssmToNaturals (q T F) - ssmToNaturals best) ^ 2) atTop
      (𝓝 (γ / (2 - γ) * (average (fun j => φ (ssmToNaturals (one j) - ssmToNaturals best) ^ 2) / p))) := by
  have hγ1 : γ ≤ 1 := (hq.rate 0).2
  have hpow : Tendsto (fun T : ℕ => (1 - γ) ^ T) atTop (𝓝 0) := tendsto_pow_atTop_nhds_zero_of_lt_one (by linarith) (by linarith)
  constructor
  · have e : (fun T => average fun F => φ (ssmToNaturals (q T F))) = fun T : ℕ => (1 - γ) ^ T * φ (ssmToNaturals v.q) +
        (1 - (1 - γ) ^ T) * φ (ssmToNaturals best) := by
      funext T
      have := C84_mean h hσ hlik hN hN0 hp h0 h1 hbest hq T
      rw [Spec.average_map φ fun F => (ssmToNaturals (q T F) : ExpPar n d), this, map_add, map_smul, map_smul, Finset.prod_const,
        Finset.card_range, smul_eq_mul, smul_eq_mul]
    rw [e]
    have := (hpow.mul_const (φ (ssmToNaturals v.q))).add (((tendsto_const_nhds (x := (1 : ℝ))).sub hpow).mul_const (φ (ssmToNaturals best)))
    simpa using this
  · obtain ⟨-, hr⟩ := C84_scatter h hσ hlik hN hN0 hp h0 h1 hbest hone hq φ
    set V := average (fun j => φ (ssmToNaturals (one j) - ssmToNaturals best) ^ 2) / p with hV
    have h2 : (2 - γ) ≠ 0 := by linarith
    have e : ∀ T, average (fun F => φ (ssmToNaturals (q T F) - ssmToNaturals best) ^ 2) = γ / (2 - γ) * V +
        ((1 - γ) ^ T) ^ 2 * (average (fun F => φ (ssmToNaturals (q 0 F) - ssmToNaturals best) ^ 2) - γ / (2 - γ) * V) := fun T => by
      induction T with
      | zero => simp
      | succ T ih =>
        rw [hr T, ih, pow_succ]
        field_simp
        ring
    refine Tendsto.congr (fun T => (e T).symm) ?_
    have := (tendsto_const_nhds (x := γ / (2 - γ) * V)).add ((hpow.pow 2).mul_const
      (average (fun F => φ (ssmToNaturals (q 0 F) - ssmToNaturals best) ^ 2) - γ / (2 - γ) * V))
    simpa using this

/-- C84: rates `1 / (t + 1)`. After `T ≥ 1` steps the expected natural parameters are exactly those of the optimum, whatever the start, and the mean
square distance is `1 / (T p)` times the scatter of the optima of single data: `T` steps on minibatches of `p` are worth one on `T p` data. -/
theorem C84_averaging_rates {v : SVGP n o d} {k} (h : v.Valid k) {σ2 : ℝ} (hσ : 0 < σ2) (hlik : v.likelihood = gaussianLikelihood σ2)
    (hN : v.numData = some N) (hN0 : 0 < N) (hp : 0 < p) {X : Fin N → ℝ} (h0 : ∀ j, -10000000000 < X j) (h1 : ∀ j, X j ≤ 10000000000)
    {Y : Fin N → Vec o} {best : SSM n d} (hbest : Optimum v X Y best) {one : Fin N → SSM n d}
    (hone : ∀ j, Optimum v (fun _ : Fin 1 => X j) (fun _ => Y j) (one j))
    {q : (T : ℕ) → (Fin T → Fin p → Fin N) → SSM n d} (hq : TrainedOn v X Y (fun t => 1 / ((t : ℝ) + 1)) q) {T : ℕ} (hT : 0 < T) :
    average (fun F => ssmToNaturals (q T F)) = ssmToNaturals best ∧
    ∀ φ : ExpPar n d →ₗ[ℝ] ℝ, average (fun F => φ (ssmToNaturals (q T F) - ssmToNaturals best) ^ 2) =
      average (fun j => φ (ssmToNaturals (one j) - ssmToNaturals best) ^ 2) / (T * p) := by
  obtain ⟨T, rfl⟩ := Nat.exists_eq_succ_of_ne_zero hT.ne'
  constructor
  · rw [C84_mean h hσ hlik hN hN0 hp h0 h1 hbest hq, Finset.prod_range_succ']
    simp
  · intro φ
    obtain ⟨-, hr⟩ := C84_scatter h hσ hlik hN hN0 hp h0 h1 hbest hone hq φ
    have hp' : (p : ℝ) ≠ 0 := Nat.cast_ne_zero.2 hp.ne'
    clear hT
    induction T with
    | zero =>
      rw [hr 0]; simp
    | succ T ih =>
      rw [hr (T + 1), ih]
      push_cast
      have h1 : (T : ℝ) + 1 ≠ 0 := by positivity
      have h2 : (T : ℝ) + 1 + 1 ≠ 0 := by positivity
      field_simp
      ring

/-- C84: rates `1 / (t + 1)` on a given sequence of minibatches. The natural parameters are the average of those of the optima of all data seen. -/
theorem C84_running_average {v : SVGP n o d} {k} (h : v.Valid k) {σ2 : ℝ} (hσ : 0 < σ2) (hlik : v.likelihood = gaussianLikelihood σ2)
    (hN : v.numData = some N) (hp : 0 < p) {X : Fin N → ℝ} (h0 : ∀ j, -10000000000 < X j) (h1 : ∀ j, X j ≤ 10000000000)
    {Y : Fin N → Vec o} {one : Fin N → SSM n d} (hone : ∀ j, Optimum v (fun _ : Fin 1 => X j) (fun _ => Y j) (one j))
    {q : (T : ℕ) → (Fin T → Fin p → Fin N) → SSM n d} (hq : TrainedOn v X Y (fun t => 1 / ((t : ℝ) + 1)) q) {T : ℕ} (hT : 0 < T)
    (F : Fin T → Fin p → Fin N) :
    ssmToNaturals (q T F) = average fun x : Fin T × Fin p => ssmToNaturals (one (F x.1 x.2)) := by
  obtain ⟨T, rfl⟩ := Nat.exists_eq_succ_of_ne_zero hT.ne'
  clear hT
  have hp' : (p : ℝ) ≠ 0 := Nat.cast_ne_zero.2 hp.ne'
  obtain ⟨best, hbest⟩ := exists_optimum h hσ hlik h0 h1 Y
  obtain ⟨b, hb, -, -, qs⟩ := Spec.TrainedOn.step h hσ hlik h0 h1 hq
  have hs : ∀ T F, (((T + 1 : ℕ) : ℝ) * p) • ssmToNaturals (q (T + 1) F) =
      ∑ t, ∑ i, ssmToNaturals (one (F t i)) := fun T F => by
    induction T with
    | zero =>
      rw [qs, Fin.sum_univ_one, optimum_minibatch hN hbest hone hp _ (hb _), ← Finset.smul_sum]
      simp only [Nat.cast_zero, zero_add, div_one, sub_self, zero_smul, one_smul, smul_smul, Nat.cast_one, one_mul, mul_inv_cancel₀ hp']
      rfl
    | succ T ih =>
      rw [Fin.sum_univ_castSucc, ← ih fun i => F i.castSucc, qs, optimum_minibatch hN hbest hone hp _ (hb _), ← Finset.smul_sum, smul_add,
        smul_smul, smul_smul, smul_smul]
      have h2 : ((T + 1 : ℕ) : ℝ) + 1 ≠ 0 := by positivity
      push_cast at h2 ⊢
      congr 1
      · congr 1
        field_simp
        ring
      · rw [show ((T : ℝ) + 1 + 1) * p * (1 / ((T : ℝ) + 1 + 1)) * (p : ℝ)⁻¹ = 1 by field_simp, one_smul]
  unfold Spec.average
  rw [Fintype.sum_prod_type, ← hs T F, Fintype.card_prod, Fintype.card_fin, Fintype.card_fin, smul_smul]
  push_cast
  rw [inv_mul_cancel₀ (mul_ne_zero (by positivity) hp'), one_smul]

/-- C84: one pass over the data is enough. With the rates `1 / (t + 1)`, after any sequence of minibatches in which every datum has occurred equally
often (for instance one epoch, in any order and however cut into minibatches), `dist_q` is exactly the optimum of the full objective. -/
theorem C84_one_epoch {v : SVGP n o d} {k} (h : v.Valid k) {σ2 : ℝ} (hσ : 0 < σ2) (hlik : v.likelihood = gaussianLikelihood σ2)
    (hN : v.numData = some N) (hN0 : 0 < N) (hp : 0 < p) {X : Fin N → ℝ} (h0 : ∀ j, -10000000000 < X j) (h1 : ∀ j, X j ≤ 10000000000)
    {Y : Fin N → Vec o} {best : SSM n d} (hbest : Optimum v X Y best)
    {q : (T : ℕ) → (Fin T → Fin p → Fin N) → SSM n d} (hq : TrainedOn v X Y (fun t => 1 / ((t : ℝ) + 1)) q) {T : ℕ} (hT : 0 < T)
    (F : Fin T → Fin p → Fin N) {m : ℕ} (hm : ∀ j, (Finset.univ.filter fun x : Fin T × Fin p => F x.1 x.2 = j).card = m) :
    (q T F).law = best.law := by
  obtain ⟨one, hone⟩ := exists_one h hσ hlik h0 h1 Y
  obtain ⟨-, -, -, qn, -⟩ := Spec.TrainedOn.step h hσ hlik h0 h1 hq
  refine law_of_naturals (qn T F) hbest.1 ?_
  rw [C84_running_average h hσ hlik hN hp h0 h1 hone hq hT F, optimum_average hN hN0 hbest hone]
  have hcard : T * p = m * N := by
    have := Finset.card_eq_sum_card_fiberwise (f := fun x : Fin T × Fin p => F x.1 x.2) (s := Finset.univ) (t := Finset.univ) fun _ _ => by simp
    rw [Finset.sum_congr rfl fun j _ => hm j, Finset.sum_const, Finset.card_univ, Finset.card_univ, Fintype.card_prod, Fintype.card_fin,
      Fintype.card_fin, Fintype.card_fin, smul_eq_mul] at this
    rw [this, mul_comm]
  have hsum : ∑ x : Fin T × Fin p, (ssmToNaturals (one (F x.1 x.2)) : ExpPar n d) = (m : ℝ) • ∑ j, ssmToNaturals (one j) := by
    rw [← Finset.sum_fiberwise_of_maps_to (g := fun x : Fin T × Fin p => F x.1 x.2) (t := Finset.univ) fun _ _ => Finset.mem_univ _, Finset.smul_sum]
    refine Finset.sum_congr rfl fun j _ => ?_
    rw [Finset.sum_congr rfl (g := fun _ => (ssmToNaturals (one j) : ExpPar n d)) fun x hx => by rw [(Finset.mem_filter.1 hx).2], Finset.sum_const,
      hm j, ← Nat.cast_smul_eq_nsmul ℝ]
  unfold Spec.average
  rw [hsum, smul_smul, Fintype.card_prod, Fintype.card_fin, Fintype.card_fin, Fintype.card_fin, hcard]
  have hm0 : (m : ℝ) ≠ 0 := fun e => by
    have : m = 0 := by exact_mod_cast e
    rw [this, zero_mul] at hcard
    exact (Nat.mul_pos hT hp).ne' hcard
  have hN' : (N : ℝ) ≠ 0 := Nat.cast_ne_zero.2 hN0.ne'
  congr 1
  push_cast
  field_simp

/-- Non-vacuity of the condition on the sequence: six data in three minibatches of two, out of order. -/
example : ∀ j : Fin 6, (Finset.univ.filter fun x : Fin 3 × Fin 2 => (![![4, 1], ![0, 5], ![2, 3]] : Fin 3 → Fin 2 → Fin 6) x.1 x.2 = j).card = 1 := by
  decide

theorem Spec.Optimum.unique {v : SVGP n o d} {X : Fin p → ℝ} {Y : Fin p → Vec o} {a b : SSM n d} (ha : Optimum v X Y a) (hb : Optimum v X Y b) :
    ssmToNaturals a = ssmToNaturals b := by
  obtain ⟨han, E, hE⟩ := ha
  obtain ⟨hbn, E', hE'⟩ := hb
  have := naturals_of_kl_average (ι := Unit) (w := fun _ => 1) (by simp) (r := fun _ => b) (fun _ => hbn) han (c := E' - E) fun s hs => by
    have e := Except.ok.inj ((hE s hs).2.symm.trans (hE' s hs).2)
    simp only [Finset.univ_unique, Finset.sum_singleton, one_mul]
    linarith
  simpa using this

theorem cyclic_recursion {V : Type*} [AddCommGroup V] [Module ℝ V] {γ : ℝ} {B : ℕ} {x : ℕ → V} {y : Fin B → V} (hB : 0 < B) (hγ : 0 < γ) (hγ1 : γ ≤ 1)
    (hx : ∀ t, x (t + 1) = (1 - γ) • x t + γ • y ⟨t % B, Nat.mod_lt _ hB⟩) (e : ℕ) :
    x (B * e) - (γ / (1 - (1 - γ) ^ B)) • ∑ b : Fin B, (1 - γ) ^ (B - 1 - (b : ℕ)) • y b =
      ((1 - γ) ^ B) ^ e • (x 0 - (γ / (1 - (1 - γ) ^ B)) • ∑ b : Fin B, (1 - γ) ^ (B - 1 - (b : ℕ)) • y b) := by
  set S := ∑ b : Fin B, (1 - γ) ^ (B - 1 - (b : ℕ)) • y b with hS
  have hin : ∀ e j, (hj : j ≤ B) → x (B * e + j) = (1 - γ) ^ j • x (B * e) +
      γ • ∑ b : Fin j, (1 - γ) ^ (j - 1 - (b : ℕ)) • y ⟨b, b.2.trans_le hj⟩ := fun e j => by
    induction j with
    | zero => intro _; simp
    | succ j ih =>
      intro hj
      have hm : (B * e + j) % B = j := by rw [Nat.mul_add_mod, Nat.mod_eq_of_lt (by omega)]
      rw [← add_assoc, hx, ih (by omega), Fin.sum_univ_castSucc]
      have h1 : ∀ b : Fin j, (1 - γ) ^ (j + 1 - 1 - ((b.castSucc : Fin (j + 1)) : ℕ)) • y ⟨(b.castSucc : Fin (j + 1)), b.castSucc.2.trans_le hj⟩ =
          (1 - γ) • ((1 - γ) ^ (j - 1 - (b : ℕ)) • y ⟨b, b.2.trans_le (by omega)⟩) := fun b => by
        rw [smul_smul, ← pow_succ']
        congr 2
        have := b.2
        simp only [Fin.val_castSucc]
        omega
      rw [Finset.sum_congr rfl fun b _ => h1 b, ← Finset.smul_sum]
      simp only [hm, Fin.val_last, Nat.add_sub_cancel, Nat.sub_self, pow_zero, one_smul]
      rw [pow_succ]
      module
  have hlt : (1 - γ) ^ B < 1 := pow_lt_one₀ (by linarith) (by linarith) hB.ne'
  have hne : 1 - (1 - γ) ^ B ≠ 0 := by linarith
  induction e with
  | zero => simp
  | succ e ih =>
    have e1 : x (B * (e + 1)) = (1 - γ) ^ B • x (B * e) + γ • S := by
      rw [Nat.mul_succ, hin e B le_rfl]
    rw [e1, pow_succ', mul_smul, ← ih]
    have : γ • S = (1 - (1 - γ) ^ B) • ((γ / (1 - (1 - γ) ^ B)) • S) := by
      rw [smul_smul, mul_div_cancel₀ _ hne]
    rw [this]
    module

/-- C84: cycling through fixed minibatches `g 0, …, g (B - 1)` with a constant rate. After every epoch the natural parameters approach, geometrically, a
weighted average of those of the optima of the minibatches with the weights `γ (1 - γ) ^ (B - 1 - b) / (1 - (1 - γ) ^ B)` (which add up to one): the later
minibatches of the epoch count more, so the limit is in general not the optimum of the full objective. -/
theorem C84_cyclic {v : SVGP n o d} {k} (h : v.Valid k) {σ2 : ℝ} (hσ : 0 < σ2) (hlik : v.likelihood = gaussianLikelihood σ2)
    {X : Fin N → ℝ} (h0 : ∀ j, -10000000000 < X j) (h1 : ∀ j, X j ≤ 10000000000)
    {Y : Fin N → Vec o} {γ : ℝ} (hγ : 0 < γ) {q : (T : ℕ) → (Fin T → Fin p → Fin N) → SSM n d} (hq : TrainedOn v X Y (fun _ => γ) q)
    {B : ℕ} (hB : 0 < B) (g : Fin B → Fin p → Fin N) {opt : Fin B → SSM n d} (hopt : ∀ b, Optimum v (X ∘ g b) (Y ∘ g b) (opt b)) :
    ∑ b : Fin B, γ / (1 - (1 - γ) ^ B) * (1 - γ) ^ (B - 1 - (b : ℕ)) = 1 ∧
    ∀ L : ExpPar n d, L = ∑ b : Fin B, (γ / (1 - (1 - γ) ^ B) * (1 - γ) ^ (B - 1 - (b : ℕ))) • ssmToNaturals (opt b) →
      ∀ epochs : ℕ, ssmToNaturals (q (B * epochs) fun t => g ⟨(t : ℕ) % B, Nat.mod_lt _ hB⟩) - L =
        ((1 - γ) ^ B) ^ epochs • (ssmToNaturals v.q - L) := by
  have hγ1 : γ ≤ 1 := (hq.rate 0).2
  have hlt : (1 - γ) ^ B < 1 := pow_lt_one₀ (by linarith) (by linarith) hB.ne'
  have hne : 1 - (1 - γ) ^ B ≠ 0 := by linarith
  obtain ⟨b, hb, q0, -, qs⟩ := Spec.TrainedOn.step h hσ hlik h0 h1 hq
  constructor
  · have := cyclic_recursion (x := fun _ => (1 : ℝ)) (y := fun _ : Fin B => (1 : ℝ)) hB hγ hγ1 (fun t => by simp) 1
    simp only [smul_eq_mul, mul_one, pow_one] at this
    rw [← Finset.mul_sum]
    have e : (1 - (1 - γ) ^ B) * (1 - γ / (1 - (1 - γ) ^ B) * ∑ b : Fin B, (1 - γ) ^ (B - 1 - (b : ℕ))) = 0 := by linarith
    rcases mul_eq_zero.1 e with e | e
    · exact absurd e hne
    · linarith
  · rintro L rfl epochs
    have := cyclic_recursion (x := fun t => (ssmToNaturals (q t fun i => g ⟨(i : ℕ) % B, Nat.mod_lt _ hB⟩) : ExpPar n d))
      (y := fun b => ssmToNaturals (opt b)) hB hγ hγ1 (fun t => by
        rw [qs, Spec.Optimum.unique (hb _) (hopt _)]
        rfl) epochs
    rw [Finset.smul_sum] at this
    simp only [smul_smul] at this
    rw [this, q0]

/-- The natural parameters during training stay in the convex hull of those of the start and of the optima of the minibatches. -/
theorem trained_hull {γ : ℕ → ℝ} (hγ : ∀ t, 0 ≤ γ t ∧ γ t ≤ 1) {B : Type} {q : (T : ℕ) → (Fin T → B) → SSM n d} {q0 : SSM n d} {b : B → SSM n d}
    (h0 : ∀ F, q 0 F = q0) (hs : ∀ T F, ssmToNaturals (q (T + 1) F) =
      (1 - γ T) • ssmToNaturals (q T fun i => F i.castSucc) + γ T • ssmToNaturals (b (F (Fin.last T)))) (T : ℕ) (F : Fin T → B) :
    NatDyn.pt (q T F) ∈ convexHull ℝ (Set.range fun x : Option B => NatDyn.pt (x.elim q0 b)) := by
  induction T with
  | zero =>
    rw [h0]
    exact subset_convexHull ℝ _ ⟨none, rfl⟩
  | succ T ih =>
    have e : NatDyn.pt (q (T + 1) F) = (1 - γ T) • NatDyn.pt (q T fun i => F i.castSucc) + γ T • NatDyn.pt (b (F (Fin.last T))) := by
      unfold NatDyn.pt
      rw [hs T F, map_add, map_smul, map_smul]
    rw [e]
    exact convex_convexHull ℝ _ (ih fun i => F i.castSucc) (subset_convexHull ℝ _ ⟨some _, rfl⟩) (by linarith [(hγ T).2]) (hγ T).1 (by ring)

/-- C84: convergence of the objective. With rates in `[0, 1]` that tend to zero and have a divergent sum, the expectation over the random minibatches
of the full data objective `elbo((X, Y))` after `T` steps converges to its largest value; so does the objective in probability: the fraction of the
sequences of minibatches that leave it more than any `ε` short tends to zero. -/
theorem C84_objective {v : SVGP n o d} {k} (h : v.Valid k) {σ2 : ℝ} (hσ : 0 < σ2) (hlik : v.likelihood = gaussianLikelihood σ2)
    (hN : v.numData = some N) (hN0 : 0 < N) (hp : 0 < p) {X : Fin N → ℝ} (h0 : ∀ j, -10000000000 < X j) (h1 : ∀ j, X j ≤ 10000000000)
    {Y : Fin N → Vec o} {γ : ℕ → ℝ} {q : (T : ℕ) → (Fin T → Fin p → Fin N) → SSM n d}
    (hq : TrainedOn v X Y γ q) (hγ : Tendsto γ atTop (𝓝 0)) (hs : Tendsto (fun T => ∑ t ∈ Finset.range T, γ t) atTop atTop) :
    ∃ (E : ℝ) (e : (T : ℕ) → (Fin T → Fin p → Fin N) → ℝ),
      (∀ s : SSM n d, s.Nondegenerate → ∃ x, ({ v with q := s } : SVGP n o d).elbo X Y = .ok x ∧ x ≤ E) ∧
      (∃ s : SSM n d, s.Nondegenerate ∧ ({ v with q := s } : SVGP n o d).elbo X Y = .ok E) ∧
      (∀ T F, ({ v with q := q T F } : SVGP n o d).elbo X Y = .ok (e T F)) ∧
      Tendsto (fun T => average (e T)) atTop (𝓝 E) ∧
      ∀ ε : ℝ, 0 < ε → Tendsto (fun T => average fun F => if e T F ≤ E - ε then (1 : ℝ) else 0) atTop (𝓝 0) := by
  have : Nonempty (Fin N) := ⟨⟨0, hN0⟩⟩
  obtain ⟨best, hbest⟩ := exists_optimum h hσ hlik h0 h1 Y
  have hms := C84_converges h hσ hlik hN hN0 hp h0 h1 hbest hq hγ hs
  obtain ⟨b, hb, q0, qn, qs⟩ := Spec.TrainedOn.step h hσ hlik h0 h1 hq
  obtain ⟨hbn, E, hE⟩ := hbest
  have hfin : Finite (Option (Option (Fin p → Fin N))) := inferInstance
  obtain ⟨C, hC0, hC⟩ := moments_bounded (b := fun x : Option (Option (Fin p → Fin N)) => x.elim best fun y => y.elim v.q b)
    fun x => by rcases x with _ | _ | f; exacts [hbn, h.q, (hb f).1]
  have hsub : (Set.range fun x : Option (Fin p → Fin N) => NatDyn.pt (x.elim v.q b)) ⊆
      Set.range fun x : Option (Option (Fin p → Fin N)) => NatDyn.pt (x.elim best fun y => y.elim v.q b) := by
    rintro _ ⟨x, rfl⟩; exact ⟨some x, rfl⟩
  have hCb := hC best hbn (subset_convexHull ℝ _ ⟨none, rfl⟩)
  have hCq : ∀ T F, _ := fun T F => hC (q T F) (qn T F) (convexHull_mono hsub (trained_hull hq.rate q0 qs T F))
  have hkl : ∀ T F, (klDiv (q T F).law best.law).toReal ≤ 2 * (C + C ^ 2) * absSum (ssmToNaturals (q T F) - ssmToNaturals best) := fun T F =>
    kl_le_absSum (qn T F) hbn (hCq T F) hCb
  have hkl0 : Tendsto (fun T => average fun F => (klDiv (q T F).law best.law).toReal) atTop (𝓝 0) := by
    have ht := (average_absSum_tendsto (ι := fun T => Fin T → Fin p → Fin N)
      (g := fun T F => ssmToNaturals (q T F) - ssmToNaturals best) hms).const_mul (2 * (C + C ^ 2))
    rw [mul_zero] at ht
    refine squeeze_zero (fun T => Spec.average_nonneg fun F => ENNReal.toReal_nonneg) (fun T => ?_) ht
    rw [← Spec.average_mul]
    exact Spec.average_le fun F => hkl T F
  refine ⟨E, fun T F => E - (klDiv (q T F).law best.law).toReal, fun s hs' => ⟨_, (hE s hs').2, sub_le_self _ ENNReal.toReal_nonneg⟩,
    ⟨best, hbn, ?_⟩, fun T F => (hE _ (qn T F)).2, ?_, fun ε hε => ?_⟩
  · rw [(hE best hbn).2]
    have : IsProbabilityMeasure best.law := by rw [SSM.law_eq_gauss]; infer_instance
    rw [klDiv_self, ENNReal.toReal_zero, sub_zero]
  · simp only [Spec.average_sub, Spec.average_const]
    have := (tendsto_const_nhds (x := E)).sub hkl0
    rwa [sub_zero] at this
  · have ht := hkl0.const_mul ε⁻¹
    rw [mul_zero] at ht
    refine squeeze_zero (fun T => Spec.average_nonneg fun F => by split_ifs <;> norm_num) (fun T => ?_) ht
    rw [← Spec.average_mul]
    refine Spec.average_le fun F => ?_
    have hn := ENNReal.toReal_nonneg (a := klDiv (q T F).law best.law)
    split_ifs with hc
    · rw [← div_eq_inv_mul, le_div_iff₀ hε]; linarith
    · positivity

/-- C84: convergence of the predictions. Under the same rates, the means and variances that `predict_f` returns at any times converge to those of
the optimum, in mean over the random minibatches. -/
theorem C84_predict {v : SVGP n o d} {k} (h : v.Valid k) {σ2 : ℝ} (hσ : 0 < σ2) (hlik : v.likelihood = gaussianLikelihood σ2)
    (hN : v.numData = some N) (hN0 : 0 < N) (hp : 0 < p) {X : Fin N → ℝ} (h0 : ∀ j, -10000000000 < X j) (h1 : ∀ j, X j ≤ 10000000000)
    {Y : Fin N → Vec o} {best : SSM n d} (hbest : Optimum v X Y best) {γ : ℕ → ℝ} {q : (T : ℕ) → (Fin T → Fin p → Fin N) → SSM n d}
    (hq : TrainedOn v X Y γ q) (hγ : Tendsto γ atTop (𝓝 0)) (hs : Tendsto (fun T => ∑ t ∈ Finset.range T, γ t) atTop atTop)
    {r : ℕ} {new : Fin r → ℝ} (hn0 : ∀ j, -10000000000 < new j) (hn1 : ∀ j, new j ≤ 10000000000) :
    ∃ (f : (T : ℕ) → (Fin T → Fin p → Fin N) → Fin r → Vec o × Vec o) (f' : Fin r → Vec o × Vec o),
      (∀ T F, ({ v with q := q T F } : SVGP n o d).posterior.predictFDiag new = .ok (f T F)) ∧
      ({ v with q := best } : SVGP n o d).posterior.predictFDiag new = .ok f' ∧
      ∀ i a, Tendsto (fun T => average fun F => |(f T F i).1 a - (f' i).1 a|) atTop (𝓝 0) ∧
        Tendsto (fun T => average fun F => |(f T F i).2 a - (f' i).2 a|) atTop (𝓝 0) := by
  have : Nonempty (Fin N) := ⟨⟨0, hN0⟩⟩
  have hms := C84_converges h hσ hlik hN hN0 hp h0 h1 hbest hq hγ hs
  obtain ⟨b, hb, q0, qn, qs⟩ := Spec.TrainedOn.step h hσ hlik h0 h1 hq
  have hbn := hbest.1
  have hok : ∀ s : SSM n d, s.Nondegenerate → ∃ f, ({ v with q := s } : SVGP n o d).posterior.predictFDiag new = .ok f := fun s hs => by
    obtain ⟨fx, P, T, hf, -⟩ := SVGP.stats_ok (v := { v with q := s }) { h with q := hs } hn0 hn1
    exact ⟨fx, hf⟩
  choose f hf using fun T F => hok (q T F) (qn T F)
  obtain ⟨f', hf'⟩ := hok best hbn
  obtain ⟨-, P, T', -, hst⟩ := SVGP.stats_ok h hn0 hn1
  have hpt := average_pt_tendsto (ι := fun T => Fin T → Fin p → Fin N) (s := fun T F => q T F) hms
  set K := convexHull ℝ (Set.range fun x : Option (Option (Fin p → Fin N)) => NatDyn.pt (x.elim best fun y => y.elim v.q b)) with hKd
  have hK : IsCompact K := (Set.finite_range _).isCompact_convexHull (𝕜 := ℝ)
  have hKs : K ⊆ NatDyn.proper (NatDyn.farBlocks (n := n) (d := d)) := convexHull_min (by
    rintro _ ⟨x, rfl⟩
    refine NatDyn.pt_mem ?_
    rcases x with _ | _ | f; exacts [hbn, h.q, (hb f).1]) NatDyn.convex_proper
  have hsub : (Set.range fun x : Option (Fin p → Fin N) => NatDyn.pt (x.elim v.q b)) ⊆
      Set.range fun x : Option (Option (Fin p → Fin N)) => NatDyn.pt (x.elim best fun y => y.elim v.q b) := by
    rintro _ ⟨x, rfl⟩; exact ⟨some x, rfl⟩
  have hbK : NatDyn.pt best ∈ K := subset_convexHull ℝ _ ⟨none, rfl⟩
  have hqK : ∀ T F, NatDyn.pt (q T F) ∈ K := fun T F => convexHull_mono hsub (trained_hull hq.rate q0 qs T F)
  refine ⟨f, f', hf, hf', fun i a => ?_⟩
  set W := projRow v.kernel new P i a with hW
  set J := searchsortedLeft v.inducing (new i) with hJ
  have hp1 : ∀ (s : SSM n d) (hs : s.Nondegenerate) g, ({ v with q := s } : SVGP n o d).posterior.predictFDiag new = .ok g →
      (g i).1 a = W ⬝ᵥ (pickMat (nbIdx d J) *ᵥ NatDyn.mean (NatDyn.pt s)) + v.meanFunction (new i) a ∧
      (g i).2 a = W ⬝ᵥ ((pickMat (nbIdx d J) * NatDyn.cov (NatDyn.pt s) * (pickMat (nbIdx d J))ᵀ) *ᵥ W) +
        restRow v.kernel v.inducing new P T' i a := fun s hs g hg => by
    obtain ⟨e1, e2⟩ := row_predict h.builds hs h.two hst hg i a
    rw [NatDyn.mean_pt hs, NatDyn.cov_pt hs, ← neighbours_eq]
    exact ⟨e1, e2⟩
  constructor
  · have hG : ContinuousOn (fun x : (Ix n d → ℝ) × (Ix n d → Ix n d → ℝ) => W ⬝ᵥ (pickMat (nbIdx d J) *ᵥ NatDyn.mean x)) K := by
      have hc : Continuous fun m : Ix n d → ℝ => W ⬝ᵥ (pickMat (nbIdx d J) *ᵥ m) :=
        continuous_const.dotProduct (continuous_const.matrix_mulVec continuous_id)
      exact hc.comp_continuousOn (NatDyn.continuousOn_mean.mono hKs)
    have := average_continuous_tendsto (ι := fun T => Fin T → Fin p → Fin N) hK hqK hbK hG hpt
    refine this.congr fun T => ?_
    congr 1
    funext F
    rw [(hp1 _ (qn T F) _ (hf T F)).1, (hp1 _ hbn _ hf').1, add_sub_add_right_eq_sub]
  · have hG : ContinuousOn (fun x : (Ix n d → ℝ) × (Ix n d → Ix n d → ℝ) => W ⬝ᵥ ((pickMat (nbIdx d J) * NatDyn.cov x *
        (pickMat (nbIdx d J))ᵀ) *ᵥ W)) K := by
      have hc : Continuous fun m : Matrix (Ix n d) (Ix n d) ℝ => W ⬝ᵥ ((pickMat (nbIdx d J) * m * (pickMat (nbIdx d J))ᵀ) *ᵥ W) :=
        continuous_const.dotProduct (((continuous_const.matrix_mul continuous_id).matrix_mul continuous_const).matrix_mulVec continuous_const)
      exact hc.comp_continuousOn (NatDyn.continuousOn_cov.mono hKs)
    have := average_continuous_tendsto (ι := fun T => Fin T → Fin p → Fin N) hK hqK hbK hG hpt
    refine this.congr fun T => ?_
    congr 1
    funext F
    rw [(hp1 _ (qn T F) _ (hf T F)).2, (hp1 _ hbn _ hf').2, add_sub_add_right_eq_sub]

/-- Non-vacuity: a Matérn 3/2 kernel, a mean function, three inducing points, five data in minibatches of two, both with the rates `1 / (t + 1)`
(which tend to zero and have a divergent sum) and with the constant rate `1 / 2`. -/
example : ∃ (v : SVGP 2 1 2) (k : ℝ → ℝ → Mat 1 1) (X : Fin 5 → ℝ) (Y : Fin 5 → Vec 1) (best : SSM 2 2) (one : Fin 5 → SSM 2 2)
    (q q' : (T : ℕ) → (Fin T → Fin 2 → Fin 5) → SSM 2 2), v.Valid k ∧ v.likelihood = gaussianLikelihood (1 / 2) ∧ v.numData = some 5 ∧
    (∀ j, -10000000000 < X j) ∧ (∀ j, X j ≤ 10000000000) ∧ Optimum v X Y best ∧
    (∀ j, Optimum v (fun _ : Fin 1 => X j) (fun _ => Y j) (one j)) ∧ TrainedOn v X Y (fun t => 1 / ((t : ℝ) + 1)) q ∧
    TrainedOn v X Y (fun _ => 1 / 2) q' ∧ Tendsto (fun t : ℕ => 1 / ((t : ℝ) + 1)) atTop (𝓝 0) ∧
    Tendsto (fun T => ∑ t ∈ Finset.range T, 1 / ((t : ℝ) + 1)) atTop atTop := by
  obtain ⟨K, hK⟩ := (C28_constructors (o := 1) 2 3 1 1 1 0).2.1.2 (by norm_num)
  have hv : ∃ k, SVGP.Valid (⟨K, gaussianLikelihood (1 / 2), ![0, 1, 3], fun t => ![t], some 5,
      ⟨![1, 0], 1, fun _ => 1, fun _ => 0, fun _ => 1⟩⟩ : SVGP 2 1 2) k := by
    refine ⟨_, .leaf (.matern32 hK), .matern32 hK, by rw [(kernelInit_ok hK).2.2]; rfl, ?_, ?_, ?_, by norm_num, ?_⟩
    · refine Fin.strictMono_iff_lt_succ.2 fun i => ?_
      fin_cases i <;> simp
    · show -10000000000 < (0 : ℝ); norm_num
    · show (3 : ℝ) ≤ 10000000000; norm_num
    · intro i
      refine Fin.cases ?_ (fun i => ?_) i <;>
      exact ⟨fun a b hab => Matrix.one_apply_ne hab.ne, fun a => (Matrix.one_apply_eq (α := ℝ) a).trans_ne one_ne_zero⟩
  obtain ⟨k, hv⟩ := hv
  obtain ⟨hco, -, -⟩ := Builds.good hv.builds
  have h0 : ∀ j : Fin 5, (-10000000000 : ℝ) < ![2, 1 / 2, 0, 3, 1] j := fun j => by fin_cases j <;> simp <;> norm_num
  have h1 : ∀ j : Fin 5, (![2, 1 / 2, 0, 3, 1] : Fin 5 → ℝ) j ≤ 10000000000 := fun j => by fin_cases j <;> simp <;> norm_num
  set v : SVGP 2 1 2 := ⟨K, gaussianLikelihood (1 / 2), ![0, 1, 3], fun t => ![t], some 5,
      ⟨![1, 0], 1, fun _ => 1, fun _ => 0, fun _ => 1⟩⟩ with hvd
  have hl : v.likelihood = gaussianLikelihood (1 / 2) := rfl
  have hσ : (0 : ℝ) < 1 / 2 := by norm_num
  set Y : Fin 5 → Vec 1 := fun i => ![(i : ℝ)] with hY
  obtain ⟨best, hbest⟩ := exists_optimum hv hσ hl h0 h1 Y
  obtain ⟨one, hone⟩ := exists_one hv hσ hl h0 h1 Y
  choose b hb using fun f : Fin 2 → Fin 5 => exists_optimum hv hσ hl (X := ![2, 1 / 2, 0, 3, 1] ∘ f) (fun _ => h0 _) (fun _ => h1 _) (Y ∘ f)
  have hgrad : ∀ f, GivesGradient (v.lossOf (![2, 1 / 2, 0, 3, 1] ∘ f) (Y ∘ f)) fun _ q => (ssmToNaturals q - ssmToNaturals (b f), 0) := fun f => by
    obtain ⟨E, hE⟩ := (hb f).lossOf
    exact givesGradient_exists (hb f).1 hv.two hco.pos hE
  have hex : ∀ γ : ℕ → ℝ, (∀ t, 0 ≤ γ t ∧ γ t ≤ 1) → ∃ q : (T : ℕ) → (Fin T → Fin 2 → Fin 5) → SSM 2 2,
      TrainedOn v ![2, 1 / 2, 0, 3, 1] Y γ q := fun γ hγ => by
    choose o q hq using fun T F => C84_runs hv hσ hl h0 h1 Y (p := 2) hgrad (NatGrad.init 1 false 0 0 0) rfl hγ T F
    exact ⟨q, hγ, _, _, rfl, hgrad, fun T F => ⟨o T F, (hq T F).1⟩⟩
  obtain ⟨q, hq⟩ := hex (fun t => 1 / ((t : ℝ) + 1)) fun t => ⟨by positivity, by
    rw [div_le_one (by positivity)]; linarith [Nat.cast_nonneg (α := ℝ) t]⟩
  obtain ⟨q', hq'⟩ := hex (fun _ => 1 / 2) fun t => by norm_num
  exact ⟨v, k, _, Y, best, one, q, q', hv, hl, rfl, h0, h1, hbest, hone, hq, hq', tendsto_one_div_add_atTop_nhds_zero_nat,
    Real.tendsto_sum_range_one_div_nat_succ_atTop⟩

end MF
