import Verif.Props.Envelope

/-!
# C79: existence of the best bound nearby, distributions held fixed, fixed points of CVI
-/

namespace MF
open Matrix Spec MeasureTheory ProbabilityTheory InformationTheory Filter Topology
variable {n o d : ℕ}

/-- C79: the largest `elbo()` exists along the curve and is differentiable. -/
theorem C79_exists {v : VGP n o d} {K : ℝ → Stationary o d} {b : ℝ → ℝ → Vec o} {k : ℝ → ℝ → ℝ → Mat o o} {θ : ℝ}
    (hv : ∀ᶠ x in 𝓝 θ, ({ v with kernel := K x, meanFunction := b x } : VGP n o d).Valid (k x)) (he : ExactLikelihood v.likelihood)
    (hl : LogConcaveLikelihood v.likelihood) (hd : DifferentiableVarExp v.likelihood) (hG : (gpGram (k θ) v.times).PosDef)
    {k' : ℝ → ℝ → Mat o o} {b' : ℝ → Vec o} (hk : ∀ s t a c, HasDerivAt (fun x => k x s t a c) (k' s t a c) θ)
    (hb : ∀ t a, HasDerivAt (fun x => b x t a) (b' t a) θ) :
    ∃ best : ℝ → ℝ, (∀ᶠ x in 𝓝 θ, IsGreatest {e | ∃ q : SSM n d, q.Nondegenerate ∧
      ({ v with kernel := K x, meanFunction := b x, q := q } : VGP n o d).elbo = .ok e} (best x)) ∧ DifferentiableAt ℝ best θ := by
  have hG' : ∀ i j, ContinuousAt (fun x => gpGram (k x) v.times i j) θ := fun i j => (hk _ _ _ _).continuousAt
  have hpos := gpGram_posDef_eventually (hv.mono fun x h => ⟨h.builds, h.noise, h.jitter, h.times, h.two⟩) hG' hG
  have hex : ∀ x, ∃ e : ℝ, ({ v with kernel := K x, meanFunction := b x } : VGP n o d).Valid (k x) → (gpGram (k x) v.times).PosDef →
      IsGreatest {e | ∃ q : SSM n d, q.Nondegenerate ∧ ({ v with kernel := K x, meanFunction := b x, q := q } : VGP n o d).elbo = .ok e} e := by
    intro x
    by_cases hx : ({ v with kernel := K x, meanFunction := b x } : VGP n o d).Valid (k x) ∧ (gpGram (k x) v.times).PosDef
    · obtain ⟨q, e, hq, hqe, hmax⟩ := C77_vgp_exists hx.1 he hl hd fun t a => emission_ne_zero hx.1.builds hx.2 t a
      refine ⟨e, fun _ _ => ⟨⟨q, hq, hqe⟩, ?_⟩⟩
      rintro e' ⟨s, hs, hse⟩
      obtain ⟨e'', h1, h2, -⟩ := hmax s hs
      obtain rfl : e'' = e' := Except.ok.inj (h1.symm.trans hse)
      exact h2
    · exact ⟨0, fun h1 h2 => absurd ⟨h1, h2⟩ hx⟩
  choose best hbest using hex
  have hev : ∀ᶠ x in 𝓝 θ, IsGreatest {e | ∃ q : SSM n d, q.Nondegenerate ∧
      ({ v with kernel := K x, meanFunction := b x, q := q } : VGP n o d).elbo = .ok e} (best x) := by
    filter_upwards [hv, hpos] with x h1 h2
    exact hbest x h1 h2
  obtain ⟨q, hq, hqe⟩ := hev.self_of_nhds.1
  obtain ⟨m, S, hS, hlaw⟩ := latent_posDef hv.self_of_nhds.builds hG (b θ) hq
  exact ⟨best, hev, (C79_best hv he hl hd hG hk hb hev hq hqe hS.posSemidef hlaw rfl).differentiableAt⟩

/-- C79, the distribution held fixed: if emission matrices and state covariances are differentiable in the hyperparameters, then `elbo()` with the best
`dist_q` held fixed (what automatic differentiation of the objective in the hyperparameters sees) and the largest `elbo()` have the same derivative. -/
theorem C79_fixed_q {v : VGP n o d} {K : ℝ → Stationary o d} {b : ℝ → ℝ → Vec o} {k : ℝ → ℝ → ℝ → Mat o o} {θ : ℝ}
    (hv : ∀ᶠ x in 𝓝 θ, ({ v with kernel := K x, meanFunction := b x } : VGP n o d).Valid (k x)) (he : ExactLikelihood v.likelihood)
    (hl : LogConcaveLikelihood v.likelihood) (hd : DifferentiableVarExp v.likelihood) (hG : (gpGram (k θ) v.times).PosDef)
    {k' : ℝ → ℝ → Mat o o} {b' : ℝ → Vec o} (hk : ∀ s t a c, HasDerivAt (fun x => k x s t a c) (k' s t a c) θ)
    (hb : ∀ t a, HasDerivAt (fun x => b x t a) (b' t a) θ)
    (hH : ∀ t i j, DifferentiableAt ℝ (fun x => (K x).emission t i j) θ)
    (hP : ∀ s t i j, DifferentiableAt ℝ (fun x => stateCov ((K x).stateTransitions 0) (K x).Pinf s t i j) θ) {best : ℝ → ℝ}
    (hbest : ∀ᶠ x in 𝓝 θ, IsGreatest {e | ∃ q : SSM n d, q.Nondegenerate ∧
      ({ v with kernel := K x, meanFunction := b x, q := q } : VGP n o d).elbo = .ok e} (best x))
    {q : SSM n d} (hq : q.Nondegenerate) (hqe : ({ v with kernel := K θ, meanFunction := b θ, q := q } : VGP n o d).elbo = .ok (best θ)) :
    ∃ (e : ℝ → ℝ) (D : ℝ), (∀ᶠ x in 𝓝 θ, ({ v with kernel := K x, meanFunction := b x, q := q } : VGP n o d).elbo = .ok (e x)) ∧
      HasDerivAt e D θ ∧ HasDerivAt best D θ := by
  obtain ⟨m, S, hS, hlaw⟩ := latent_posDef hv.self_of_nhds.builds hG (b θ) hq
  have hB := C79_best hv he hl hd hG hk hb hbest hq hqe hS.posSemidef hlaw rfl
  set P : ℝ → Matrix (Fin (n + 1) × Fin d) (Fin (n + 1) × Fin d) ℝ := fun x => Matrix.of fun i j =>
    stateCov ((K x).stateTransitions 0) (K x).Pinf (v.times i.1) (v.times j.1) i.2 j.2 with hPd
  set mu : ℝ → Fin (n + 1) × Fin o → ℝ := fun x i => ((K x).emission (v.times i.1) *ᵥ q.mus i.1) i.2 + b x (v.times i.1) i.2 with hmu
  set va : ℝ → Fin (n + 1) × Fin o → ℝ := fun x i =>
    ((K x).emission (v.times i.1) * blk q.Kd i.1 i.1 * ((K x).emission (v.times i.1))ᵀ) i.2 i.2 with hva
  have hform : ∀ x, ({ v with kernel := K x, meanFunction := b x } : VGP n o d).Valid (k x) →
      (P x).PosDef ∧ ({ v with kernel := K x, meanFunction := b x, q := q } : VGP n o d).elbo =
        .ok ((∑ i : Fin (n + 1) × Fin o, v.likelihood.varExp (mu x i) (va x i) (v.observations i.1 i.2)) - gaussKL (stk q.mus) q.Kd 0 (P x)) := fun x h => by
    have hvx : ({ v with kernel := K x, meanFunction := b x, q := q } : VGP n o d).Valid (k x) :=
      ⟨h.builds, h.noise, h.jitter, h.times, h.lower, h.upper, h.two, hq⟩
    obtain ⟨p, hp, hpn, hp0, hL⟩ := VGP.lossOf_eq hvx
    have hPe : p.Kd = P x := (kernel_moments h.builds h.jitter hp).2
    refine ⟨by rw [← hPe]; exact SSM.Kd_posDef hpn, ?_⟩
    obtain ⟨e', he1, he2⟩ := VGP.loss_ok hvx
    have hlo : ({ v with kernel := K x, meanFunction := b x, q := q } : VGP n o d).lossOf q = -e' := by
      unfold VGP.lossOf
      exact by rw [he2]
    have := hL q hq
    rw [hlo, q.law_eq_gauss, p.law_eq_gauss, klDiv_gaussLaw (SSM.Kd_posDef hq) (SSM.Kd_posDef hpn),
      ENNReal.toReal_ofReal (gaussKL_nonneg (SSM.Kd_posDef hq) (SSM.Kd_posDef hpn)), hp0, hPe, neg_eq_iff_eq_neg, neg_sub] at this
    rw [he1, this]
  have hPθ := (hform θ hv.self_of_nhds).1
  have hKL := hasDerivAt_gaussKL_prior (C := P) (C' := Matrix.of fun i j => deriv (fun x => P x i j) θ) (b := fun _ => 0) (b' := 0)
    (fun i j => (hP _ _ _ _).hasDerivAt) (fun i => hasDerivAt_const θ 0) hPθ (stk q.mus) q.Kd
  have hmud : ∀ i, DifferentiableAt ℝ (fun x => mu x i) θ := fun i => by
    have h1 : DifferentiableAt ℝ (fun x => ∑ j, (K x).emission (v.times i.1) i.2 j * q.mus i.1 j) θ :=
      DifferentiableAt.fun_sum fun j _ => (hH _ _ _).mul_const _
    exact h1.add (hb _ _).differentiableAt
  have hvad : ∀ i, DifferentiableAt ℝ (fun x => va x i) θ := fun i => by
    have h1 : DifferentiableAt ℝ (fun x => ∑ j, (∑ l, (K x).emission (v.times i.1) i.2 l * blk q.Kd i.1 i.1 l j) * (K x).emission (v.times i.1) i.2 j) θ :=
      DifferentiableAt.fun_sum fun j _ => (DifferentiableAt.fun_sum fun l _ => (hH _ _ _).mul_const _).mul (hH _ _ _)
    exact h1
  have hvap : ∀ i, 0 < va θ i := fun i => by
    have hSd := (((SSM.Kd_posDef hq).mul_mul_conjTranspose_same (outMat_vecMul_inj hv.self_of_nhds.builds hG))).diag_pos (i := i)
    rw [conjTranspose_eq_transpose_of_trivial, outMat_conj_diag] at hSd
    exact hSd
  have hve : ∀ i, DifferentiableAt ℝ (fun x => v.likelihood.varExp (mu x i) (va x i) (v.observations i.1 i.2)) θ := fun i => by
    have h1 := hd (mu θ i) (va θ i) (v.observations i.1 i.2) (hvap i)
    exact DifferentiableAt.comp θ (g := fun x : ℝ × ℝ => v.likelihood.varExp x.1 x.2 (v.observations i.1 i.2)) (f := fun x => (mu x i, va x i)) h1
      ((hmud i).prodMk (hvad i))
  have hed : DifferentiableAt ℝ (fun x => (∑ i : Fin (n + 1) × Fin o, v.likelihood.varExp (mu x i) (va x i) (v.observations i.1 i.2)) -
      gaussKL (stk q.mus) q.Kd 0 (P x)) θ := by
    have h1 : DifferentiableAt ℝ (fun x => ∑ i : Fin (n + 1) × Fin o, v.likelihood.varExp (mu x i) (va x i) (v.observations i.1 i.2)) θ :=
      DifferentiableAt.fun_sum fun i _ => hve i
    refine (h1.fun_add hKL.differentiableAt).congr_of_eventuallyEq (Filter.Eventually.of_forall fun x => ?_)
    exact sub_eq_add_neg _ _
  set e : ℝ → ℝ := fun x => (∑ i : Fin (n + 1) × Fin o, v.likelihood.varExp (mu x i) (va x i) (v.observations i.1 i.2)) -
      gaussKL (stk q.mus) q.Kd 0 (P x) with hedef
  have hee : ∀ᶠ x in 𝓝 θ, ({ v with kernel := K x, meanFunction := b x, q := q } : VGP n o d).elbo = .ok (e x) :=
    hv.mono fun x hx => (hform x hx).2
  refine ⟨e, _, hee, hed.hasDerivAt, ?_⟩
  have heq : e θ = best θ := Except.ok.inj (hee.self_of_nhds.symm.trans hqe)
  have hmin : IsLocalMin (fun x => best x - e x) θ := by
    filter_upwards [hee, hbest] with x h1 h2
    rw [heq, sub_self]
    exact sub_nonneg.2 (h2.2 ⟨q, hq, h1⟩)
  have := hmin.hasDerivAt_eq_zero (hB.sub hed.hasDerivAt)
  rw [sub_eq_zero.1 this] at hB
  exact hB

/-- C79, conjugate-computation variational inference with a log-concave likelihood: at a fixed point of `update_sites()`, `elbo()` and `classic_elbo()` with the
sites held fixed have the derivative of the best bound that any Gaussian Markov distribution attains (whose sites would move with the hyperparameters). -/
theorem C79_cvi_best {c : CVI n d} {K : ℝ → Stationary 1 d} {k : ℝ → ℝ → ℝ → Mat 1 1} {θ : ℝ}
    (hv : ∀ᶠ x in 𝓝 θ, ({ c with kernel := K x } : CVI n d).Valid (k x)) (he : ExactLikelihood c.likelihood)
    (hl : LogConcaveLikelihood c.likelihood) (hd : DifferentiableVarExp c.likelihood)
    (hneg : ∀ t, c.sites.nat2 t 0 0 < 0) (hr : c.learningRate ≠ 0)
    (hfix : ∃ c', ({ c with kernel := K θ } : CVI n d).updateSites = .ok c' ∧ c'.sites = c.sites) (hG : (gpGram (k θ) c.times).PosDef)
    {k' : ℝ → ℝ → Mat 1 1} (hk : ∀ s t a b, HasDerivAt (fun x => k x s t a b) (k' s t a b) θ) :
    ∃ (e ce best : ℝ → ℝ) (D : ℝ), (∀ᶠ x in 𝓝 θ, ({ c with kernel := K x } : CVI n d).elbo = .ok (e x) ∧
        ({ c with kernel := K x } : CVI n d).classicElbo = .ok (ce x) ∧
        IsGreatest {a | ∃ s : SSM n d, s.Nondegenerate ∧ (({ c with kernel := K x } : CVI n d).toVGP s).elbo = .ok a} (best x)) ∧
      ce θ = best θ ∧ HasDerivAt e D θ ∧ HasDerivAt ce D θ ∧ HasDerivAt best D θ := by
  have hvθ := hv.self_of_nhds
  obtain ⟨q, hq, hqn, hSp, hlaw, -, -⟩ := CVI.closed hvθ hneg hG
  obtain ⟨e, ce, hec, hed, hced⟩ := C79_cvi hv hd hneg hr hfix hG hk hq hSp.posSemidef hlaw rfl rfl
  have hv' : ∀ᶠ x in 𝓝 θ, ({ (({ c with kernel := K θ } : CVI n d).toVGP q) with kernel := K x, meanFunction := fun _ => 0 } : VGP n 1 d).Valid (k x) :=
    hv.mono fun x h => ⟨h.builds, h.noise, h.jitter, h.times, h.lower, h.upper, h.two, hqn⟩
  have hb0 : ∀ (t : ℝ) (a : Fin 1), HasDerivAt (fun _ : ℝ => (fun _ => 0 : ℝ → Vec 1) t a) ((fun _ => 0 : ℝ → Vec 1) t a) θ := fun t a => hasDerivAt_const _ _
  obtain ⟨best, hbest, -⟩ := C79_exists (b := fun _ _ => 0) hv' he hl hd hG hk hb0
  have hfix' : ∃ c' q', ({ c with kernel := K θ } : CVI n d).updateSites = .ok c' ∧ c'.distQ = .ok q' ∧ q'.law = q.law := by
    obtain ⟨c', hu, hc'⟩ := hfix
    obtain ⟨c'', -, -, hu', -, hc'', -⟩ := C34_update hvθ hq
    obtain rfl : c' = c'' := Except.ok.inj (hu.symm.trans hu')
    refine ⟨c', q, hu, ?_, rfl⟩
    rw [hc'', hc']
    exact hq
  have hem : ∀ t, (K θ).emission (c.times t) ≠ 0 := fun t h0 => emission_ne_zero hvθ.builds hG t 0 (by rw [h0]; rfl)
  obtain ⟨e0, he0, hiff, -⟩ := C77_cvi hvθ he hl hd hem hr hq
  have hopt := hiff.1 hfix'
  have hce : ce θ = e0 := Except.ok.inj (hec.self_of_nhds.2.symm.trans he0)
  have hcq : (({ c with kernel := K θ } : CVI n d).toVGP q).elbo = .ok e0 := by
    rw [← he0]
    unfold CVI.classicElbo CVI.posterior CVI.distP VGP.elbo VGP.distP VGP.posterior CVI.toVGP
    rw [hq]
    simp only [Bind.bind, Except.bind, Pure.pure, Except.pure]
  have hbe : best θ = e0 := by
    refine le_antisymm ?_ (hbest.self_of_nhds.2 ⟨q, hqn, hcq⟩)
    obtain ⟨s, hs, hse⟩ := hbest.self_of_nhds.1
    obtain ⟨e', h1, h2⟩ := hopt s hs
    obtain rfl : e' = best θ := Except.ok.inj (h1.symm.trans hse)
    exact h2
  have hB := C79_best (b := fun _ _ => 0) hv' he hl hd hG hk hb0 hbest hqn (by rw [hbe]; exact hcq) hSp.posSemidef hlaw rfl
  refine ⟨e, ce, best, _, ?_, hce.trans hbe.symm, hed, hced, ?_⟩
  · filter_upwards [hec, hbest] with x h1 h2
    exact ⟨h1.1, h1.2, h2⟩
  · have z1 : meanVec (fun _ => 0 : ℝ → Vec 1) c.times = 0 := by funext i; rfl
    have hB' := hB.congr_deriv (g' := _) (by
      show _ = _
      rw [show (({ c with kernel := K θ } : CVI n d).toVGP q).times = c.times from rfl, z1, sub_zero, dotProduct_zero, add_zero])
    exact hB'

/-! ### non-vacuity -/

/-- A Matérn 3/2 kernel whose variance `x` varies. -/
theorem matern32_family : ∃ K : ℝ → Stationary 1 2, (∀ x, 0 < x → matern32 1 2 x 0 = .ok (K x)) ∧
    (∀ x t, (K x).emission t = sdeEmission 1 2) ∧ (∀ x, (K x).jitter = 0) ∧
    (∀ θ s t i j, DifferentiableAt ℝ (fun x => stateCov ((K x).stateTransitions 0) (K x).Pinf s t i j) θ) ∧
    ∀ θ s t a b, HasDerivAt (fun x => iso (o := 1) (matern32Cov 2 x) s t a b) (iso (o := 1) (matern32Cov 2 1) s t a b) θ := by
  refine ⟨fun x => .base (fun _ δ => Real.exp (-(Real.sqrt 3 / 2) * δ) • (1 + (δ • (feedback32 (Real.sqrt 3 / 2) + (Real.sqrt 3 / 2) • (1 : Mat 2 2)) : Mat 2 2)))
    (feedback32 (Real.sqrt 3 / 2)) (x • !![1, 0; 0, (Real.sqrt 3 / 2) ^ 2]) 0 0 (fun _ => sdeEmission 1 2), fun x hx => ?_, fun _ _ => rfl, fun _ => rfl,
    fun θ s t i j => ?_, fun θ s t a b => ?_⟩
  · obtain ⟨K, hK⟩ := (C28_constructors (o := 1) 2 x 1 1 1 0).2.1.2 ⟨le_rfl, by norm_num, hx⟩
    have := (kernelInit_ok hK).2.2
    rw [hK, this]
  · have key : ∀ A B P : Mat 2 2, DifferentiableAt ℝ (fun x : ℝ => (if t ≤ s then A * (x • P) else (B * (x • P))ᵀ) i j) θ := fun A B P => by
      by_cases hst : t ≤ s
      · simp only [hst, if_true, Matrix.mul_smul, Matrix.smul_apply, smul_eq_mul]
        exact (differentiableAt_id (𝕜 := ℝ) (E := ℝ)).mul_const _
      · simp only [hst, if_false, Matrix.mul_smul, Matrix.transpose_smul, Matrix.smul_apply, smul_eq_mul]
        exact (differentiableAt_id (𝕜 := ℝ) (E := ℝ)).mul_const _
    exact key (Real.exp (-(Real.sqrt 3 / 2) * (s - t)) • (1 + ((s - t) • (feedback32 (Real.sqrt 3 / 2) + (Real.sqrt 3 / 2) • (1 : Mat 2 2)) : Mat 2 2)))
      (Real.exp (-(Real.sqrt 3 / 2) * (t - s)) • (1 + ((t - s) • (feedback32 (Real.sqrt 3 / 2) + (Real.sqrt 3 / 2) • (1 : Mat 2 2)) : Mat 2 2))) _
  · have h1 : ∀ x, iso (o := 1) (matern32Cov 2 x) s t a b = x * iso (o := 1) (matern32Cov 2 1) s t a b := fun x => by
      simp only [iso, Matrix.of_apply, matern32Cov]
      ring
    rw [show (fun x => iso (o := 1) (matern32Cov 2 x) s t a b) = fun x => x * iso (o := 1) (matern32Cov 2 1) s t a b from funext h1]
    simpa using (hasDerivAt_id θ).mul_const (iso (o := 1) (matern32Cov 2 1) s t a b)

/-- Non-vacuity: three counts with a Poisson likelihood, and the variance of a Matérn 3/2 kernel near one. -/
example : ∃ (v : VGP 2 1 2) (K : ℝ → Stationary 1 2) (k : ℝ → ℝ → ℝ → Mat 1 1) (k' : ℝ → ℝ → Mat 1 1),
    (∀ᶠ x in 𝓝 (1 : ℝ), ({ v with kernel := K x, meanFunction := fun t => ![x * t] } : VGP 2 1 2).Valid (k x)) ∧
    v.likelihood = poissonLikelihood ∧ (gpGram (k 1) v.times).PosDef ∧
    (∀ s t a c, HasDerivAt (fun x => k x s t a c) (k' s t a c) 1) ∧ (∀ t a, HasDerivAt (fun x : ℝ => (![x * t] : Vec 1) a) ((![t] : Vec 1) a) 1) ∧
    (∀ t i j, DifferentiableAt ℝ (fun x => (K x).emission t i j) 1) ∧
    (∀ s t i j, DifferentiableAt ℝ (fun x => stateCov ((K x).stateTransitions 0) (K x).Pinf s t i j) 1) ∧
    ∃ (best : ℝ → ℝ) (q : SSM 2 2), (∀ᶠ x in 𝓝 (1 : ℝ), IsGreatest {e | ∃ q : SSM 2 2, q.Nondegenerate ∧
      ({ v with kernel := K x, meanFunction := fun t => ![x * t], q := q } : VGP 2 1 2).elbo = .ok e} (best x)) ∧ q.Nondegenerate ∧
      ({ v with kernel := K 1, meanFunction := fun t => ![1 * t], q := q } : VGP 2 1 2).elbo = .ok (best 1) ∧ DifferentiableAt ℝ best 1 := by
  obtain ⟨K, hK, hem, hj, hP, hk⟩ := matern32_family
  have hB : ∀ x, 0 < x → Builds (K x) (iso (matern32Cov 2 x)) := fun x hx => .leaf (.matern32 (hK x hx))
  have hts : StrictMono (![0, 1, 3] : Fin 3 → ℝ) := by
    refine Fin.strictMono_iff_lt_succ.2 fun i => ?_
    fin_cases i <;> simp
  have hG : (gpGram (iso (o := 1) (matern32Cov 2 1)) (![0, 1, 3] : Fin 3 → ℝ)).PosDef := by
    refine gpGram_posDef (hB 1 one_pos) (.matern32 (hK 1 one_pos)) two_pos hts (hj 1) fun i => ?_
    refine LinearIndependent.of_subsingleton 0 fun h0 => ?_
    have := congrFun h0 0
    rw [hem] at this
    exact one_ne_zero this
  obtain ⟨s, hs, hnd⟩ := kernel_ssm_nondegenerate (hB 1 one_pos) (.matern32 (hK 1 one_pos)) two_pos hts
  set v : VGP 2 1 2 := ⟨![0, 1, 3], fun i => ![(i : ℝ)], K 1, poissonLikelihood, fun t => ![t], s⟩ with hv
  have hval : ∀ᶠ x in 𝓝 (1 : ℝ), ({ v with kernel := K x, meanFunction := fun t => ![x * t] } : VGP 2 1 2).Valid (iso (matern32Cov 2 x)) := by
    filter_upwards [lt_mem_nhds (one_pos : (0 : ℝ) < 1)] with x hx
    exact ⟨hB x hx, .matern32 (hK x hx), hj x, hts, by show -10000000000 < (0 : ℝ); norm_num, by show (3 : ℝ) ≤ 10000000000; norm_num, two_pos, hnd⟩
  have hb : ∀ (t : ℝ) (a : Fin 1), HasDerivAt (fun x : ℝ => (![x * t] : Vec 1) a) ((![t] : Vec 1) a) 1 := fun t a => by
    rw [Subsingleton.elim a 0]
    simpa using (hasDerivAt_id (1 : ℝ)).mul_const t
  obtain ⟨best, hbest, hbd⟩ := C79_exists (v := v) (b := fun x t => ![x * t]) hval poissonLikelihood_exact poissonLikelihood_logConcave poisson_differentiable hG
    (fun s t a b => hk 1 s t a b) hb
  obtain ⟨q, hq, hqe⟩ := hbest.self_of_nhds.1
  refine ⟨v, K, fun x => iso (matern32Cov 2 x), _, hval, rfl, hG, fun s t a b => hk 1 s t a b, hb, fun t i j => ?_, fun s t i j => hP 1 s t i j,
    best, q, hbest, hq, hqe, hbd⟩
  simp only [hem]
  exact differentiableAt_const _

/-- Non-vacuity: three data with a Gaussian likelihood of variance two; the exact sites are a fixed point of `update_sites()`, and the kernel variance varies. -/
example : ∃ (c : CVI 2 2) (K : ℝ → Stationary 1 2) (k : ℝ → ℝ → ℝ → Mat 1 1) (k' : ℝ → ℝ → Mat 1 1) (q : SSM 2 2),
    (∀ᶠ x in 𝓝 (1 : ℝ), ({ c with kernel := K x } : CVI 2 2).Valid (k x)) ∧ c.likelihood = gaussianLikelihood 2 ∧
    ExactLikelihood c.likelihood ∧ LogConcaveLikelihood c.likelihood ∧ DifferentiableVarExp c.likelihood ∧
    (∀ t, c.sites.nat2 t 0 0 < 0) ∧ c.learningRate ≠ 0 ∧
    (∃ c', ({ c with kernel := K 1 } : CVI 2 2).updateSites = .ok c' ∧ c'.sites = c.sites) ∧ (gpGram (k 1) c.times).PosDef ∧
    (∀ s t a b, HasDerivAt (fun x => k x s t a b) (k' s t a b) 1) ∧ ({ c with kernel := K 1 } : CVI 2 2).distQ = .ok q := by
  obtain ⟨K, hK, hem, hj, hP, hk⟩ := matern32_family
  have hB : ∀ x, 0 < x → Builds (K x) (iso (matern32Cov 2 x)) := fun x hx => .leaf (.matern32 (hK x hx))
  have hts : StrictMono (![0, 1, 3] : Fin 3 → ℝ) := by
    refine Fin.strictMono_iff_lt_succ.2 fun i => ?_
    fin_cases i <;> simp
  have hG : (gpGram (iso (o := 1) (matern32Cov 2 1)) (![0, 1, 3] : Fin 3 → ℝ)).PosDef := by
    refine gpGram_posDef (hB 1 one_pos) (.matern32 (hK 1 one_pos)) two_pos hts (hj 1) fun i => ?_
    refine LinearIndependent.of_subsingleton 0 fun h0 => ?_
    have := congrFun h0 0
    rw [hem] at this
    exact one_ne_zero this
  set c : CVI 2 2 := ⟨![0, 1, 3], fun i => ![(i : ℝ)], K 1, gaussianLikelihood 2, fun _ => 0, 1 / 2,
    ⟨fun i => ![(i : ℝ) / 2], fun _ => !![-1 / (2 * 2)]⟩⟩ with hc
  have hval : ∀ x, 0 < x → ({ c with kernel := K x } : CVI 2 2).Valid (iso (matern32Cov 2 x)) := fun x hx =>
    ⟨hB x hx, .matern32 (hK x hx), hj x, hts, by show -10000000000 < (0 : ℝ); norm_num, by show (3 : ℝ) ≤ 10000000000; norm_num, two_pos⟩
  have hneg : ∀ t, c.sites.nat2 t 0 0 < 0 := fun t => by show (-1 / (2 * 2) : ℝ) < 0; norm_num
  obtain ⟨q, hq, -⟩ := CVI.closed (hval 1 one_pos) hneg hG
  obtain ⟨c', -, -, hu, -⟩ := C34_update (hval 1 one_pos) hq
  refine ⟨c, K, fun x => iso (matern32Cov 2 x), _, q, ?_, rfl, gaussianLikelihood_exact 2, gaussianLikelihood_logConcave two_pos, gaussian_differentiable 2,
    hneg, by show (1 / 2 : ℝ) ≠ 0; norm_num, ⟨c', hu, ?_⟩, hG, fun s t a b => hk 1 s t a b, hq⟩
  · filter_upwards [lt_mem_nhds (one_pos : (0 : ℝ) < 1)] with x hx
    exact hval x hx
  · obtain ⟨-, hs⟩ := CVI.update_gaussian (σ2 := 2) two_ne_zero rfl hu
    have e1 : c'.sites.nat1 = c.sites.nat1 := by
      funext t a
      rw [Subsingleton.elim a 0, (hs t).1]
      show (1 - 1 / 2) * ((t : ℝ) / 2) + 1 / 2 * ((t : ℝ) / 2) = (t : ℝ) / 2
      ring
    have e2 : c'.sites.nat2 = c.sites.nat2 := by
      funext t a b
      rw [Subsingleton.elim a 0, Subsingleton.elim b 0, (hs t).2]
      show (1 - 1 / 2) * (-1 / (2 * 2)) + 1 / 2 * (-1 / (2 * 2)) = (-1 / (2 * 2) : ℝ)
      ring
    calc c'.sites = ⟨c'.sites.nat1, c'.sites.nat2⟩ := rfl
      _ = c.sites := by rw [e1, e2]

end MF
