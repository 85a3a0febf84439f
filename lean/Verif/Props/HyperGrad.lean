import Verif.Lemmas.HyperGrad

/-! # C60: results as functions of the hyperparameters -/

namespace MF
open Matrix Spec Filter Topology
variable {n d o p : ℕ}

/-- The covariance of the observations: kernel plus noise. -/
noncomputable def obsCov (k : ℝ → ℝ → Mat o o) (ts : Fin (n + 1) → ℝ) (L : Mat o o) :
    Matrix (Fin (n + 1) × Fin o) (Fin (n + 1) × Fin o) ℝ := gpGram k ts + blkDiag fun _ => L * Lᵀ

theorem obsCov_posDef {g : GPR n o d} {k} (h : g.Valid k) : (obsCov k g.times g.cholObsCov).PosDef :=
  PosDef.posSemidef_add (gpGram_psd h.builds g.times) (posDef_blkDiag fun _ => h.factor.posDef)

/-- C60: the gradient of the marginal likelihood. Along any differentiable curve of valid models (kernel, mean function and noise factor may
all vary), `log_likelihood()` is differentiable with the textbook derivative `½ αᵀ C' α - ½ tr(C⁻¹ C') + αᵀ m'` where `C` is the covariance
of the observations and `α = C⁻¹ (y - m)`; `loss()` has the negative of it. -/
theorem C60_gradient {K : ℝ → Stationary o d} {k : ℝ → ℝ → ℝ → Mat o o} {ts : Fin (n + 1) → ℝ} {y : Fin (n + 1) → Vec o}
    {m : ℝ → ℝ → Vec o} {L : ℝ → Mat o o} {θ : ℝ} (hv : ∀ᶠ x in 𝓝 θ, (⟨ts, y, K x, m x, L x⟩ : GPR n o d).Valid (k x))
    {k' : ℝ → ℝ → Mat o o} {m' : ℝ → Vec o} {L' : Mat o o} (hk : ∀ s t a b, HasDerivAt (fun x => k x s t a b) (k' s t a b) θ)
    (hm : ∀ t a, HasDerivAt (fun x => m x t a) (m' t a) θ) (hL : ∀ a b, HasDerivAt (fun x => L x a b) (L' a b) θ)
    {α : Fin (n + 1) × Fin o → ℝ} (hα : α = (obsCov (k θ) ts (L θ))⁻¹ *ᵥ (stk y - meanVec (m θ) ts))
    {C' : Matrix (Fin (n + 1) × Fin o) (Fin (n + 1) × Fin o) ℝ}
    (hC' : C' = gpGram k' ts + blkDiag fun _ => L' * (L θ)ᵀ + L θ * L'ᵀ) :
    ∃ ℓ : ℝ → ℝ, (∀ᶠ x in 𝓝 θ, (⟨ts, y, K x, m x, L x⟩ : GPR n o d).logLikelihood = .ok (ℓ x) ∧
        (⟨ts, y, K x, m x, L x⟩ : GPR n o d).loss = .ok (-ℓ x)) ∧
      HasDerivAt ℓ (1 / 2 * (α ⬝ᵥ (C' *ᵥ α)) - 1 / 2 * ((obsCov (k θ) ts (L θ))⁻¹ * C').trace + α ⬝ᵥ meanVec m' ts) θ := by
  refine ⟨fun x => gaussLogDensity (meanVec (m x) ts) (obsCov (k x) ts (L x)) (stk y), hv.mono fun x hx => C32_log_likelihood hx, ?_⟩
  subst hα hC'
  refine hasDerivAt_gaussLogDensity (fun i j => ?_) (fun i => hm _ _) (obsCov_posDef hv.self_of_nhds) _
  refine (hk _ _ _ _).add ?_
  show HasDerivAt (fun x => blkDiag (fun _ : Fin (n + 1) => L x * (L x)ᵀ) i j) _ θ
  simp only [blkDiag, ofBlk, Matrix.of_apply]
  split_ifs with hij
  · simp only [Matrix.add_apply, Matrix.mul_apply, transpose_apply, ← Finset.sum_add_distrib]
    exact HasDerivAt.fun_sum fun c _ => (hL _ _).mul (hL _ _)
  · exact hasDerivAt_const _ _

variable {E : Type*} [NormedAddCommGroup E] [NormedSpace ℝ E] {N : WithTop ℕ∞}

theorem obsCov_smooth {k : E → ℝ → ℝ → Mat o o} {ts : Fin (n + 1) → ℝ} {L : E → Mat o o} {θ : E}
    (hk : ∀ s t a b, ContDiffAt ℝ N (fun x => k x s t a b) θ) (hL : ∀ a b, ContDiffAt ℝ N (fun x => L x a b) θ) (i j) :
    ContDiffAt ℝ N (fun x => obsCov (k x) ts (L x) i j) θ := by
  refine (hk _ _ _ _).add ?_
  show ContDiffAt ℝ N (fun x => blkDiag (fun _ : Fin (n + 1) => L x * (L x)ᵀ) i j) θ
  simp only [blkDiag, ofBlk, Matrix.of_apply]
  split_ifs with hij
  · simp only [Matrix.mul_apply, transpose_apply]
    exact ContDiffAt.sum fun c _ => (hL _ _).mul (hL _ _)
  · exact contDiffAt_const

/-- C60: the marginal likelihood is as smooth in the hyperparameters (any number of them, jointly) as the covariance function, the mean
function and the noise factor are. -/
theorem C60_smooth {K : E → Stationary o d} {k : E → ℝ → ℝ → Mat o o} {ts : Fin (n + 1) → ℝ} {y : Fin (n + 1) → Vec o}
    {m : E → ℝ → Vec o} {L : E → Mat o o} {θ : E} (hv : ∀ᶠ x in 𝓝 θ, (⟨ts, y, K x, m x, L x⟩ : GPR n o d).Valid (k x))
    (hk : ∀ s t a b, ContDiffAt ℝ N (fun x => k x s t a b) θ)
    (hm : ∀ t a, ContDiffAt ℝ N (fun x => m x t a) θ) (hL : ∀ a b, ContDiffAt ℝ N (fun x => L x a b) θ) :
    ∃ ℓ : E → ℝ, (∀ᶠ x in 𝓝 θ, (⟨ts, y, K x, m x, L x⟩ : GPR n o d).logLikelihood = .ok (ℓ x) ∧
        (⟨ts, y, K x, m x, L x⟩ : GPR n o d).loss = .ok (-ℓ x)) ∧ ContDiffAt ℝ N ℓ θ :=
  ⟨fun x => gaussLogDensity (meanVec (m x) ts) (obsCov (k x) ts (L x)) (stk y), hv.mono fun _ hx => C32_log_likelihood hx,
    contDiffAt_gaussLogDensity (obsCov_smooth hk hL) (fun _ => hm _ _) (obsCov_posDef hv.self_of_nhds).det_pos.ne' _⟩

/-- C60: so are the predictions. -/
theorem C60_predict {K : E → Stationary o d} {k : E → ℝ → ℝ → Mat o o} {ts : Fin (n + 1) → ℝ} {y : Fin (n + 1) → Vec o}
    {m : E → ℝ → Vec o} {L : E → Mat o o} {θ : E} (hv : ∀ᶠ x in 𝓝 θ, (⟨ts, y, K x, m x, L x⟩ : GPR n o d).Valid (k x))
    (hk : ∀ s t a b, ContDiffAt ℝ N (fun x => k x s t a b) θ)
    (hm : ∀ t a, ContDiffAt ℝ N (fun x => m x t a) θ) (hL : ∀ a b, ContDiffAt ℝ N (fun x => L x a b) θ)
    (ht0 : -10000000000 < ts 0) (ht1 : ts (Fin.last n) ≤ 10000000000) {new : Fin p → ℝ} (h0 : ∀ j, ts 0 ≤ new j)
    (h1 : ∀ j, new j ≤ ts (Fin.last n)) :
    ∃ f : E → Fin p → Vec o × Mat o o,
      (∀ᶠ x in 𝓝 θ, ∃ c, (⟨ts, y, K x, m x, L x⟩ : GPR n o d).posterior = .ok c ∧ c.predictF new = .ok (f x)) ∧
      ∀ j a, ContDiffAt ℝ N (fun x => (f x j).1 a) θ ∧ ∀ b, ContDiffAt ℝ N (fun x => (f x j).2 a b) θ := by
  refine ⟨fun x j => (gpPostMean (m x) (k x) ts (blkDiag fun _ => L x * (L x)ᵀ) (stk y) (new j),
    gpPostCov (k x) ts (blkDiag fun _ => L x * (L x)ᵀ) (new j) (new j)), hv.mono fun x hx => ?_, fun j a => ⟨?_, fun b => ?_⟩⟩
  · obtain ⟨c, hc, -, hp⟩ := C32_posterior hx ht0 ht1
    obtain ⟨f, hf, he⟩ := hp new h0 h1
    refine ⟨c, hc, ?_⟩
    rw [hf]
    congr 1
    funext j
    exact Prod.ext (he j).1 (he j).2
  · have hI := contDiffAt_inv (obsCov_smooth (ts := ts) hk hL) (obsCov_posDef hv.self_of_nhds).det_pos.ne'
    simp only [gpPostMean, Pi.add_apply, mulVec, dotProduct]
    refine (hm _ _).add (ContDiffAt.sum fun i _ => (hk _ _ _ _).mul (ContDiffAt.sum fun l _ => (hI i l).mul ?_))
    exact contDiffAt_const.sub (hm _ _)
  · have hI := contDiffAt_inv (obsCov_smooth (ts := ts) hk hL) (obsCov_posDef hv.self_of_nhds).det_pos.ne'
    simp only [gpPostCov, Matrix.sub_apply, Matrix.mul_apply, transpose_apply]
    exact (hk _ _ _ _).sub (ContDiffAt.sum fun i _ => (ContDiffAt.sum fun l _ => (hk _ _ _ _).mul (hI l i)).mul (hk _ _ _ _))

/-- C60: the covariance functions are smooth in their own parameters, and combinations keep smoothness: so the hypotheses of `C60_smooth`
hold for every kernel expression. -/
theorem C60_covariances :
    (∀ r l v : ℝ, l ≠ 0 → ContDiffAt ℝ N (fun x : ℝ × ℝ => matern12Cov x.1 x.2 r) (l, v)) ∧
    (∀ r l v : ℝ, l ≠ 0 → ContDiffAt ℝ N (fun x : ℝ × ℝ => matern32Cov x.1 x.2 r) (l, v)) ∧
    (∀ r l v : ℝ, l ≠ 0 → ContDiffAt ℝ N (fun x : ℝ × ℝ => matern52Cov x.1 x.2 r) (l, v)) ∧
    (∀ r c q : ℝ, c ≠ 0 → ContDiffAt ℝ N (fun x : ℝ × ℝ => ouCov x.1 x.2 r) (c, q)) ∧
    (∀ r v q : ℝ, q ≠ 0 → ContDiffAt ℝ N (fun x : ℝ × ℝ => cosineCov x.1 x.2 r) (v, q)) ∧
    (∀ {A : ℕ} {c : Fin A → E → ℝ → ℝ → Mat o o} {θ : E}, (∀ i s t a b, ContDiffAt ℝ N (fun x => c i x s t a b) θ) →
      (∀ s t a b, ContDiffAt ℝ N (fun x => (∑ i, c i x s t) a b) θ) ∧
      (∀ s t a b, ContDiffAt ℝ N (fun x => independent (fun i => c i x) s t a b) θ) ∧
      (∀ s t a b, ContDiffAt ℝ N (fun x => ∏ i, c i x s t a b) θ) ∧
      ∀ {o' : ℕ} {W : E → ℝ → Mat o' (A * o)} {B : E → Mat (A * o) (A * o)}, (∀ t a b, ContDiffAt ℝ N (fun x => W x t a b) θ) →
        (∀ a b, ContDiffAt ℝ N (fun x => B x a b) θ) →
        ∀ s t a b, ContDiffAt ℝ N (fun x => (W x s * B x * independent (fun i => c i x) s t * (W x t * B x)ᵀ) a b) θ) := by
  have hexp : ∀ {F : ℝ × ℝ → ℝ} {x}, ContDiffAt ℝ N F x → ContDiffAt ℝ N (fun y => Real.exp (F y)) x := fun h => h.exp
  have c1 : ∀ x : ℝ × ℝ, ContDiffAt ℝ N (fun y : ℝ × ℝ => y.1) x := fun _ => contDiffAt_fst
  have c2 : ∀ x : ℝ × ℝ, ContDiffAt ℝ N (fun y : ℝ × ℝ => y.2) x := fun _ => contDiffAt_snd
  refine ⟨fun r l v hl => ?_, fun r l v hl => ?_, fun r l v hl => ?_, fun r c q hc => ?_, fun r v q hq => ?_, fun hc => ?_⟩
  · unfold matern12Cov
    exact (c2 _).mul (hexp (contDiffAt_const.div (c1 _) hl).neg)
  · unfold matern32Cov
    exact ((c2 _).mul (contDiffAt_const.add (contDiffAt_const.div (c1 _) hl))).mul (hexp (contDiffAt_const.div (c1 _) hl).neg)
  · unfold matern52Cov
    exact ((c2 _).mul ((contDiffAt_const.add (contDiffAt_const.div (c1 _) hl)).add
      (contDiffAt_const.div (contDiffAt_const.mul ((c1 _).pow 2)) (by positivity)))).mul (hexp (contDiffAt_const.div (c1 _) hl).neg)
  · unfold ouCov
    exact ((c2 _).div (contDiffAt_const.mul (c1 _)) (by simpa using hc)).mul (hexp ((c1 _).mul contDiffAt_const).neg)
  · unfold cosineCov
    exact (c1 _).mul (contDiffAt_const.div (c2 _) hq).cos
  · rename_i A c θ
    have hi : ∀ s t a b, ContDiffAt ℝ N (fun x => independent (fun i => c i x) s t a b) θ := fun s t a b => by
      simp only [independent, Matrix.of_apply]
      split_ifs
      · exact hc _ _ _ _ _
      · exact contDiffAt_const
    refine ⟨fun s t a b => ?_, hi, fun s t a b => contDiffAt_prod fun i _ => hc i s t a b, fun {o' W B} hW hB s t a b => ?_⟩
    · simp only [Matrix.sum_apply]
      exact ContDiffAt.sum fun i _ => hc i s t a b
    · have hWB : ∀ t a b, ContDiffAt ℝ N (fun x => (W x t * B x) a b) θ := fun t a b => by
        simp only [Matrix.mul_apply]
        exact ContDiffAt.sum fun i _ => (hW _ _ _).mul (hB _ _)
      have e : (fun x => (W x s * B x * independent (fun i => c i x) s t * (W x t * B x)ᵀ) a b) = fun x =>
          ∑ i, (∑ l, (W x s * B x) a l * independent (fun i => c i x) s t l i) * (W x t * B x) b i := rfl
      rw [e]
      exact ContDiffAt.sum fun i _ => (ContDiffAt.sum fun l _ => (hWB _ _ _).mul (hi _ _ _ _)).mul (hWB _ _ _)

open scoped Matrix.Norms.Operator in
/-- C60: the covariance function of the latent exponentially generated kernel is smooth in the matrices `N` and `R`, everywhere; that of the constant
kernel in its variance. -/
theorem C60_leg_constant {e : ℕ} {L R : E → Mat (e + 1) (e + 1)} {θ : E} (hL : ∀ a b, ContDiffAt ℝ N (fun x => L x a b) θ)
    (hR : ∀ a b, ContDiffAt ℝ N (fun x => R x a b) θ) {v : E → ℝ} (hv : ContDiffAt ℝ N v θ) :
    (∀ {j : ℝ} {K : E → Stationary (e + 1) (e + 1)}, (∀ x, leg (L x) (R x) j = .ok (K x)) → ∃ k : E → ℝ → ℝ → Mat (e + 1) (e + 1),
      (∀ x, Builds (K x) (k x)) ∧ ∀ s t a b, ContDiffAt ℝ N (fun x => k x s t a b) θ) ∧
    ∀ {j : ℝ} {K : E → Stationary o 1}, (∀ x, constant o (v x) j = .ok (K x)) → ∃ k : E → ℝ → ℝ → Mat o o,
      (∀ x, Builds (K x) (k x)) ∧ ∀ s t a b, ContDiffAt ℝ N (fun x => k x s t a b) θ := by
  refine ⟨fun hK => ⟨_, fun x => .leaf (.leg (hK x)), fun s t _ _ => ?_⟩, fun hK => ⟨_, fun x => .leaf (.constant (hK x)), fun s t _ _ => hv⟩⟩
  have hF : ∀ a b, ContDiffAt ℝ N (fun x => (|s - t| • ((1 / 2 : ℝ) • (-(L x * (L x)ᵀ + R x - (R x)ᵀ)))) a b) θ := fun a b => by
    simp only [Matrix.smul_apply, Matrix.neg_apply, Matrix.sub_apply, Matrix.add_apply, Matrix.mul_apply, transpose_apply, smul_eq_mul]
    exact contDiffAt_const.mul (contDiffAt_const.mul
      (((ContDiffAt.sum fun i _ => (hL a i).mul (hL b i)).add (hR a b)).sub (hR b a)).neg)
  have hM : ContDiffAt ℝ N (fun x => |s - t| • ((1 / 2 : ℝ) • (-(L x * (L x)ᵀ + R x - (R x)ᵀ)))) θ := by
    have : (fun x => |s - t| • ((1 / 2 : ℝ) • (-(L x * (L x)ᵀ + R x - (R x)ᵀ)))) = fun x => ∑ a, ∑ b,
        ((|s - t| • ((1 / 2 : ℝ) • (-(L x * (L x)ᵀ + R x - (R x)ᵀ)))) a b) • Matrix.single a b (1 : ℝ) := by
      funext x
      conv_lhs => rw [Matrix.matrix_eq_sum_single (|s - t| • ((1 / 2 : ℝ) • (-(L x * (L x)ᵀ + R x - (R x)ᵀ))))]
      simp only [Matrix.smul_single, smul_eq_mul, mul_one]
    rw [this]
    exact ContDiffAt.sum fun a _ => ContDiffAt.sum fun b _ => (hF a b).smul contDiffAt_const
  have hexp := ContDiffAt.comp θ ((NormedSpace.exp_analytic (𝕂 := ℝ) _).contDiffAt) hM
  exact ContDiffAt.comp θ (LinearMap.toContinuousLinearMap (Matrix.entryLinearMap ℝ ℝ (0 : Fin (e + 1)) (0 : Fin (e + 1)))).contDiff.contDiffAt hexp

/-- C60 for the Matérn kernels with isotropic noise `s² I`: the log likelihood is an infinitely differentiable (in fact analytic: `N` is
arbitrary) function of lengthscale, variance and noise standard deviation on all positive values, and `log_likelihood()` evaluates it. -/
theorem C60_matern (hn : 0 < n) {ts : Fin (n + 1) → ℝ} (hts : StrictMono ts) (y : Fin (n + 1) → Vec o) (m : ℝ → Vec o) :
    (∃ ℓ : ℝ × ℝ × ℝ → ℝ, ∀ l v s : ℝ, 0 < l → 0 < v → 0 < s → ContDiffAt ℝ N ℓ (l, v, s) ∧
      ∃ K, matern12 o l v 0 = .ok K ∧ (⟨ts, y, K, m, s • 1⟩ : GPR n o 1).logLikelihood = .ok (ℓ (l, v, s))) ∧
    (∃ ℓ : ℝ × ℝ × ℝ → ℝ, ∀ l v s : ℝ, 0 < l → 0 < v → 0 < s → ContDiffAt ℝ N ℓ (l, v, s) ∧
      ∃ K, matern32 o l v 0 = .ok K ∧ (⟨ts, y, K, m, s • 1⟩ : GPR n o 2).logLikelihood = .ok (ℓ (l, v, s))) ∧
    (∃ ℓ : ℝ × ℝ × ℝ → ℝ, ∀ l v s : ℝ, 0 < l → 0 < v → 0 < s → ContDiffAt ℝ N ℓ (l, v, s) ∧
      ∃ K, matern52 o l v 0 = .ok K ∧ (⟨ts, y, K, m, s • 1⟩ : GPR n o 3).logLikelihood = .ok (ℓ (l, v, s))) := by
  have key : ∀ {d : ℕ} (cov : ℝ → ℝ → ℝ → ℝ) (ctor : ℝ → ℝ → Except Err (Stationary o d)),
      (∀ r l v : ℝ, l ≠ 0 → ContDiffAt ℝ N (fun x : ℝ × ℝ => cov x.1 x.2 r) (l, v)) →
      (∀ l v, 0 < l → 0 < v → ∃ K, ctor l v = .ok K ∧ Builds K (iso (cov l v)) ∧ NoiseTag K true ∧ K.jitter = 0) →
      ∃ ℓ : ℝ × ℝ × ℝ → ℝ, ∀ l v s : ℝ, 0 < l → 0 < v → 0 < s → ContDiffAt ℝ N ℓ (l, v, s) ∧
        ∃ K, ctor l v = .ok K ∧ (⟨ts, y, K, m, s • 1⟩ : GPR n o d).logLikelihood = .ok (ℓ (l, v, s)) := by
    intro d cov ctor hs hb
    refine ⟨fun x => gaussLogDensity (meanVec m ts) (obsCov (iso (cov x.1 x.2.1)) ts (x.2.2 • 1)) (stk y), fun l v s hl hv hs0 => ?_⟩
    obtain ⟨K, hK, hB, hN, hj⟩ := hb l v hl hv
    have hval : (⟨ts, y, K, m, s • 1⟩ : GPR n o d).Valid (iso (cov l v)) := by
      refine ⟨hB, hN, hj, hts, ⟨?_, fun i => ?_⟩, hn⟩
      · intro i j hij
        show s * (1 : Mat o o) i j = 0
        rw [Matrix.one_apply_ne (ne_of_lt hij), mul_zero]
      · show s * (1 : Mat o o) i i ≠ 0
        rw [Matrix.one_apply_eq, mul_one]; exact hs0.ne'
    refine ⟨contDiffAt_gaussLogDensity (E := ℝ × ℝ × ℝ) (θ := (l, v, s)) (m := fun _ => meanVec m ts)
      (C := fun x => obsCov (iso (cov x.1 x.2.1)) ts (x.2.2 • (1 : Mat o o))) (fun i j => ?_) (fun _ => contDiffAt_const) (obsCov_posDef hval).det_pos.ne' _, K, hK,
      (C32_log_likelihood hval).1⟩
    refine obsCov_smooth (k := fun x : ℝ × ℝ × ℝ => iso (cov x.1 x.2.1)) (L := fun x : ℝ × ℝ × ℝ => x.2.2 • (1 : Mat o o)) (fun s' t' a b => ?_)
      (fun a b => ?_) i j
    · have h2 : ContDiffAt ℝ N (fun x : ℝ × ℝ × ℝ => (x.1, x.2.1)) (l, v, s) := contDiffAt_fst.prodMk (contDiffAt_fst.comp _ contDiffAt_snd)
      exact ContDiffAt.comp (l, v, s) (hs |s' - t'| l v hl.ne') h2
    · show ContDiffAt ℝ N (fun x : ℝ × ℝ × ℝ => x.2.2 * (1 : Mat o o) a b) (l, v, s)
      have h3 : ContDiffAt ℝ N (fun x : ℝ × ℝ × ℝ => x.2.2) (l, v, s) := contDiffAt_snd.comp _ contDiffAt_snd
      exact h3.mul contDiffAt_const
  have hps : ∀ {l v : ℝ}, 0 < l → 0 < v → ∀ {d : ℕ} (K : Stationary o d), kernelInit 0 [l, v] K = .ok K := by
    intro l v hl hv d K
    unfold kernelInit
    rw [if_neg (by norm_num), if_neg (by simp [hl, hv])]
  obtain ⟨h12, h32, h52, -⟩ := C60_covariances (E := ℝ) (o := o) (N := N)
  refine ⟨key matern12Cov _ h12 fun l v hl hv => ⟨_, hps hl hv _, ?_, ?_, rfl⟩, key matern32Cov _ h32 fun l v hl hv => ⟨_, hps hl hv _, ?_, ?_, rfl⟩,
    key matern52Cov _ h52 fun l v hl hv => ⟨_, hps hl hv _, ?_, ?_, rfl⟩⟩
  · exact .leaf (.matern12 (hps hl hv _))
  · exact .matern12 (hps hl hv _)
  · exact .leaf (.matern32 (hps hl hv _))
  · exact .matern32 (hps hl hv _)
  · exact .leaf (.matern52 (hps hl hv _))
  · exact .matern52 (hps hl hv _)

/-- Non-vacuity: a curve of valid models (noise standard deviation `x` near `1`) meets the hypotheses of `C60_gradient`. -/
example : ∃ (K : Stationary 1 1) (ts : Fin 2 → ℝ), (∀ᶠ x in 𝓝 (1 : ℝ),
      (⟨ts, fun i _ => i, K, fun _ => 0, x • 1⟩ : GPR 1 1 1).Valid (iso (matern12Cov 1 1))) ∧
    ∀ a b, HasDerivAt (fun x : ℝ => (x • (1 : Mat 1 1)) a b) ((1 : Mat 1 1) a b) 1 := by
  obtain ⟨K, hk, hj⟩ : ∃ K, matern12 1 1 1 0 = .ok K ∧ K.jitter = 0 :=
    ⟨_, if_neg (by norm_num) |>.trans (if_neg (by simp)), rfl⟩
  refine ⟨K, fun i => (i : ℕ), ?_, fun a b => ?_⟩
  · filter_upwards [eventually_gt_nhds (show (0 : ℝ) < 1 by norm_num)] with x hx
    refine ⟨.leaf (.matern12 hk), .matern12 hk, hj, fun i j hij => Nat.cast_lt.2 hij, ⟨fun i j hij => ?_, fun i => ?_⟩, Nat.one_pos⟩
    · exact absurd hij (by omega)
    · show x * (1 : Mat 1 1) i i ≠ 0
      rw [Matrix.one_apply_eq, mul_one]; exact hx.ne'
  · have := (hasDerivAt_id (1 : ℝ)).mul_const ((1 : Mat 1 1) a b)
    rw [one_mul] at this
    exact this

end MF
