import Verif.Lemmas.Expm
import Verif.Lemmas.SSMLaw
import Verif.Lemmas.GPBridge
import Verif.Spec.Refinement
import Mathlib.MeasureTheory.Measure.LevyConvergence

/-! # Limits of Euler steps and of Gaussian laws -/

namespace MF
open Matrix Spec MeasureTheory ProbabilityTheory Filter Topology
open scoped BoundedContinuousFunction

section banach
variable {𝔸 : Type*} [NormedRing 𝔸] [NormOneClass 𝔸]

theorem norm_pow_sub_pow_le {X Y : 𝔸} {q : ℝ} (hX : ‖X‖ ≤ q) (hY : ‖Y‖ ≤ q) (hq : 1 ≤ q) (k : ℕ) :
    ‖X ^ k - Y ^ k‖ ≤ k * q ^ k * ‖X - Y‖ := by
  have q0 : 0 ≤ q := zero_le_one.trans hq
  induction k with
  | zero => simp
  | succ k ih =>
    have e : X ^ (k + 1) - Y ^ (k + 1) = X * (X ^ k - Y ^ k) + (X - Y) * Y ^ k := by
      rw [pow_succ', pow_succ']; noncomm_ring
    rw [e]
    have hYk : ‖Y ^ k‖ ≤ q ^ k := (norm_pow_le Y k).trans (pow_le_pow_left₀ (norm_nonneg _) hY k)
    have h1 : ‖X * (X ^ k - Y ^ k)‖ ≤ q * (k * q ^ k * ‖X - Y‖) :=
      (norm_mul_le _ _).trans (mul_le_mul hX ih (norm_nonneg _) q0)
    have h2 : ‖(X - Y) * Y ^ k‖ ≤ q ^ (k + 1) * ‖X - Y‖ := by
      refine (norm_mul_le _ _).trans ?_
      rw [mul_comm]
      refine mul_le_mul_of_nonneg_right (hYk.trans ?_) (norm_nonneg _)
      exact pow_le_pow_right₀ hq (Nat.le_succ k)
    refine (norm_add_le _ _).trans ((add_le_add h1 h2).trans (le_of_eq ?_))
    push_cast; ring

variable [NormedAlgebra ℝ 𝔸]

theorem norm_one_add_le (F : 𝔸) {h : ℝ} (h0 : 0 ≤ h) : ‖1 + h • F‖ ≤ Real.exp (h * (‖F‖ + 1)) := by
  have h1 : ‖1 + h • F‖ ≤ 1 + h * ‖F‖ := by
    refine (norm_add_le _ _).trans ?_
    rw [norm_one, norm_smul, Real.norm_of_nonneg h0]
  refine h1.trans (le_trans ?_ (Real.add_one_le_exp _))
  nlinarith [norm_nonneg F]

theorem norm_one_add_pow_le (F : 𝔸) {h : ℝ} (h0 : 0 ≤ h) (k : ℕ) : ‖(1 + h • F) ^ k‖ ≤ Real.exp (h * k * (‖F‖ + 1)) := by
  refine (norm_pow_le _ _).trans ((pow_le_pow_left₀ (norm_nonneg _) (norm_one_add_le F h0) k).trans (le_of_eq ?_))
  rw [← Real.exp_nat_mul]; congr 1; ring

/-- Refining Euler steps: the powers of `1 + h F` converge to the exponential. -/
theorem tendsto_one_add_pow [CompleteSpace 𝔸] (F : 𝔸) {h : ℕ → ℝ} {k : ℕ → ℕ} {t : ℝ} (hp : ∀ N, 0 < h N) (h0 : Tendsto h atTop (𝓝 0))
    (hk : Tendsto (fun N => h N * k N) atTop (𝓝 t)) :
    Tendsto (fun N => (1 + h N • F) ^ k N) atTop (𝓝 (NormedSpace.exp (t • F))) := by
  set E : ℝ → 𝔸 := fun r => NormedSpace.exp (r • F) with hE
  have hd : HasDerivAt E F 0 := by
    have := hasDerivAt_exp_smul_const (𝕂 := ℝ) F (0 : ℝ)
    simpa using this
  have hcont : Continuous E := by
    refine continuous_iff_continuousAt.2 fun r => ?_
    exact (hasDerivAt_exp_smul_const (𝕂 := ℝ) F r).continuousAt
  have hE0 : E 0 = 1 := by simp [hE]
  -- the local error
  have hloc : Tendsto (fun N => ‖(1 + h N • F) - E (h N)‖ / h N) atTop (𝓝 0) := by
    have ho := hasDerivAt_iff_isLittleO_nhds_zero.1 hd
    have h1 := (ho.comp_tendsto h0).norm_left.tendsto_div_nhds_zero
    refine h1.congr fun N => ?_
    simp only [Function.comp_apply, zero_add, hE0]
    rw [← norm_neg]; congr 2; abel
  -- growth of the exact steps
  have hgrow : ∀ᶠ N in atTop, ‖E (h N)‖ ≤ Real.exp (h N * (‖F‖ + 1)) := by
    filter_upwards [(tendsto_order.1 hloc).2 1 one_pos] with N hN
    have h2 : ‖(1 + h N • F) - E (h N)‖ ≤ h N := by
      rw [div_lt_one (hp N)] at hN; exact hN.le
    have h3 : ‖E (h N)‖ ≤ ‖1 + h N • F‖ + ‖(1 + h N • F) - E (h N)‖ := by
      have := norm_sub_le (1 + h N • F) ((1 + h N • F) - E (h N))
      simpa using this
    have h4 : ‖1 + h N • F‖ ≤ 1 + h N * ‖F‖ := by
      refine (norm_add_le _ _).trans ?_
      rw [norm_one, norm_smul, Real.norm_of_nonneg (hp N).le]
    refine le_trans ?_ (Real.add_one_le_exp _)
    nlinarith [h3, h2, h4]
  have hpow : ∀ r : ℝ, ∀ j : ℕ, E r ^ j = E (r * j) := fun r j => by
    simp only [hE]
    letI := NormedAlgebra.restrictScalars ℚ ℝ 𝔸
    rw [← NormedSpace.exp_nsmul, ← Nat.cast_smul_eq_nsmul ℝ, smul_smul, mul_comm]
  have hdiff : Tendsto (fun N => (1 + h N • F) ^ k N - E (h N) ^ k N) atTop (𝓝 0) := by
    have hb : Tendsto (fun N => (h N * k N) * Real.exp (h N * k N * (‖F‖ + 1)) * (‖(1 + h N • F) - E (h N)‖ / h N)) atTop (𝓝 0) := by
      have := (hk.mul (Real.continuous_exp.tendsto _ |>.comp (hk.mul_const (‖F‖ + 1)))).mul hloc
      rw [mul_zero] at this
      exact this
    refine squeeze_zero_norm' ?_ hb
    filter_upwards [hgrow] with N hN
    have := norm_pow_sub_pow_le (norm_one_add_le F (hp N).le) hN (Real.one_le_exp (by have := hp N; positivity)) (k N)
    refine this.trans (le_of_eq ?_)
    rw [← Real.exp_nat_mul]
    have hne := (hp N).ne'
    field_simp
  have hlim : Tendsto (fun N => E (h N) ^ k N) atTop (𝓝 (E t)) := by
    simp only [hpow]
    exact (hcont.tendsto t).comp hk
  have := hdiff.add hlim
  simpa using this

end banach

section matrix
open scoped Matrix.Norms.Operator
variable {d : ℕ}

theorem tendsto_euler_pow (hd : 0 < d) (F : Mat d d) {h : ℕ → ℝ} {k : ℕ → ℕ} {t : ℝ} (hp : ∀ N, 0 < h N) (h0 : Tendsto h atTop (𝓝 0))
    (hk : Tendsto (fun N => h N * k N) atTop (𝓝 t)) :
    Tendsto (fun N => (1 + h N • F) ^ k N) atTop (𝓝 (NormedSpace.exp (t • F))) := by
  have : Nonempty (Fin d) := ⟨⟨0, hd⟩⟩
  exact tendsto_one_add_pow F hp h0 hk

/-- The accumulated second-order error of the covariances vanishes. -/
theorem tendsto_euler_error (hd : 0 < d) (F W : Mat d d) {h : ℕ → ℝ} {k : ℕ → ℕ} {t : ℝ} (hp : ∀ N, 0 < h N) (h0 : Tendsto h atTop (𝓝 0))
    (hk : Tendsto (fun N => h N * k N) atTop (𝓝 t)) :
    Tendsto (fun N => (h N) ^ 2 • ∑ j ∈ Finset.range (k N), (1 + h N • F) ^ j * W * ((1 + h N • F) ^ j)ᵀ) atTop (𝓝 0) := by
  have : Nonempty (Fin d) := ⟨⟨0, hd⟩⟩
  have hb : Tendsto (fun N => h N * (h N * k N) * (Real.exp (h N * k N * (‖F‖ + 1)) * ‖W‖ * Real.exp (h N * k N * (‖Fᵀ‖ + 1))))
      atTop (𝓝 0) := by
    have := (h0.mul hk).mul (((Real.continuous_exp.tendsto _ |>.comp (hk.mul_const (‖F‖ + 1))).mul_const ‖W‖).mul
      (Real.continuous_exp.tendsto _ |>.comp (hk.mul_const (‖Fᵀ‖ + 1))))
    rw [zero_mul, zero_mul] at this
    exact this
  refine squeeze_zero_norm (fun N => ?_) hb
  have hN := (hp N).le
  have hterm : ∀ j ∈ Finset.range (k N), ‖(1 + h N • F) ^ j * W * ((1 + h N • F) ^ j)ᵀ‖ ≤
      Real.exp (h N * k N * (‖F‖ + 1)) * ‖W‖ * Real.exp (h N * k N * (‖Fᵀ‖ + 1)) := fun j hj => by
    have hjk : (j : ℝ) ≤ k N := by exact_mod_cast (Finset.mem_range.1 hj).le
    have hmono : ∀ c : ℝ, 0 ≤ c → Real.exp (h N * j * (c + 1)) ≤ Real.exp (h N * k N * (c + 1)) := fun c hc => by
      refine Real.exp_le_exp.2 ?_
      refine mul_le_mul_of_nonneg_right (mul_le_mul_of_nonneg_left hjk hN) (by linarith)
    have hT : ((1 + h N • F) ^ j)ᵀ = (1 + h N • Fᵀ) ^ j := by
      rw [transpose_pow, transpose_add, transpose_one, transpose_smul]
    rw [hT]
    refine (norm_mul_le _ _).trans (mul_le_mul ((norm_mul_le _ _).trans (mul_le_mul_of_nonneg_right ?_ (norm_nonneg _))) ?_
      (norm_nonneg _) (by positivity))
    · exact (norm_one_add_pow_le F hN j).trans (hmono _ (norm_nonneg _))
    · exact (norm_one_add_pow_le Fᵀ hN j).trans (hmono _ (norm_nonneg _))
  rw [norm_smul, Real.norm_of_nonneg (by positivity)]
  refine (mul_le_mul_of_nonneg_left (norm_sum_le_of_le _ hterm) (by positivity)).trans (le_of_eq ?_)
  rw [Finset.sum_const, Finset.card_range, nsmul_eq_mul]; ring

end matrix

section gauss
variable {ι : Type*} [Fintype ι] [DecidableEq ι]

theorem integral_gaussLaw_eq (m : ι → ℝ) (K : Matrix ι ι ℝ) (f : (ι → ℝ) →ᵇ ℝ) :
    ∫ x, f x ∂gaussLaw m K = ∫ x, f (WithLp.ofLp x) ∂multivariateGaussian (WithLp.toLp 2 m) K := by
  unfold gaussLaw
  rw [integral_map (by fun_prop) f.continuous.aestronglyMeasurable]

/-- Gaussian laws depend continuously on mean and covariance (in the sense of weak convergence). -/
theorem tendsto_gaussLaw {m : ℕ → ι → ℝ} {K : ℕ → Matrix ι ι ℝ} {m₀ : ι → ℝ} {K₀ : Matrix ι ι ℝ} (hK : ∀ N, (K N).PosSemidef)
    (hK₀ : K₀.PosSemidef) (hm : Tendsto m atTop (𝓝 m₀)) (hKl : Tendsto K atTop (𝓝 K₀)) (f : (ι → ℝ) →ᵇ ℝ) :
    Tendsto (fun N => ∫ x, f x ∂gaussLaw (m N) (K N)) atTop (𝓝 (∫ x, f x ∂gaussLaw m₀ K₀)) := by
  simp only [integral_gaussLaw_eq]
  let μ : ℕ → ProbabilityMeasure (EuclideanSpace ℝ ι) := fun N => ⟨multivariateGaussian (WithLp.toLp 2 (m N)) (K N), inferInstance⟩
  let μ₀ : ProbabilityMeasure (EuclideanSpace ℝ ι) := ⟨multivariateGaussian (WithLp.toLp 2 m₀) K₀, inferInstance⟩
  have hlim : Tendsto μ atTop (𝓝 μ₀) := by
    refine ProbabilityMeasure.tendsto_of_tendsto_charFun fun t => ?_
    show Tendsto (fun N => charFun (multivariateGaussian (WithLp.toLp 2 (m N)) (K N)) t) atTop
      (𝓝 (charFun (multivariateGaussian (WithLp.toLp 2 m₀) K₀) t))
    rw [charFun_multivariateGaussian hK₀]
    simp only [fun N => charFun_multivariateGaussian (hK N) (x := t) (μ := WithLp.toLp 2 (m N))]
    have h1 : Tendsto (fun N => inner ℝ t (WithLp.toLp 2 (m N))) atTop (𝓝 (inner ℝ t (WithLp.toLp 2 m₀))) :=
      tendsto_const_nhds.inner (((PiLp.continuous_toLp 2 _).tendsto m₀).comp hm)
    have h2 : Tendsto (fun N => t.ofLp ⬝ᵥ K N *ᵥ t.ofLp) atTop (𝓝 (t.ofLp ⬝ᵥ K₀ *ᵥ t.ofLp)) := by
      have hc : Continuous fun M : Matrix ι ι ℝ => t.ofLp ⬝ᵥ M *ᵥ t.ofLp :=
        Continuous.dotProduct continuous_const (Continuous.matrix_mulVec continuous_id continuous_const)
      exact (hc.tendsto K₀).comp hKl
    refine (Complex.continuous_exp.tendsto _).comp ?_
    exact (((Complex.continuous_ofReal.tendsto _).comp h1).mul_const _).sub
      (((Complex.continuous_ofReal.tendsto _).comp h2).div_const _)
  have := ProbabilityMeasure.tendsto_iff_forall_integral_tendsto.1 hlim
    (f.compContinuous ⟨WithLp.ofLp, PiLp.continuous_ofLp 2 _⟩)
  exact this

end gauss

section chains
variable {M n d : ℕ}

/-- Moments of the chain of Euler steps. -/
theorem euler_chain {s : SSM M d} {F P P0 : Mat d d} {m : Vec d} {h : ℝ} (hA : ∀ k, s.A k = 1 + h • F)
    (hb : ∀ k, s.b k = -(h • F *ᵥ m)) (hQ : ∀ k, s.Q k = h • (-(F * P + P * Fᵀ))) (h0 : s.initialCovariance = P0) :
    (∀ k : Fin (M + 1), s.mus k = m + (1 + h • F) ^ (k : ℕ) *ᵥ (s.mu0 - m)) ∧
    (∀ k : Fin (M + 1), blk s.Kd k k = P - (1 + h • F) ^ (k : ℕ) * (P - P0) * ((1 + h • F) ^ (k : ℕ))ᵀ +
      h ^ 2 • ∑ j ∈ Finset.range k, (1 + h • F) ^ j * (F * P * Fᵀ) * ((1 + h • F) ^ j)ᵀ) ∧
    ∀ i j : Fin (M + 1), j ≤ i → blk s.Kd i j = (1 + h • F) ^ ((i : ℕ) - j) * blk s.Kd j j := by
  have hJ := s.Kd_isJointCov
  refine ⟨fun k => ?_, fun k => ?_, fun i => ?_⟩
  · induction k using Fin.induction with
    | zero => rw [s.mus_isMeans.zero]; simp
    | succ k ih =>
      rw [s.mus_isMeans.succ, ih, hA, hb, mulVec_add, mulVec_mulVec, Fin.val_succ, pow_succ', add_mulVec, one_mulVec]
      simp only [Fin.val_castSucc, smul_mulVec]
      abel
  · induction k using Fin.induction with
    | zero => rw [hJ.zero, h0]; simp
    | succ k ih =>
      rw [hJ.succ, ih, hA, hQ]
      simp only [Fin.val_castSucc, Fin.val_succ]
      generalize (k : ℕ) = r
      set E := 1 + h • F with hE
      have hstep : E * P * Eᵀ + h • (-(F * P + P * Fᵀ)) = P + h ^ 2 • (F * P * Fᵀ) := by
        rw [hE, transpose_add, transpose_one, transpose_smul]
        simp only [Matrix.add_mul, Matrix.mul_add, Matrix.one_mul, Matrix.mul_one, Matrix.smul_mul, Matrix.mul_smul, smul_smul, smul_neg,
          smul_add, ← pow_two]
        abel
      rw [Finset.sum_range_succ', pow_zero, transpose_one, Matrix.one_mul, Matrix.mul_one, smul_add]
      have hsum : E * (∑ j ∈ Finset.range r, E ^ j * (F * P * Fᵀ) * (E ^ j)ᵀ) * Eᵀ =
          ∑ j ∈ Finset.range r, E ^ (j + 1) * (F * P * Fᵀ) * (E ^ (j + 1))ᵀ := by
        rw [Matrix.mul_sum, Matrix.sum_mul]
        refine Finset.sum_congr rfl fun j _ => ?_
        rw [pow_succ', transpose_mul]; noncomm_ring
      have hmid : E * (E ^ r * (P - P0) * (E ^ r)ᵀ) * Eᵀ = E ^ (r + 1) * (P - P0) * (E ^ (r + 1))ᵀ := by
        rw [pow_succ', transpose_mul]; noncomm_ring
      rw [Matrix.mul_add, Matrix.mul_sub, Matrix.add_mul, Matrix.sub_mul, hmid, Matrix.mul_smul, Matrix.smul_mul, hsum,
        ← sub_eq_zero]
      have := sub_eq_zero.2 hstep
      rw [← this]
      abel
  · induction i using Fin.induction with
    | zero =>
      intro j hj
      have : j = 0 := Fin.le_zero_iff.1 hj
      subst this; simp
    | succ k ih =>
      intro j hj
      rcases hj.lt_or_eq with hlt | rfl
      · have hle : j ≤ k.castSucc := Fin.le_castSucc_iff.2 hlt
        rw [hJ.cross k j hle, hA, ih j hle, ← Matrix.mul_assoc, ← pow_succ']
        congr 2
        have : (j : ℕ) ≤ k := by simpa using Fin.le_def.1 hle
        simp only [Fin.val_castSucc, Fin.val_succ]; omega
      · simp

/-- Moments of the chain of exact transitions from a given start. -/
theorem exact_chain {s : SSM n d} {A : ℝ → Mat d d} {F P P0 : Mat d d} {m : Vec d} (hS : SolvesSDE F A) {ts : Fin (n + 1) → ℝ}
    (hA : ∀ k : Fin n, s.A k = A (ts k.succ - ts k.castSucc))
    (hb : ∀ k : Fin n, s.b k = m - A (ts k.succ - ts k.castSucc) *ᵥ m)
    (hQ : ∀ k : Fin n, s.Q k = P - A (ts k.succ - ts k.castSucc) * P * (A (ts k.succ - ts k.castSucc))ᵀ)
    (h0 : s.initialCovariance = P0) :
    (∀ k : Fin (n + 1), s.mus k = m + A (ts k - ts 0) *ᵥ (s.mu0 - m)) ∧
    (∀ k : Fin (n + 1), blk s.Kd k k = P - A (ts k - ts 0) * (P - P0) * (A (ts k - ts 0))ᵀ) ∧
    ∀ i j : Fin (n + 1), j ≤ i → blk s.Kd i j = A (ts i - ts j) * blk s.Kd j j := by
  have hJ := s.Kd_isJointCov
  have hadd : ∀ (k : Fin n) (c : ℝ), A (ts k.succ - c) = A (ts k.succ - ts k.castSucc) * A (ts k.castSucc - c) := fun k c => by
    rw [← hS.add]; congr 1; ring
  refine ⟨fun k => ?_, fun k => ?_, fun i => ?_⟩
  · induction k using Fin.induction with
    | zero => rw [s.mus_isMeans.zero, sub_self, hS.zero]; simp
    | succ k ih => rw [s.mus_isMeans.succ, ih, hA, hb, mulVec_add, mulVec_mulVec, ← hadd]; abel
  · induction k using Fin.induction with
    | zero => rw [hJ.zero, h0, sub_self, hS.zero]; simp
    | succ k ih => rw [hJ.succ, ih, hA, hQ, hadd k (ts 0), transpose_mul]; noncomm_ring
  · induction i using Fin.induction with
    | zero =>
      intro j hj
      have : j = 0 := Fin.le_zero_iff.1 hj
      subst this; simp [hS.zero]
    | succ k ih =>
      intro j hj
      rcases hj.lt_or_eq with hlt | rfl
      · have hle : j ≤ k.castSucc := Fin.le_castSucc_iff.2 hlt
        rw [hJ.cross k j hle, hA, ih j hle, ← Matrix.mul_assoc, ← hadd]
      · simp [hS.zero]

/-- The chains of Euler steps, read off at the given times, converge in law to the chain of exact transitions. -/
theorem chain_limit (hd : 0 < d) {F P P0 : Mat d d} {A : ℝ → Mat d d} {m x0 : Vec d} (hS : SolvesSDE F A) {ts : Fin (n + 1) → ℝ}
    (ht : ts 0 = 0) {M : ℕ → ℕ} {h : ℕ → ℝ} {idx : ∀ N, Fin (n + 1) → Fin (M N + 1)} (hR : Refining ts M h idx)
    {f : ∀ N, SSM (M N) d} (hfA : ∀ N k, (f N).A k = 1 + h N • F) (hfb : ∀ N k, (f N).b k = -(h N • F *ᵥ m))
    (hfQ : ∀ N k, (f N).Q k = h N • (-(F * P + P * Fᵀ))) (hf0 : ∀ N, (f N).initialCovariance = P0) (hfm : ∀ N, (f N).mu0 = x0)
    {s : SSM n d} (hA : ∀ k : Fin n, s.A k = A (ts k.succ - ts k.castSucc))
    (hb : ∀ k : Fin n, s.b k = m - A (ts k.succ - ts k.castSucc) *ᵥ m)
    (hQ : ∀ k : Fin n, s.Q k = P - A (ts k.succ - ts k.castSucc) * P * (A (ts k.succ - ts k.castSucc))ᵀ)
    (h0 : s.initialCovariance = P0) (hm : s.mu0 = x0) :
    ConvergesInLaw (fun N => (f N).law.map fun x => fun i : Ix n d => x (idx N i.1, i.2)) s.law := by
  intro g
  have e : ∀ N, (f N).law.map (fun x => fun i : Ix n d => x (idx N i.1, i.2)) =
      gaussLaw (fun i : Ix n d => (f N).mus (idx N i.1) i.2)
        (Matrix.of fun i j : Ix n d => blk (f N).Kd (idx N i.1) (idx N j.1) i.2 j.2) := fun N => by
    rw [SSM.law_eq_gauss]
    exact gaussLaw_comp SSM.Kd_posSemidef _ (fun i : Ix n d => (idx N i.1, i.2))
  simp only [e]
  rw [SSM.law_eq_gauss]
  obtain ⟨c1, c2, c3⟩ := exact_chain hS hA hb hQ h0
  simp only [ht, sub_zero, hm] at c1 c2
  have hf := fun N => euler_chain (P := P) (hfA N) (hfb N) (hfQ N) (hf0 N)
  have hpow : ∀ i, Tendsto (fun N => (1 + h N • F) ^ (idx N i : ℕ)) atTop (𝓝 (A (ts i))) := fun i => by
    rw [hS.eq_exp]; exact tendsto_euler_pow hd F hR.pos hR.step (hR.times i)
  have hmus : ∀ i, Tendsto (fun N => (f N).mus (idx N i)) atTop (𝓝 (s.mus i)) := fun i => by
    rw [c1]
    simp only [fun N => (hf N).1, hfm]
    have hc : Continuous fun X : Mat d d => m + X *ᵥ (x0 - m) :=
      continuous_const.add (Continuous.matrix_mulVec continuous_id continuous_const)
    exact (hc.tendsto _).comp (hpow i)
  have hdiag : ∀ i, Tendsto (fun N => blk (f N).Kd (idx N i) (idx N i)) atTop (𝓝 (blk s.Kd i i)) := fun i => by
    rw [c2]
    simp only [fun N => (hf N).2.1]
    have hc : Continuous fun X : Mat d d => P - X * (P - P0) * Xᵀ :=
      continuous_const.sub ((continuous_id.matrix_mul continuous_const).matrix_mul continuous_id.matrix_transpose)
    have := ((hc.tendsto _).comp (hpow i)).add (tendsto_euler_error hd F (F * P * Fᵀ) hR.pos hR.step (hR.times i))
    rw [add_zero] at this
    exact this
  have hcross : ∀ i j, j ≤ i → Tendsto (fun N => blk (f N).Kd (idx N i) (idx N j)) atTop (𝓝 (blk s.Kd i j)) := fun i j hij => by
    rw [c3 i j hij]
    simp only [fun N => (hf N).2.2 _ _ (hR.mono N hij)]
    have hgap : Tendsto (fun N => h N * (((idx N i : ℕ) - (idx N j : ℕ) : ℕ) : ℝ)) atTop (𝓝 (ts i - ts j)) := by
      refine ((hR.times i).sub (hR.times j)).congr fun N => ?_
      rw [Nat.cast_sub (Fin.le_def.1 (hR.mono N hij))]; ring
    have h1 : Tendsto (fun N => (1 + h N • F) ^ ((idx N i : ℕ) - (idx N j : ℕ))) atTop (𝓝 (A (ts i - ts j))) := by
      rw [hS.eq_exp]; exact tendsto_euler_pow hd F hR.pos hR.step hgap
    have hc : Continuous fun X : Mat d d × Mat d d => X.1 * X.2 := continuous_fst.matrix_mul continuous_snd
    exact (hc.tendsto _).comp (h1.prodMk_nhds (hdiag j))
  refine tendsto_gaussLaw (fun N => ?_) SSM.Kd_posSemidef ?_ ?_ g
  · exact SSM.Kd_posSemidef.submatrix (fun i : Ix n d => (idx N i.1, i.2))
  · exact tendsto_pi_nhds.2 fun i => (tendsto_pi_nhds.1 (hmus i.1)) i.2
  · refine tendsto_pi_nhds.2 fun i => tendsto_pi_nhds.2 fun j => ?_
    rcases le_total j.1 i.1 with hij | hij
    · exact tendsto_pi_nhds.1 (tendsto_pi_nhds.1 (hcross _ _ hij) i.2) j.2
    · have hT := tendsto_pi_nhds.1 (tendsto_pi_nhds.1 (hcross _ _ hij) j.2) i.2
      have es : ∀ {r : ℕ} (z : SSM r d) (a b : Fin (r + 1)) (p q : Fin d), blk z.Kd a b p q = blk z.Kd b a q p := fun z a b p q =>
        congrFun (congrFun (SSM.Kd_symm (s := z)) (b, q)) (a, p)
      have e1 : s.Kd i j = blk s.Kd j.1 i.1 j.2 i.2 := es s i.1 j.1 i.2 j.2
      rw [e1]
      refine hT.congr fun N => ?_
      exact es (f N) _ _ _ _

end chains

end MF
