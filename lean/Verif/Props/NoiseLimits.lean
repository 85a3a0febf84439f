import Verif.Lemmas.HyperGrad
import Verif.Lemmas.PredictSmooth

/-! # C61: small and large observation noise -/

namespace MF
open Matrix Spec Filter Topology
variable {n d o p : ℕ}

theorem noise_smul (L : Mat o o) (s : ℝ) : (blkDiag fun _ : Fin (n + 1) => (s • L) * (s • L)ᵀ) = s ^ 2 • blkDiag fun _ => L * Lᵀ := by
  ext i j
  simp only [blkDiag, ofBlk, Matrix.of_apply, Matrix.smul_apply, transpose_smul, Matrix.smul_mul, Matrix.mul_smul, smul_eq_mul]
  split_ifs
  · show s * (s * (L * Lᵀ) i.2 j.2) = _
    ring
  · simp

theorem valid_smul {ts : Fin (n + 1) → ℝ} {y : Fin (n + 1) → Vec o} {K : Stationary o d} {m : ℝ → Vec o} {L : Mat o o} {k}
    (h : (⟨ts, y, K, m, L⟩ : GPR n o d).Valid k) {s : ℝ} (hs : 0 < s) : (⟨ts, y, K, m, s • L⟩ : GPR n o d).Valid k where
  builds := h.builds
  noise := h.noise
  jitter := h.jitter
  times := h.times
  factor := ⟨fun i j hij => (congrArg (s * ·) (h.factor.1 i j hij)).trans (mul_zero s), fun i => mul_ne_zero hs.ne' (h.factor.2 i)⟩
  two := h.two

theorem tendsto_post {α : Type*} {l : Filter α} {k : ℝ → ℝ → Mat o o} {ts : Fin (n + 1) → ℝ}
    {R : α → Matrix (Fin (n + 1) × Fin o) (Fin (n + 1) × Fin o) ℝ} {I : Matrix (Fin (n + 1) × Fin o) (Fin (n + 1) × Fin o) ℝ}
    (h : Tendsto (fun a => (gpGram k ts + R a)⁻¹) l (𝓝 I)) (m : ℝ → Vec o) (y : Fin (n + 1) × Fin o → ℝ) (t : ℝ) :
    Tendsto (fun a => (gpPostMean m k ts (R a) y t, gpPostCov k ts (R a) t t)) l
      (𝓝 (m t + crossCov k ts t *ᵥ (I *ᵥ (y - meanVec m ts)), k t t - crossCov k ts t * I * (crossCov k ts t)ᵀ)) := by
  refine Tendsto.prodMk_nhds ?_ ?_
  · exact tendsto_const_nhds.add (Tendsto.matrix_mulVec' tendsto_const_nhds (Tendsto.matrix_mulVec' h tendsto_const_nhds))
  · exact tendsto_const_nhds.sub (Tendsto.matrix_mul' (Tendsto.matrix_mul' tendsto_const_nhds h) tendsto_const_nhds)

/-- The predictions at every noise level `s L`. -/
theorem predict_noise {ts : Fin (n + 1) → ℝ} {y : Fin (n + 1) → Vec o} {K : Stationary o d} {m : ℝ → Vec o} {L : Mat o o} {k}
    (h : (⟨ts, y, K, m, L⟩ : GPR n o d).Valid k) (ht0 : -10000000000 < ts 0) (ht1 : ts (Fin.last n) ≤ 10000000000)
    {new : Fin p → ℝ} (h0 : ∀ j, ts 0 ≤ new j) (h1 : ∀ j, new j ≤ ts (Fin.last n)) {s : ℝ} (hs : 0 < s) :
    ∃ c, (⟨ts, y, K, m, s • L⟩ : GPR n o d).posterior = .ok c ∧ c.predictF new = .ok fun j =>
      (gpPostMean m k ts (s ^ 2 • blkDiag fun _ => L * Lᵀ) (stk y) (new j),
        gpPostCov k ts (s ^ 2 • blkDiag fun _ => L * Lᵀ) (new j) (new j)) := by
  obtain ⟨c, hc, -, hp⟩ := C32_posterior (valid_smul h hs) ht0 ht1
  obtain ⟨f, hf, he⟩ := hp new h0 h1
  refine ⟨c, hc, ?_⟩
  rw [hf]
  congr 1
  funext j
  obtain ⟨a, b⟩ := he j
  unfold GPR.noiseCov at a b
  dsimp only at a b
  rw [noise_smul] at a b
  exact Prod.ext a b

/-- The covariance of the data is positive definite when the kernel has process noise, the times are distinct and the emission matrices
have independent rows. -/
theorem gpGram_posDef {K : Stationary o d} {k} (hK : Builds K k) (hN : NoiseTag K true) (hn : 0 < n) {ts : Fin (n + 1) → ℝ}
    (hts : StrictMono ts) (hj : K.jitter = 0) (hH : ∀ i, LinearIndependent ℝ (K.emission (ts i)).row) : (gpGram k ts).PosDef := by
  obtain ⟨s, hs, hnd⟩ := kernel_ssm_nondegenerate hK hN hn hts
  have hC := SSM.Kd_posDef hnd
  rw [(kernel_moments hK hj hs).2] at hC
  rw [← outMat_conj (Builds.good hK).2.2 ts]
  rw [← conjTranspose_eq_transpose_of_trivial]
  refine hC.mul_mul_conjTranspose_same ?_
  have hinj : ∀ i, Function.Injective ((K.emission (ts i)).vecMul) := fun i => Matrix.vecMul_injective_iff.2 (hH i)
  intro x x' hxx
  have hv : ∀ (x : Fin (n + 1) × Fin o → ℝ) (i : Fin (n + 1)) (c : Fin d),
      (x ᵥ* outMat K ts) (i, c) = ((fun a => x (i, a)) ᵥ* K.emission (ts i)) c := fun x i c => by
    simp only [vecMul, dotProduct, outMat, Matrix.of_apply, Fintype.sum_prod_type, mul_ite, mul_zero]
    rw [Finset.sum_eq_single i]
    · simp
    · intro b _ hb; simp [hb]
    · simp
  funext ⟨i, a⟩
  have : (fun a => x (i, a)) = fun a => x' (i, a) := hinj i (funext fun c => by
    have := congrFun hxx (i, c)
    dsimp only at this ⊢
    rw [hv, hv] at this
    exact this)
  exact congrFun this a

/-- C61, interpolation: as the observation noise tends to zero, `predict_f` tends to the noise-free conditional of the Gaussian process at
every query, whose mean at a data time is the observation and whose covariance there is zero. -/
theorem C61_interpolation {ts : Fin (n + 1) → ℝ} {y : Fin (n + 1) → Vec o} {K : Stationary o d} {m : ℝ → Vec o} {L : Mat o o} {k}
    (h : (⟨ts, y, K, m, L⟩ : GPR n o d).Valid k) (hH : ∀ i, LinearIndependent ℝ (K.emission (ts i)).row)
    (ht0 : -10000000000 < ts 0) (ht1 : ts (Fin.last n) ≤ 10000000000)
    {new : Fin p → ℝ} (h0 : ∀ j, ts 0 ≤ new j) (h1 : ∀ j, new j ≤ ts (Fin.last n)) :
    (∃ f : ℝ → Fin p → Vec o × Mat o o,
      (∀ s > 0, ∃ c, (⟨ts, y, K, m, s • L⟩ : GPR n o d).posterior = .ok c ∧ c.predictF new = .ok (f s)) ∧
      ∀ j, Tendsto (fun s => f s j) (𝓝[>] 0) (𝓝 (gpPostMean m k ts 0 (stk y) (new j), gpPostCov k ts 0 (new j) (new j)))) ∧
    ∀ i, gpPostMean m k ts 0 (stk y) (ts i) = y i ∧ gpPostCov k ts 0 (ts i) (ts i) = 0 := by
  have hG := gpGram_posDef h.builds h.noise h.two h.times h.jitter hH
  have hsym : (gpGram k ts)ᵀ = gpGram k ts := isSymm_of_psd hG.posSemidef
  have hu : IsUnit (gpGram k ts).det := hG.det_pos.ne'.isUnit
  refine ⟨⟨fun s j => (gpPostMean m k ts (s ^ 2 • blkDiag fun _ => L * Lᵀ) (stk y) (new j),
        gpPostCov k ts (s ^ 2 • blkDiag fun _ => L * Lᵀ) (new j) (new j)), fun s hs => predict_noise h ht0 ht1 h0 h1 hs, fun j => ?_⟩,
    fun i => ⟨?_, ?_⟩⟩
  · have hc : Tendsto (fun s : ℝ => gpGram k ts + s ^ 2 • blkDiag fun _ : Fin (n + 1) => L * Lᵀ) (𝓝[>] 0) (𝓝 (gpGram k ts + 0)) := by
      have : Tendsto (fun s : ℝ => gpGram k ts + s ^ 2 • blkDiag fun _ : Fin (n + 1) => L * Lᵀ) (𝓝 0)
          (𝓝 (gpGram k ts + (0 : ℝ) ^ 2 • blkDiag fun _ : Fin (n + 1) => L * Lᵀ)) :=
        (continuous_const.add ((continuous_pow 2).smul continuous_const)).tendsto 0
      rw [zero_pow two_ne_zero, zero_smul] at this
      exact this.mono_left nhdsWithin_le_nhds
    exact tendsto_post (tendsto_matrix_inv hc (by rw [add_zero]; exact hG.det_pos.ne')) m (stk y) (new j)
  · funext a
    have e : (crossCov k ts (ts i) *ᵥ ((gpGram k ts)⁻¹ *ᵥ (stk y - meanVec m ts))) a =
        (gpGram k ts *ᵥ ((gpGram k ts)⁻¹ *ᵥ (stk y - meanVec m ts))) (i, a) := rfl
    unfold gpPostMean
    rw [add_zero, Pi.add_apply, e, mulVec_mulVec, mul_nonsing_inv _ hu, one_mulVec]
    show m (ts i) a + (y i a - m (ts i) a) = y i a
    ring
  · ext a b
    have e : (crossCov k ts (ts i) * (gpGram k ts)⁻¹ * (crossCov k ts (ts i))ᵀ) a b =
        (gpGram k ts * (gpGram k ts)⁻¹ * (gpGram k ts)ᵀ) (i, a) (i, b) := rfl
    unfold gpPostCov
    rw [add_zero, Matrix.sub_apply, e, hsym, mul_nonsing_inv _ hu, Matrix.one_mul]
    exact sub_self _

/-- C61, uninformative data: as the observation noise tends to infinity, `predict_f` tends to the prior. -/
theorem C61_uninformative {ts : Fin (n + 1) → ℝ} {y : Fin (n + 1) → Vec o} {K : Stationary o d} {m : ℝ → Vec o} {L : Mat o o} {k}
    (h : (⟨ts, y, K, m, L⟩ : GPR n o d).Valid k) (ht0 : -10000000000 < ts 0) (ht1 : ts (Fin.last n) ≤ 10000000000)
    {new : Fin p → ℝ} (h0 : ∀ j, ts 0 ≤ new j) (h1 : ∀ j, new j ≤ ts (Fin.last n)) :
    ∃ f : ℝ → Fin p → Vec o × Mat o o,
      (∀ s > 0, ∃ c, (⟨ts, y, K, m, s • L⟩ : GPR n o d).posterior = .ok c ∧ c.predictF new = .ok (f s)) ∧
      ∀ j, Tendsto (fun s => f s j) atTop (𝓝 (m (new j), k (new j) (new j))) := by
  refine ⟨fun s j => (gpPostMean m k ts (s ^ 2 • blkDiag fun _ => L * Lᵀ) (stk y) (new j),
        gpPostCov k ts (s ^ 2 • blkDiag fun _ => L * Lᵀ) (new j) (new j)), fun s hs => predict_noise h ht0 ht1 h0 h1 hs, fun j => ?_⟩
  set R : Matrix (Fin (n + 1) × Fin o) (Fin (n + 1) × Fin o) ℝ := blkDiag fun _ => L * Lᵀ with hR
  have hRp : R.PosDef := posDef_blkDiag fun _ => h.factor.posDef
  have hz : Tendsto (fun s : ℝ => (s ^ 2)⁻¹) atTop (𝓝 0) := tendsto_inv_atTop_zero.comp (tendsto_pow_atTop two_ne_zero)
  have hc : Tendsto (fun s : ℝ => (s ^ 2)⁻¹ • gpGram k ts + R) atTop (𝓝 R) := by
    have := (hz.smul_const (gpGram k ts)).add_const R
    rw [zero_smul, zero_add] at this
    exact this
  have hi := hz.smul (tendsto_matrix_inv hc hRp.det_pos.ne')
  rw [zero_smul] at hi
  have hI : Tendsto (fun s : ℝ => (gpGram k ts + s ^ 2 • R)⁻¹) atTop (𝓝 0) := by
    refine hi.congr' ((eventually_gt_atTop 0).mono fun s hs => ?_)
    have hs2 : s ^ 2 ≠ 0 := (pow_pos hs 2).ne'
    have e : gpGram k ts + s ^ 2 • R = s ^ 2 • ((s ^ 2)⁻¹ • gpGram k ts + R) := by
      rw [smul_add, smul_smul, mul_inv_cancel₀ hs2, one_smul]
    have hpd : ((s ^ 2)⁻¹ • gpGram k ts + R).PosDef :=
      PosDef.posSemidef_add ((gpGram_psd h.builds ts).smul (by positivity)) hRp
    dsimp only
    rw [e]
    symm
    refine Matrix.inv_eq_right_inv ?_
    rw [Matrix.smul_mul, Matrix.mul_smul, smul_smul, mul_inv_cancel₀ hs2, one_smul, mul_nonsing_inv _ hpd.det_pos.ne'.isUnit]
  have := tendsto_post hI m (stk y) (new j)
  simpa only [zero_mulVec, mulVec_zero, add_zero, Matrix.mul_zero, Matrix.zero_mul, sub_zero] using this

/-- Non-vacuity: the emission matrices of a Matérn 3/2 kernel with one output have independent rows. -/
example : ∃ K : Stationary 1 2, matern32 1 1 1 0 = .ok K ∧ ∀ t, LinearIndependent ℝ (K.emission t).row := by
  refine ⟨_, if_neg (by norm_num) |>.trans (if_neg (by simp)), fun t => ?_⟩
  rw [linearIndependent_unique_iff]
  intro h
  have := congrFun h 0
  simp [Stationary.base, sdeEmission] at this

end MF
