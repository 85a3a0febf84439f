import Verif.Lemmas.Jitter
import Verif.Props.PredictSmooth

/-! # C59: the jitter -/

namespace MF
open Matrix Spec MeasureTheory ProbabilityTheory Filter Topology
variable {n d o p : ℕ}

/-! ### the constructors -/

theorem kernelInit_of {j : ℝ} {ps : List ℝ} {K K' : Stationary o d} (h : kernelInit j ps K = .ok K') {ε : ℝ} (hε : 0 ≤ ε)
    (L : Stationary o d) : kernelInit ε ps L = .ok L := by
  obtain ⟨-, hp, -⟩ := kernelInit_ok h
  unfold kernelInit
  rw [if_neg (not_not.2 hε), if_neg]
  rintro ⟨q, hq, hq'⟩
  exact absurd (hp q hq) (not_lt.2 hq')

theorem combineInit_of {o' : ℕ} {ks : List (Σ d, Stationary o d)} {j : ℝ} {K K' : Stationary o' d} (h : combineInit ks j K = .ok K')
    {ε : ℝ} (hε : 0 ≤ ε) (L : Stationary o' d) : combineInit ks ε L = .ok L := by
  obtain ⟨hp, -, -⟩ := combineInit_ok h
  unfold combineInit
  rw [if_neg hp, if_neg (not_not.2 hε)]

/-- C59: every constructor call that succeeds with some jitter succeeds with every jitter `≥ 0`, and the kernels it returns differ in
their jitter only. -/
theorem C59_constructors {j : ℝ} :
    (∀ {l v K}, matern12 o l v j = .ok K → ∃ F, JitterFamily F (iso (matern12Cov l v)) ∧ ∀ ε ≥ 0, matern12 o l v ε = .ok (F ε)) ∧
    (∀ {l v K}, ornsteinUhlenbeck o l v j = .ok K → ∃ F, JitterFamily F (iso (ouCov l v)) ∧
      ∀ ε ≥ 0, ornsteinUhlenbeck o l v ε = .ok (F ε)) ∧
    (∀ {l v K}, matern32 o l v j = .ok K → ∃ F, JitterFamily F (iso (matern32Cov l v)) ∧ ∀ ε ≥ 0, matern32 o l v ε = .ok (F ε)) ∧
    (∀ {l v K}, matern52 o l v j = .ok K → ∃ F, JitterFamily F (iso (matern52Cov l v)) ∧ ∀ ε ≥ 0, matern52 o l v ε = .ok (F ε)) ∧
    (∀ {v q K}, harmonicOscillator o v q j = .ok K → ∃ F, JitterFamily F (iso (cosineCov v q)) ∧
      ∀ ε ≥ 0, harmonicOscillator o v q ε = .ok (F ε)) ∧
    (∀ {v K}, constant o v j = .ok K → ∃ F, JitterFamily F (iso fun _ => v) ∧ ∀ ε ≥ 0, constant o v ε = .ok (F ε)) ∧
    (∀ {e : ℕ} {N R : Mat (e + 1) (e + 1)} {K}, leg N R j = .ok K → ∃ F,
      JitterFamily F (iso fun r => NormedSpace.exp (r • ((1 / 2 : ℝ) • (-(N * Nᵀ + R - Rᵀ)))) 0 0) ∧ ∀ ε ≥ 0, leg N R ε = .ok (F ε)) ∧
    (∀ {ks : List (Σ d, Stationary o d)} {c : Fin ks.length → ℝ → ℝ → Mat o o} {K}, (∀ a, Builds (ks.get a).2 (c a)) →
      sumKernel ks j = .ok K → ∃ F, JitterFamily F (fun t t' => ∑ a, c a t t') ∧ ∀ ε ≥ 0, sumKernel ks ε = .ok (F ε)) ∧
    (∀ {ks : List (Σ d, Stationary 1 d)} {c : Fin ks.length → ℝ → ℝ → Mat 1 1} {K}, (∀ a, Builds (ks.get a).2 (c a)) →
      productKernel ks j = .ok K → ∃ F, JitterFamily F (fun t t' => Matrix.of fun _ _ => ∏ a, c a t t' 0 0) ∧
        ∀ ε ≥ 0, productKernel ks ε = .ok (F ε)) ∧
    (∀ {ks : List (Σ d, Stationary o d)} {c : Fin ks.length → ℝ → ℝ → Mat o o} {K}, (∀ a, Builds (ks.get a).2 (c a)) →
      independentMultiOutput ks j = .ok K → ∃ F, JitterFamily F (independent c) ∧ ∀ ε ≥ 0, independentMultiOutput ks ε = .ok (F ε)) ∧
    (∀ {o' : ℕ} {ks : List (Σ d, Stationary o d)} {c : Fin ks.length → ℝ → ℝ → Mat o o} {W : ℝ → Mat o' (ks.length * o)}
      {B : Mat (ks.length * o) (ks.length * o)} {K}, (∀ a, Builds (ks.get a).2 (c a)) → factorAnalysis ks W B j = .ok K →
      ∃ F, JitterFamily F (fun t t' => (W t * B) * independent c t t' * (W t' * B)ᵀ) ∧
        ∀ ε ≥ 0, factorAnalysis ks W B ε = .ok (F ε)) := by
  refine ⟨fun h => ?_, fun h => ?_, fun h => ?_, fun h => ?_, fun h => ?_, fun h => ?_, fun {e N R K} h => ?_, fun hc h => ?_, fun hc h => ?_,
    fun hc h => ?_, fun {o' ks c W B K} hc h => ?_⟩
  · have hk : ∀ ε ≥ 0, matern12 o _ _ ε = .ok _ := fun ε hε => kernelInit_of h hε _
    exact ⟨_, ⟨fun ε hε => .leaf (.matern12 (hk ε hε)), fun _ _ => rfl, fun _ _ => rfl, fun _ _ => rfl, fun _ _ => rfl⟩, hk⟩
  · have hk : ∀ ε ≥ 0, ornsteinUhlenbeck o _ _ ε = .ok _ := fun ε hε => kernelInit_of h hε _
    exact ⟨_, ⟨fun ε hε => .leaf (.ou (hk ε hε)), fun _ _ => rfl, fun _ _ => rfl, fun _ _ => rfl, fun _ _ => rfl⟩, hk⟩
  · have hk : ∀ ε ≥ 0, matern32 o _ _ ε = .ok _ := fun ε hε => kernelInit_of h hε _
    exact ⟨_, ⟨fun ε hε => .leaf (.matern32 (hk ε hε)), fun _ _ => rfl, fun _ _ => rfl, fun _ _ => rfl, fun _ _ => rfl⟩, hk⟩
  · have hk : ∀ ε ≥ 0, matern52 o _ _ ε = .ok _ := fun ε hε => kernelInit_of h hε _
    exact ⟨_, ⟨fun ε hε => .leaf (.matern52 (hk ε hε)), fun _ _ => rfl, fun _ _ => rfl, fun _ _ => rfl, fun _ _ => rfl⟩, hk⟩
  · have hk : ∀ ε ≥ 0, harmonicOscillator o _ _ ε = .ok _ := fun ε hε => kernelInit_of h hε _
    exact ⟨_, ⟨fun ε hε => .leaf (.periodic (hk ε hε)), fun _ _ => rfl, fun _ _ => rfl, fun _ _ => rfl, fun _ _ => rfl⟩, hk⟩
  · have hk : ∀ ε ≥ 0, constant o _ ε = .ok _ := fun ε hε => kernelInit_of h hε _
    exact ⟨_, ⟨fun ε hε => .leaf (.constant (hk ε hε)), fun _ _ => rfl, fun _ _ => rfl, fun _ _ => rfl, fun _ _ => rfl⟩, hk⟩
  · have hk : ∀ ε ≥ 0, leg N R ε = .ok
        { Stationary.base (fun _ δ => NormedSpace.exp (δ • legFeedback N R)) (legFeedback N R) 1 ε 0 (fun _ => sdeEmission (e + 1) (e + 1)) with
          processCov := fun _ δ => 1 - NormedSpace.exp (δ • legFeedback N R) * (NormedSpace.exp (δ • legFeedback N R))ᵀ } :=
      fun ε hε => kernelInit_of h hε _
    exact ⟨_, ⟨fun ε hε => .leaf (.leg (hk ε hε)), fun _ _ => rfl, fun _ _ => rfl, fun _ _ => rfl, fun _ _ => rfl⟩, hk⟩
  · have hk : ∀ ε ≥ 0, sumKernel _ ε = .ok _ := fun ε hε => combineInit_of h hε _
    exact ⟨_, ⟨fun ε hε => .sum hc (hk ε hε), fun _ _ => rfl, fun _ _ => rfl, fun _ _ => rfl, fun _ _ => rfl⟩, hk⟩
  · have hk : ∀ ε ≥ 0, productKernel _ ε = .ok _ := fun ε hε => combineInit_of h hε _
    exact ⟨_, ⟨fun ε hε => .prod hc (hk ε hε), fun _ _ => rfl, fun _ _ => rfl, fun _ _ => rfl, fun _ _ => rfl⟩, hk⟩
  · have hk : ∀ ε ≥ 0, independentMultiOutput _ ε = .ok _ := fun ε hε => combineInit_of h hε _
    exact ⟨_, ⟨fun ε hε => .multi hc (hk ε hε), fun _ _ => rfl, fun _ _ => rfl, fun _ _ => rfl, fun _ _ => rfl⟩, hk⟩
  · have hk : ∀ ε ≥ 0, factorAnalysis ks W B ε = .ok (concatKernel ks ε fun t =>
        composedEmission (N := 1) (fun _ => W t * B) (fun _ => padConcatRows o (fun _ k => k.emission t) ks) 0) :=
      fun ε hε => combineInit_of h hε _
    exact ⟨_, ⟨fun ε hε => .factor hc (hk ε hε), fun _ _ => rfl, fun _ _ => rfl, fun _ _ => rfl, fun _ _ => rfl⟩, hk⟩

/-! ### the prior -/

/-- The unit jitter covariance of a family: the same for every jitter. -/
noncomputable def famUnit (K : ℝ → Stationary o d) (ts : Fin (n + 1) → ℝ) : Matrix (Ix n d) (Ix n d) ℝ :=
  unitCov fun k : Fin n => (K 0).stateTransitions 0 (ts k.succ - ts k.castSucc)

theorem famUnit_psd (K : ℝ → Stationary o d) (ts : Fin (n + 1) → ℝ) : (famUnit K ts).PosSemidef := SSM.Kd_posSemidef

theorem outMat_family {K : ℝ → Stationary o d} {k} (hK : JitterFamily K k) {ε : ℝ} (hε : 0 ≤ ε) {T : Type} [DecidableEq T]
    (ts : T → ℝ) : outMat (K ε) ts = outMat (K 0) ts := by
  unfold outMat
  rw [hK.emission ε hε]

theorem family_moments {K : ℝ → Stationary o d} {k} (hK : JitterFamily K k) {ε : ℝ} (hε : 0 ≤ ε) {ts : Fin (n + 1) → ℝ}
    (hts : Monotone ts) {s : SSM n d} (hs : (K ε).stateSpaceModel ts = .ok s) :
    stk s.mus = 0 ∧ s.Kd = covMat ((K 0).stateTransitions 0) (K 0).Pinf ts + ε • famUnit K ts := by
  have h := jitter_moments (hK.builds ε hε) hts hs
  rw [hK.trans ε hε, hK.pinf ε hε, hK.jitter ε hε] at h
  exact h

theorem outMat_conj' {K : Stationary o d} {k} (hK : Builds K k) (ts : Fin (n + 1) → ℝ) :
    outMat K ts * covMat (K.stateTransitions 0) K.Pinf ts * (outMat K ts)ᵀ = gpGram k ts :=
  outMat_conj (Builds.good hK).2.2 ts

/-- C59, prior: with any positive jitter the state space model of a kernel expression exists at any non-decreasing time points
(repeated times and noise-free kernels included), and its outputs have the law of the kernel's process plus an independent zero mean
Gaussian perturbation of covariance `jitter * J`, `J` depending on the kernel and the times but not on the jitter. -/
theorem C59_prior {K : ℝ → Stationary o d} {k} (hK : JitterFamily K k) (hn : 0 < n) {ts : Fin (n + 1) → ℝ} (hts : Monotone ts) :
    ∃ J : Matrix (Fin (n + 1) × Fin o) (Fin (n + 1) × Fin o) ℝ, J.PosSemidef ∧ ∀ ε > 0,
      ∃ s, (K ε).stateSpaceModel ts = .ok s ∧ s.Nondegenerate ∧
        s.law.map (fun x (i : Fin (n + 1) × Fin o) => ((K ε).emission (ts i.1) *ᵥ fun a => x (i.1, a)) i.2) =
          gaussLaw 0 (gpGram k ts + ε • J) := by
  refine ⟨outMat (K 0) ts * famUnit K ts * (outMat (K 0) ts)ᵀ, posSemidef_conj' (famUnit_psd K ts) _, fun ε hε => ?_⟩
  obtain ⟨s, hs, hnd⟩ := jitter_ssm (hK.builds ε hε.le) (by rw [hK.jitter ε hε.le]; exact hε) hn hts
  refine ⟨s, hs, hnd, ?_⟩
  obtain ⟨h1, h2⟩ := family_moments hK hε.le hts hs
  have e : (fun (x : Ix n d → ℝ) (i : Fin (n + 1) × Fin o) => ((K ε).emission (ts i.1) *ᵥ fun a => x (i.1, a)) i.2) =
      fun x => 0 + outMat (K 0) ts *ᵥ x := by
    funext x
    rw [zero_add, ← outMat_family hK hε.le, outMat_mulVec]
  rw [e, SSM.law_eq_gauss, gaussLaw_map_affine s.Kd_posSemidef, h1, mulVec_zero, zero_add, h2, Matrix.mul_add, Matrix.add_mul,
    outMat_conj' (hK.builds 0 le_rfl), Matrix.mul_smul, Matrix.smul_mul]

/-! ### regression -/

theorem tendsto_add_smul {ι : Type*} (M N : Matrix ι ι ℝ) :
    Tendsto (fun ε : ℝ => M + ε • N) (𝓝[>] 0) (𝓝 M) := by
  have h : Tendsto (fun ε : ℝ => M + ε • N) (𝓝 0) (𝓝 (M + (0 : ℝ) • N)) :=
    (Continuous.add continuous_const (continuous_id.smul continuous_const)).tendsto 0
  rw [zero_smul, add_zero] at h
  exact h.mono_left nhdsWithin_le_nhds

/-- C59, evidence: for every kernel expression (noise-free ones included), with any non-decreasing data times, and every positive jitter,
`log_likelihood()` succeeds, and as the jitter tends to zero it tends to the dense log marginal likelihood. -/
theorem C59_log_likelihood {K : ℝ → Stationary o d} {k} (hK : JitterFamily K k) (hn : 0 < n) {ts : Fin (n + 1) → ℝ}
    (hts : Monotone ts) (y : Fin (n + 1) → Vec o) (m : ℝ → Vec o) {L : Mat o o} (hL : NoiseFactor L) :
    ∃ v : ℝ → ℝ, (∀ ε > 0, (⟨ts, y, K ε, m, L⟩ : GPR n o d).logLikelihood = .ok (v ε)) ∧
      Tendsto v (𝓝[>] 0) (𝓝 (gaussLogDensity (meanVec m ts) (gpGram k ts + blkDiag fun _ => L * Lᵀ) (stk y))) := by
  set J := outMat (K 0) ts * famUnit K ts * (outMat (K 0) ts)ᵀ with hJ
  have hR : (blkDiag fun _ : Fin (n + 1) => L * Lᵀ).PosDef := posDef_blkDiag fun _ => hL.posDef
  refine ⟨fun ε => gaussLogDensity (meanVec m ts) (gpGram k ts + (blkDiag fun _ => L * Lᵀ) + ε • J) (stk y), fun ε hε => ?_, ?_⟩
  · obtain ⟨s, hs, hnd⟩ := jitter_ssm (hK.builds ε hε.le) (by rw [hK.jitter ε hε.le]; exact hε) hn hts
    obtain ⟨r, hr, -, hv⟩ := C19_log_likelihood s (fun i => (K ε).emission (ts i)) (fun i => y i - m (ts i)) L hnd hL hn
      (Builds.good (hK.builds ε hε.le)).1.pos
    have hv := hv s.mus s.Kd ⟨s.mus_isMeans, s.Kd_isJointCov⟩
    obtain ⟨h1, h2⟩ := family_moments hK hε.le hts hs
    rw [h1, h2, mulVec_zero, obsMatrix_id_eq_outMat, outMat_family hK hε.le, Matrix.mul_add, Matrix.add_mul,
      outMat_conj' (hK.builds 0 le_rfl), Matrix.mul_smul, Matrix.smul_mul, ← hJ] at hv
    unfold GPR.logLikelihood GPR.kalman
    dsimp only
    rw [hs]
    simp only [Bind.bind, Except.bind, Pure.pure, Except.pure]
    rw [hr, hv, add_right_comm (gpGram k ts)]
    congr 1
    unfold gaussLogDensity
    rw [sub_zero]
    rfl
  · exact tendsto_gaussLogDensity (tendsto_add_smul _ _) (PosDef.posSemidef_add (gpGram_psd (hK.builds 0 le_rfl) ts) hR) _ _

/-- The textbook posterior moments of the states as a function of the prior covariance. -/
noncomputable def postMom (G : Matrix (Fin (n + 1) × Fin o) (Ix n d) ℝ) (R : Matrix (Fin (n + 1) × Fin o) (Fin (n + 1) × Fin o) ℝ)
    (y : Fin (n + 1) × Fin o → ℝ) (C : Matrix (Ix n d) (Ix n d) ℝ) : (Ix n d → ℝ) × Matrix (Ix n d) (Ix n d) ℝ :=
  ((C * Gᵀ * (G * C * Gᵀ + R)⁻¹) *ᵥ y, C - C * Gᵀ * (G * C * Gᵀ + R)⁻¹ * (G * C))

theorem tendsto_postMom {G : Matrix (Fin (n + 1) × Fin o) (Ix n d) ℝ} {R : Matrix (Fin (n + 1) × Fin o) (Fin (n + 1) × Fin o) ℝ}
    (y : Fin (n + 1) × Fin o → ℝ) {α : Type*} {l : Filter α} {C : α → Matrix (Ix n d) (Ix n d) ℝ} {C₀} (hC : Tendsto C l (𝓝 C₀))
    (hR : (G * C₀ * Gᵀ + R).PosDef) :
    Tendsto (fun a => (postMom G R y (C a)).1) l (𝓝 (postMom G R y C₀).1) ∧
    Tendsto (fun a => (postMom G R y (C a)).2) l (𝓝 (postMom G R y C₀).2) := by
  have h1 : Tendsto (fun a => C a * Gᵀ) l (𝓝 (C₀ * Gᵀ)) := Tendsto.matrix_mul' hC tendsto_const_nhds
  have h2 : Tendsto (fun a => G * C a) l (𝓝 (G * C₀)) := Tendsto.matrix_mul' tendsto_const_nhds hC
  have h3 : Tendsto (fun a => G * C a * Gᵀ + R) l (𝓝 (G * C₀ * Gᵀ + R)) :=
    (Tendsto.matrix_mul' h2 tendsto_const_nhds).add tendsto_const_nhds
  have h4 := Tendsto.matrix_mul' h1 (tendsto_matrix_inv h3 hR.det_pos.ne')
  exact ⟨Tendsto.matrix_mulVec' h4 tendsto_const_nhds, hC.sub (Tendsto.matrix_mul' h4 h2)⟩

theorem gpr_post {K : Stationary o d} {ts : Fin (n + 1) → ℝ} {s : SSM n d} (hs : K.stateSpaceModel ts = .ok s) (hnd : s.Nondegenerate)
    (h0 : stk s.mus = 0) (hn : 0 < n) (y : Fin (n + 1) → Vec o) (m : ℝ → Vec o) {L : Mat o o} (hL : NoiseFactor L) :
    ∃ q : SSM n d, (⟨ts, y, K, m, L⟩ : GPR n o d).posterior = .ok ⟨q, K, ts, m⟩ ∧ q.Nondegenerate ∧
      stk q.mus = (postMom (outMat K ts) (blkDiag fun _ => L * Lᵀ) (stk fun i => y i - m (ts i)) s.Kd).1 ∧
      q.Kd = (postMom (outMat K ts) (blkDiag fun _ => L * Lᵀ) (stk fun i => y i - m (ts i)) s.Kd).2 := by
  obtain ⟨q, hq, hqn, -, hb⟩ := C18_posterior s (fun i => K.emission (ts i)) (fun i => y i - m (ts i)) L hnd hL hn
  have hb := hb s.mus s.Kd q.mus q.Kd ⟨s.mus_isMeans, s.Kd_isJointCov⟩ ⟨q.mus_isMeans, q.Kd_isJointCov⟩
  rw [obsMatrix_id_eq_outMat] at hb
  refine ⟨q, ?_, hqn, ?_, hb.cov⟩
  · unfold GPR.posterior GPR.kalman
    dsimp only
    rw [hs]
    simp only [Bind.bind, Except.bind, Pure.pure, Except.pure]
    rw [hq]
  · rw [hb.mean, h0, zero_add, mulVec_zero, sub_zero]
    rfl

/-- C59, posterior: for every kernel expression, any non-decreasing data times and every positive jitter the regression posterior exists;
as the jitter tends to zero the joint mean and covariance of the outputs at the data times tend to those of the dense posterior. -/
theorem C59_posterior {K : ℝ → Stationary o d} {k} (hK : JitterFamily K k) (hn : 0 < n) {ts : Fin (n + 1) → ℝ}
    (hts : Monotone ts) (y : Fin (n + 1) → Vec o) (m : ℝ → Vec o) {L : Mat o o} (hL : NoiseFactor L) :
    ∃ (M : ℝ → Fin (n + 1) × Fin o → ℝ) (V : ℝ → Matrix (Fin (n + 1) × Fin o) (Fin (n + 1) × Fin o) ℝ),
      (∀ ε > 0, ∃ c, (⟨ts, y, K ε, m, L⟩ : GPR n o d).posterior = .ok c ∧
        c.q.law.map (fun x (i : Fin (n + 1) × Fin o) => ((K ε).emission (ts i.1) *ᵥ fun a => x (i.1, a)) i.2 + m (ts i.1) i.2) =
          gaussLaw (M ε) (V ε)) ∧
      (∀ i, Tendsto (fun ε => M ε i) (𝓝[>] 0)
        (𝓝 (gpPostMean m k ts (blkDiag fun _ => L * Lᵀ) (stk y) (ts i.1) i.2))) ∧
      (∀ i j, Tendsto (fun ε => V ε i j) (𝓝[>] 0)
        (𝓝 (gpPostCov k ts (blkDiag fun _ => L * Lᵀ) (ts i.1) (ts j.1) i.2 j.2))) := by
  set G := outMat (K 0) ts with hG
  set R : Matrix (Fin (n + 1) × Fin o) (Fin (n + 1) × Fin o) ℝ := blkDiag fun _ => L * Lᵀ with hRd
  set C₀ := covMat ((K 0).stateTransitions 0) (K 0).Pinf ts with hC₀
  set z := stk fun i => y i - m (ts i) with hz
  have hR : R.PosDef := posDef_blkDiag fun _ => hL.posDef
  have hgram : G * C₀ * Gᵀ = gpGram k ts := outMat_conj' (hK.builds 0 le_rfl) ts
  have hpd : (G * C₀ * Gᵀ + R).PosDef := by
    rw [hgram]; exact PosDef.posSemidef_add (gpGram_psd (hK.builds 0 le_rfl) ts) hR
  set C : ℝ → Matrix (Ix n d) (Ix n d) ℝ := fun ε => C₀ + ε • famUnit K ts with hCd
  have hC : Tendsto C (𝓝[>] 0) (𝓝 C₀) := tendsto_add_smul _ _
  obtain ⟨t1, t2⟩ := tendsto_postMom z hC hpd
  refine ⟨fun ε => meanVec m ts + G *ᵥ (postMom G R z (C ε)).1, fun ε => G * (postMom G R z (C ε)).2 * Gᵀ, fun ε hε => ?_, ?_, ?_⟩
  · obtain ⟨s, hs, hnd⟩ := jitter_ssm (hK.builds ε hε.le) (by rw [hK.jitter ε hε.le]; exact hε) hn hts
    obtain ⟨h1, h2⟩ := family_moments hK hε.le hts hs
    obtain ⟨q, hq, hqn, hqm, hqc⟩ := gpr_post hs hnd h1 hn y m hL
    refine ⟨_, hq, ?_⟩
    rw [outMat_family hK hε.le, h2] at hqm hqc
    have e : (fun (x : Ix n d → ℝ) (i : Fin (n + 1) × Fin o) => ((K ε).emission (ts i.1) *ᵥ fun a => x (i.1, a)) i.2 + m (ts i.1) i.2) =
        fun x => meanVec m ts + G *ᵥ x := by
      funext x
      rw [hG, ← outMat_family hK hε.le, outMat_mulVec]
      funext i
      exact add_comm _ _
    rw [e, SSM.law_eq_gauss, gaussLaw_map_affine q.Kd_posSemidef, hqm, hqc]
  · intro i
    have h := (tendsto_const_nhds (x := meanVec m ts)).add (Tendsto.matrix_mulVec' (tendsto_const_nhds (x := G)) t1)
    have hi := (continuous_apply i).tendsto _ |>.comp h
    have e : (meanVec m ts + G *ᵥ (postMom G R z C₀).1) i = gpPostMean m k ts R (stk y) (ts i.1) i.2 := by
      unfold postMom gpPostMean
      dsimp only
      rw [mulVec_mulVec, ← Matrix.mul_assoc, ← Matrix.mul_assoc, hgram, ← mulVec_mulVec]
      have ez : z = stk y - meanVec m ts := by funext i; rfl
      rw [ez]
      rfl
    rw [← e]
    exact hi
  · intro i j
    have h := Tendsto.matrix_mul' (Tendsto.matrix_mul' (tendsto_const_nhds (x := G)) t2) (tendsto_const_nhds (x := Gᵀ))
    have hij := (continuous_id.matrix_elem i j).tendsto _ |>.comp h
    have e : (G * (postMom G R z C₀).2 * Gᵀ) i j = gpPostCov k ts R (ts i.1) (ts j.1) i.2 j.2 := by
      unfold postMom gpPostCov
      dsimp only
      rw [Matrix.mul_sub, Matrix.sub_mul]
      have e1 : G * (C₀ * Gᵀ * (G * C₀ * Gᵀ + R)⁻¹ * (G * C₀)) * Gᵀ =
          (G * C₀ * Gᵀ) * (G * C₀ * Gᵀ + R)⁻¹ * (G * C₀ * Gᵀ) := by simp only [Matrix.mul_assoc]
      have e2 : (gpGram k ts)ᵀ = gpGram k ts := isSymm_of_psd (gpGram_psd (hK.builds 0 le_rfl) ts)
      rw [e1, hgram]
      nth_rewrite 4 [← e2]
      rfl
    rw [← e]
    exact hij

/-! ### prediction -/

/-- What `_conditional_statistics` computes, with jitter `ε` added to both transition noises. -/
noncomputable def jitStats (Am Qm Ap Qp : Mat d d) (ε : ℝ) : CondStats d :=
  let E := (Qm + ε • 1) * Apᵀ * ((Qp + ε • 1) + Ap * (Qm + ε • 1) * Apᵀ)⁻¹
  ⟨Am - E * Ap * Am, E, (Qm + ε • 1) - E * Ap * (Qm + ε • 1)⟩

theorem tendsto_jitStats {Am Qm Ap Qp : Mat d d} (h : (Qp + Ap * Qm * Apᵀ).PosDef) :
    Tendsto (fun ε => (jitStats Am Qm Ap Qp ε).D) (𝓝[>] 0) (𝓝 (jitStats Am Qm Ap Qp 0).D) ∧
    Tendsto (fun ε => (jitStats Am Qm Ap Qp ε).E) (𝓝[>] 0) (𝓝 (jitStats Am Qm Ap Qp 0).E) ∧
    Tendsto (fun ε => (jitStats Am Qm Ap Qp ε).T) (𝓝[>] 0) (𝓝 (jitStats Am Qm Ap Qp 0).T) := by
  have hm : Tendsto (fun ε : ℝ => Qm + ε • (1 : Mat d d)) (𝓝[>] 0) (𝓝 (Qm + (0 : ℝ) • 1)) := by
    rw [zero_smul, add_zero]; exact tendsto_add_smul _ _
  have hp : Tendsto (fun ε : ℝ => Qp + ε • (1 : Mat d d)) (𝓝[>] 0) (𝓝 (Qp + (0 : ℝ) • 1)) := by
    rw [zero_smul, add_zero]; exact tendsto_add_smul _ _
  have hS : Tendsto (fun ε : ℝ => (Qp + ε • (1 : Mat d d)) + Ap * (Qm + ε • (1 : Mat d d)) * Apᵀ) (𝓝[>] 0)
      (𝓝 ((Qp + (0 : ℝ) • 1) + Ap * (Qm + (0 : ℝ) • 1) * Apᵀ)) :=
    hp.add (Tendsto.matrix_mul' (Tendsto.matrix_mul' tendsto_const_nhds hm) tendsto_const_nhds)
  have hE : Tendsto (fun ε => (jitStats Am Qm Ap Qp ε).E) (𝓝[>] 0) (𝓝 (jitStats Am Qm Ap Qp 0).E) :=
    Tendsto.matrix_mul' (Tendsto.matrix_mul' hm tendsto_const_nhds) (tendsto_matrix_inv hS (by
      simp only [zero_smul, add_zero]; exact h.det_pos.ne'))
  have hEA : Tendsto (fun ε => (jitStats Am Qm Ap Qp ε).E * Ap) (𝓝[>] 0) (𝓝 ((jitStats Am Qm Ap Qp 0).E * Ap)) :=
    Tendsto.matrix_mul' hE tendsto_const_nhds
  exact ⟨tendsto_const_nhds.sub (Tendsto.matrix_mul' hEA tendsto_const_nhds), hE, hm.sub (Tendsto.matrix_mul' hEA hm)⟩

theorem jitStats_of {Am Qm Ap Qp : Mat d d} (hm : Qmᵀ = Qm) (hp : Qpᵀ = Qp) {ε : ℝ} {c : CondStats d}
    (h : condStatsFromTransitions Am (Qm + ε • 1) Ap (Qp + ε • 1) = .ok c) :
    (Qp + ε • 1 + Ap * (Qm + ε • 1) * Apᵀ).PosDef ∧ c = jitStats Am Qm Ap Qp ε := by
  obtain ⟨h1, h2, h3, h4⟩ := condStats_ok (by rw [transpose_add, hm, transpose_smul, transpose_one])
    (by rw [transpose_add, hp, transpose_smul, transpose_one]) h
  refine ⟨h1, ?_⟩
  cases c
  simp only at h2 h3 h4
  subst h2
  subst h3
  subst h4
  rfl

/-- The prediction formula. -/
noncomputable def predForm (c : CondStats d) (mu mu' : Vec d) (C S C' : Mat d d) : Vec d × Mat d d :=
  (c.D *ᵥ mu + c.E *ᵥ mu', c.T + fromCols c.D c.E * fromBlocks C Sᵀ S C' * (fromCols c.D c.E)ᵀ)

theorem predForm_snd (c : CondStats d) (mu mu' : Vec d) (C S C' : Mat d d) : (predForm c mu mu' C S C').2 =
    c.T + ((c.D * C + c.E * S) * c.Dᵀ + (c.D * Sᵀ + c.E * C') * c.Eᵀ) := by
  unfold predForm
  dsimp only
  rw [fromCols_mul_fromBlocks, transpose_fromCols, fromCols_mul_fromRows]

theorem tendsto_predForm {α : Type*} {l : Filter α} {c : α → CondStats d} {mu mu' : α → Vec d} {C S C' : α → Mat d d}
    {c₀ : CondStats d} {m₀ m₀' : Vec d} {C₀ S₀ C₀' : Mat d d}
    (hD : Tendsto (fun a => (c a).D) l (𝓝 c₀.D)) (hE : Tendsto (fun a => (c a).E) l (𝓝 c₀.E)) (hT : Tendsto (fun a => (c a).T) l (𝓝 c₀.T))
    (hm : Tendsto mu l (𝓝 m₀)) (hm' : Tendsto mu' l (𝓝 m₀')) (hC : Tendsto C l (𝓝 C₀)) (hS : Tendsto S l (𝓝 S₀))
    (hC' : Tendsto C' l (𝓝 C₀')) :
    Tendsto (fun a => predForm (c a) (mu a) (mu' a) (C a) (S a) (C' a)) l (𝓝 (predForm c₀ m₀ m₀' C₀ S₀ C₀')) := by
  refine Tendsto.prodMk_nhds ((Tendsto.matrix_mulVec' hD hm).add (Tendsto.matrix_mulVec' hE hm')) ?_
  have h : Tendsto (fun a => (predForm (c a) (mu a) (mu' a) (C a) (S a) (C' a)).2) l (𝓝 (predForm c₀ m₀ m₀' C₀ S₀ C₀').2) := by
    simp only [predForm_snd]
    exact hT.add ((Tendsto.matrix_mul' ((Tendsto.matrix_mul' hD hC).add (Tendsto.matrix_mul' hE hS)) (Tendsto.matrix_transpose' hD)).add
      (Tendsto.matrix_mul' ((Tendsto.matrix_mul' hD (Tendsto.matrix_transpose' hS)).add (Tendsto.matrix_mul' hE hC'))
        (Tendsto.matrix_transpose' hE)))
  exact h

theorem tendsto_cons_snoc {X : Type*} [TopologicalSpace X] {α : Type*} {l : Filter α} {m : ℕ} {a b : α → X} {f : α → Fin m → X} {a₀ b₀ : X}
    {f₀ : Fin m → X} (ha : Tendsto a l (𝓝 a₀)) (hb : Tendsto b l (𝓝 b₀)) (hf : ∀ i, Tendsto (fun x => f x i) l (𝓝 (f₀ i)))
    (i : Fin (m + 2)) :
    Tendsto (fun x => (Fin.cons (a x) (Fin.snoc (α := fun _ => X) (f x) (b x)) : Fin (m + 2) → X) i) l
      (𝓝 ((Fin.cons a₀ (Fin.snoc (α := fun _ => X) f₀ b₀) : Fin (m + 2) → X) i)) := by
  refine Fin.cases ?_ (fun i => ?_) i
  · simpa only [Fin.cons_zero] using ha
  · simp only [Fin.cons_succ]
    refine Fin.lastCases ?_ (fun i => ?_) i
    · simpa only [Fin.snoc_last] using hb
    · simpa only [Fin.snoc_castSucc] using hf i

/-- Predictions with a jitter tending to zero, from approximating state distributions tending to the one without jitter. -/
theorem predict_tendsto {K : ℝ → Stationary o d} {k} (hK : JitterFamily K k) {ts : Fin (n + 1) → ℝ} (hts : Monotone ts) (m : ℝ → Vec o)
    {q : ℝ → SSM n d} (hq : ∀ ε ≥ 0, (q ε).Nondegenerate) (hn : 0 < n)
    (hm : Tendsto (fun ε => stk (q ε).mus) (𝓝[>] 0) (𝓝 (stk (q 0).mus)))
    (hC : Tendsto (fun ε => (q ε).Kd) (𝓝[>] 0) (𝓝 (q 0).Kd)) {new : Fin p → ℝ}
    (h0 : ∀ j, -approxInf < new j) (h1 : ∀ j, new j ≤ approxInf) {r}
    (hr : (⟨q 0, K 0, ts, m⟩ : CondProcess n o d).predictState new = .ok r) :
    ∃ r' : ℝ → Fin p → Vec d × Mat d d, (∀ ε > 0, (⟨q ε, K ε, ts, m⟩ : CondProcess n o d).predictState new = .ok (r' ε)) ∧
      ∀ j, Tendsto (fun ε => r' ε j) (𝓝[>] 0) (𝓝 (r j)) := by
  have hg := fun ε (hε : 0 ≤ ε) => Builds.good (hK.builds ε hε)
  obtain ⟨hc0, -, -⟩ := hg 0 le_rfl
  have hd := hc0.pos
  set N : ℝ → Mat d d := fun δ => (K 0).Pinf - (K 0).stateTransitions 0 δ * (K 0).Pinf * ((K 0).stateTransitions 0 δ)ᵀ with hN
  have htr : ∀ ε, 0 ≤ ε → ∀ t δ, 0 ≤ δ → (K ε).trans t δ = ((K 0).stateTransitions 0 δ, N δ + ε • 1) := fun ε hε t δ hδ => by
    obtain ⟨hc, hr, -⟩ := hg ε hε
    unfold Stationary.trans
    rw [hc.time, hr.noise t δ hδ, jitterMatrix_eq, hK.trans ε hε, hK.pinf ε hε, hK.jitter ε hε]
  set g := augmentedTimes approxInf ts with hgd
  set i : Fin p → Fin (n + 2) := fun j => searchsortedLeft ts (new j) with hi
  have hδ : ∀ j, 0 ≤ new j - g (i j).castSucc ∧ 0 ≤ g (i j).succ - new j := fun j => by
    obtain ⟨a, b⟩ := augmented_between (inf := approxInf) hts (h0 j) (h1 j)
    exact ⟨(sub_pos.2 a).le, sub_nonneg.2 b⟩
  have hNs : ∀ δ, 0 ≤ δ → (N δ)ᵀ = N δ := fun δ hδ => isSymm_of_psd (hc0.contr _ hδ)
  have hcode : ∀ ε, 0 ≤ ε → ∀ j c, CodeStats approxInf ts (K ε).trans (new j) c ↔
      condStatsFromTransitions ((K 0).stateTransitions 0 (new j - g (i j).castSucc)) (N (new j - g (i j).castSucc) + ε • 1)
        ((K 0).stateTransitions 0 (g (i j).succ - new j)) (N (g (i j).succ - new j) + ε • 1) = .ok c := fun ε hε j c => by
    unfold CodeStats
    rw [htr ε hε _ _ (hδ j).1, htr ε hε _ _ (hδ j).2]
  set st : Fin p → ℝ → CondStats d := fun j => jitStats ((K 0).stateTransitions 0 (new j - g (i j).castSucc))
    (N (new j - g (i j).castSucc)) ((K 0).stateTransitions 0 (g (i j).succ - new j)) (N (g (i j).succ - new j)) with hst
  have hval : ∀ ε, 0 ≤ ε → ∀ r, (⟨q ε, K ε, ts, m⟩ : CondProcess n o d).predictState new = .ok r → ∀ j,
      r j = predForm (st j ε)
        ((Fin.cons 0 (Fin.snoc (α := fun _ => Vec d) (q ε).mus 0) : Fin (n + 3) → Vec d) (i j).castSucc)
        ((Fin.cons 0 (Fin.snoc (α := fun _ => Vec d) (q ε).mus 0) : Fin (n + 3) → Vec d) (i j).succ)
        ((Fin.cons ((K 0).Pinf + ε • 1) (Fin.snoc (α := fun _ => Mat d d) (fun k => blk (q ε).Kd k k) ((K 0).Pinf + ε • 1)) :
          Fin (n + 3) → Mat d d) (i j).castSucc)
        ((Fin.cons 0 (Fin.snoc (α := fun _ => Mat d d) (fun k : Fin n => blk (q ε).Kd k.succ k.castSucc) 0) : Fin (n + 2) → Mat d d) (i j))
        ((Fin.cons ((K 0).Pinf + ε • 1) (Fin.snoc (α := fun _ => Mat d d) (fun k => blk (q ε).Kd k k) ((K 0).Pinf + ε • 1)) :
          Fin (n + 3) → Mat d d) (i j).succ) := fun ε hε r hr j => by
    obtain ⟨cs, hcs, mu, C, S, rfl, rfl, rfl, hres⟩ := predictState_ok (hq ε hε) hn hd hr
    have e := (jitStats_of (hNs _ (hδ j).1) (hNs _ (hδ j).2) ((hcode ε hε j _).1 (hcs j))).2
    have em : (K ε).initialMean = 0 := (hg ε hε).2.1.mean
    have ec : (K ε).initialCovariance = (K 0).Pinf + ε • 1 := by
      rw [Stationary.initialCovariance, jitterMatrix_eq, hK.pinf ε hε, hK.jitter ε hε]
    rw [hres j, e]
    dsimp only
    rw [em, ec]
    rfl
  have hpos : ∀ j, (N (g (i j).succ - new j) + (K 0).stateTransitions 0 (g (i j).succ - new j) * N (new j - g (i j).castSucc) *
      ((K 0).stateTransitions 0 (g (i j).succ - new j))ᵀ).PosDef := fun j => by
    obtain ⟨cs, hcs, -⟩ := predictState_ok (hq 0 le_rfl) hn hd hr
    have e := (jitStats_of (hNs _ (hδ j).1) (hNs _ (hδ j).2) ((hcode 0 le_rfl j _).1 (hcs j))).1
    simpa only [zero_smul, add_zero] using e
  have hex : ∀ ε, 0 < ε → ∃ r, (⟨q ε, K ε, ts, m⟩ : CondProcess n o d).predictState new = .ok r := fun ε hε => by
    have : ∀ j, ∃ c, CodeStats approxInf ts (K ε).trans (new j) c := fun j => by
      simp only [hcode ε hε.le]
      refine condStats_succeeds (by rw [transpose_add, hNs _ (hδ j).1, transpose_smul, transpose_one]) ?_
      have hA : (ε • ((1 : Mat d d) + (K 0).stateTransitions 0 (g (i j).succ - new j) *
          ((K 0).stateTransitions 0 (g (i j).succ - new j))ᵀ)).PosSemidef :=
        (PosSemidef.one.add (posSemidef_mul_transpose _)).smul hε.le
      have := (hpos j).add_posSemidef hA
      convert this using 1
      rw [Matrix.mul_add, Matrix.add_mul, Matrix.mul_smul, Matrix.smul_mul, Matrix.mul_one, smul_add]
      abel
    choose cs hcs using this
    exact predictState_of (hq ε hε.le) hn hd hcs
  choose! r' hr' using hex
  refine ⟨r', hr', fun j => ?_⟩
  have hev : (fun ε => r' ε j) =ᶠ[𝓝[>] 0] _ := eventually_nhdsWithin_of_forall fun ε hε => hval ε (le_of_lt hε) _ (hr' ε hε) j
  refine Tendsto.congr' hev.symm ?_
  rw [hval 0 le_rfl r hr j]
  obtain ⟨sD, sE, sT⟩ := tendsto_jitStats (Am := (K 0).stateTransitions 0 (new j - g (i j).castSucc)) (hpos j)
  have hmus : ∀ k, Tendsto (fun ε => (q ε).mus k) (𝓝[>] 0) (𝓝 ((q 0).mus k)) := fun k =>
    tendsto_pi_nhds.2 fun a => (tendsto_pi_nhds.1 hm) (k, a)
  have hblk : ∀ k k', Tendsto (fun ε => blk (q ε).Kd k k') (𝓝[>] 0) (𝓝 (blk (q 0).Kd k k')) := fun k k' =>
    tendsto_pi_nhds.2 fun a => tendsto_pi_nhds.2 fun b => tendsto_pi_nhds.1 ((tendsto_pi_nhds.1 hC) (k, a)) (k', b)
  have hP : Tendsto (fun ε : ℝ => (K 0).Pinf + ε • (1 : Mat d d)) (𝓝[>] 0) (𝓝 ((K 0).Pinf + (0 : ℝ) • 1)) := by
    rw [zero_smul, add_zero]; exact tendsto_add_smul _ _
  exact tendsto_predForm sD sE sT (tendsto_cons_snoc tendsto_const_nhds tendsto_const_nhds hmus _)
    (tendsto_cons_snoc tendsto_const_nhds tendsto_const_nhds hmus _) (tendsto_cons_snoc hP hP (fun k => hblk k k) _)
    (tendsto_cons_snoc tendsto_const_nhds tendsto_const_nhds (fun k => hblk _ _) _) (tendsto_cons_snoc hP hP (fun k => hblk k k) _)

/-- C59, prediction from a given state distribution: whenever `predict_state` succeeds without jitter it succeeds with every positive
jitter, and the result tends to the one without jitter. -/
theorem C59_predict_state {K : ℝ → Stationary o d} {k} (hK : JitterFamily K k) {ts : Fin (n + 1) → ℝ} (hts : Monotone ts)
    (m : ℝ → Vec o) {q : SSM n d} (hq : q.Nondegenerate) (hn : 0 < n) {new : Fin p → ℝ}
    (h0 : ∀ j, -10000000000 < new j) (h1 : ∀ j, new j ≤ 10000000000) {r}
    (hr : (⟨q, K 0, ts, m⟩ : CondProcess n o d).predictState new = .ok r) :
    ∃ r' : ℝ → Fin p → Vec d × Mat d d, (∀ ε > 0, (⟨q, K ε, ts, m⟩ : CondProcess n o d).predictState new = .ok (r' ε)) ∧
      ∀ j, Tendsto (fun ε => r' ε j) (𝓝[>] 0) (𝓝 (r j)) :=
  predict_tendsto hK hts m (q := fun _ => q) (fun _ _ => hq) hn tendsto_const_nhds tendsto_const_nhds h0 h1 hr

/-- C59, regression: with every positive jitter `posterior.predict_f` succeeds, and as the jitter tends to zero its mean and covariance
tend to the dense Gaussian process posterior, at every query in the range of the data. -/
theorem C59_predict_f {K : ℝ → Stationary o d} {k} (hK : JitterFamily K k) (hN : NoiseTag (K 0) true) (hn : 0 < n)
    {ts : Fin (n + 1) → ℝ} (hts : StrictMono ts) (ht0 : -10000000000 < ts 0) (ht1 : ts (Fin.last n) ≤ 10000000000)
    (y : Fin (n + 1) → Vec o) (m : ℝ → Vec o) {L : Mat o o} (hL : NoiseFactor L) {new : Fin p → ℝ} (h0 : ∀ j, ts 0 ≤ new j)
    (h1 : ∀ j, new j ≤ ts (Fin.last n)) :
    ∃ f : ℝ → Fin p → Vec o × Mat o o,
      (∀ ε > 0, ∃ c, (⟨ts, y, K ε, m, L⟩ : GPR n o d).posterior = .ok c ∧ c.predictF new = .ok (f ε)) ∧
      ∀ j, Tendsto (fun ε => f ε j) (𝓝[>] 0) (𝓝 (gpPostMean m k ts (blkDiag fun _ => L * Lᵀ) (stk y) (new j),
        gpPostCov k ts (blkDiag fun _ => L * Lᵀ) (new j) (new j))) := by
  have hmono := hts.monotone
  have hex : ∀ ε, 0 ≤ ε → ∃ q : SSM n d, (⟨ts, y, K ε, m, L⟩ : GPR n o d).posterior = .ok ⟨q, K ε, ts, m⟩ ∧ q.Nondegenerate ∧
      stk q.mus = (postMom (outMat (K 0) ts) (blkDiag fun _ => L * Lᵀ) (stk fun i => y i - m (ts i))
        (covMat ((K 0).stateTransitions 0) (K 0).Pinf ts + ε • famUnit K ts)).1 ∧
      q.Kd = (postMom (outMat (K 0) ts) (blkDiag fun _ => L * Lᵀ) (stk fun i => y i - m (ts i))
        (covMat ((K 0).stateTransitions 0) (K 0).Pinf ts + ε • famUnit K ts)).2 := fun ε hε => by
    have : ∃ s, (K ε).stateSpaceModel ts = .ok s ∧ s.Nondegenerate := by
      rcases hε.eq_or_lt with rfl | h
      · exact kernel_ssm_nondegenerate (hK.builds 0 le_rfl) hN hn hts
      · exact jitter_ssm (hK.builds ε hε) (by rw [hK.jitter ε hε]; exact h) hn hmono
    obtain ⟨s, hs, hnd⟩ := this
    obtain ⟨e1, e2⟩ := family_moments hK hε hmono hs
    obtain ⟨q, hq, hqn, hqm, hqc⟩ := gpr_post hs hnd e1 hn y m hL
    rw [outMat_family hK hε, e2] at hqm hqc
    exact ⟨q, hq, hqn, hqm, hqc⟩
  have : Nonempty (SSM n d) := ⟨0, 0, 0, 0, 0⟩
  choose! q hq hqn hqm hqc using hex
  have hpd : (outMat (K 0) ts * covMat ((K 0).stateTransitions 0) (K 0).Pinf ts * (outMat (K 0) ts)ᵀ +
      blkDiag fun _ => L * Lᵀ).PosDef := by
    rw [outMat_conj' (hK.builds 0 le_rfl)]
    exact PosDef.posSemidef_add (gpGram_psd (hK.builds 0 le_rfl) ts) (posDef_blkDiag fun _ => hL.posDef)
  obtain ⟨t1, t2⟩ := tendsto_postMom (stk fun i => y i - m (ts i)) (tendsto_add_smul (covMat ((K 0).stateTransitions 0) (K 0).Pinf ts)
    (famUnit K ts)) hpd
  have tm : Tendsto (fun ε => stk (q ε).mus) (𝓝[>] 0) (𝓝 (stk (q 0).mus)) := by
    rw [hqm 0 le_rfl, zero_smul, add_zero]
    exact t1.congr' (eventually_nhdsWithin_of_forall fun ε hε => (hqm ε (le_of_lt hε)).symm)
  have tc : Tendsto (fun ε => (q ε).Kd) (𝓝[>] 0) (𝓝 (q 0).Kd) := by
    rw [hqc 0 le_rfl, zero_smul, add_zero]
    exact t2.congr' (eventually_nhdsWithin_of_forall fun ε hε => (hqc ε (le_of_lt hε)).symm)
  have hlo : ∀ j, -approxInf < new j := fun j => lt_of_lt_of_le ht0 (h0 j)
  have hhi : ∀ j, new j ≤ approxInf := fun j => (h1 j).trans ht1
  obtain ⟨c, hc, -, hpf⟩ := C32_posterior (g := ⟨ts, y, K 0, m, L⟩) (k := k)
    ⟨hK.builds 0 le_rfl, hN, hK.jitter 0 le_rfl, hts, hL, hn⟩ ht0 ht1
  obtain rfl : c = ⟨q 0, K 0, ts, m⟩ := Except.ok.inj (hc.symm.trans (hq 0 le_rfl))
  obtain ⟨f₀, hf₀, hv₀⟩ := hpf new h0 h1
  obtain ⟨r, hr⟩ := C22_succeeds (c := ⟨q 0, K 0, ts, m⟩) (hK.builds 0 le_rfl) hN (hqn 0 le_rfl) hn hmono hlo hhi
  obtain ⟨r', hr', hlim⟩ := predict_tendsto hK hmono m hqn hn tm tc hlo hhi hr
  obtain ⟨f₁, hf₁, hv₁⟩ := (C45_formulas hr 0).1
  obtain rfl : f₀ = f₁ := Except.ok.inj (hf₀.symm.trans hf₁)
  have hf : ∀ ε, 0 < ε → ∃ f, (⟨q ε, K ε, ts, m⟩ : CondProcess n o d).predictF new = .ok f ∧ ∀ j,
      f j = ((K 0).emission (new j) *ᵥ (r' ε j).1 + m (new j), (K 0).emission (new j) * (r' ε j).2 * ((K 0).emission (new j))ᵀ) :=
    fun ε hε => by
      obtain ⟨f, hf, hv⟩ := (C45_formulas (hr' ε hε) 0).1
      refine ⟨f, hf, fun j => ?_⟩
      obtain ⟨a, b⟩ := hv j
      dsimp only at a b
      rw [hK.emission ε hε.le] at a b
      exact Prod.ext a b
  choose! f hf hfv using hf
  refine ⟨f, fun ε hε => ⟨_, hq ε (le_of_lt hε), hf ε hε⟩, fun j => ?_⟩
  have hev : (fun ε => f ε j) =ᶠ[𝓝[>] 0] _ := eventually_nhdsWithin_of_forall fun ε hε => hfv ε hε j
  refine Tendsto.congr' hev.symm ?_
  obtain ⟨a, b⟩ := hv₀ j
  obtain ⟨a', b'⟩ := hv₁ j
  have e : (gpPostMean m k ts (blkDiag fun _ => L * Lᵀ) (stk y) (new j), gpPostCov k ts (blkDiag fun _ => L * Lᵀ) (new j) (new j)) =
      ((K 0).emission (new j) *ᵥ (r j).1 + m (new j), (K 0).emission (new j) * (r j).2 * ((K 0).emission (new j))ᵀ) :=
    Prod.ext (a.symm.trans a') (b.symm.trans b')
  rw [e]
  have l1 := (continuous_fst.tendsto _).comp (hlim j)
  have l2 := (continuous_snd.tendsto _).comp (hlim j)
  exact Tendsto.prodMk_nhds ((Tendsto.matrix_mulVec' tendsto_const_nhds l1).add tendsto_const_nhds)
    (Tendsto.matrix_mul' (Tendsto.matrix_mul' tendsto_const_nhds l2) tendsto_const_nhds)

/-- Non-vacuity: the Matérn 3/2 kernel and the (noise-free) constant kernel form such families. -/
example : (∃ F : ℝ → Stationary 1 2, JitterFamily F (iso (matern32Cov 1 1)) ∧ NoiseTag (F 0) true) ∧
    ∃ F : ℝ → Stationary 1 1, JitterFamily F (iso fun _ => 2) := by
  have h32 : matern32 1 1 1 0 = .ok _ := if_neg (by norm_num) |>.trans (if_neg (by simp))
  have hc : constant 1 2 0 = .ok _ := if_neg (by norm_num) |>.trans (if_neg (by simp))
  obtain ⟨F, hF, hk⟩ := C59_constructors.2.2.1 h32
  obtain ⟨F', hF', -⟩ := C59_constructors.2.2.2.2.2.1 hc
  exact ⟨⟨F, hF, .matern32 (hk 0 le_rfl)⟩, F', hF'⟩

end MF
