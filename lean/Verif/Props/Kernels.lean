import Verif.Lemmas.KernelTree

/-!
# C26–C29: kernels

`Leaf K k` / `Builds K k` (`Spec/KernelTree.lean`): `K` was returned by constructor calls and `k` is the
textbook covariance function of the expression.
-/

namespace MF
open Matrix Spec MeasureTheory
variable {o o' d n : ℕ}

/-! ## C26 -/

/-- C26: the transitions of every basic kernel solve its own SDE `dx/dt = F x`: `A(0) = 1`,
`A(s+t) = A(s) A(t)`, `A' = F A`, whatever the start time. -/
theorem C26_transitions_solve_sde {K : Stationary o d} {k : ℝ → ℝ} (h : Leaf K k) (t : ℝ) :
    SolvesSDE K.feedback (K.stateTransitions t) := by
  have hg := Leaf.good h
  have : K.stateTransitions t = K.stateTransitions 0 := funext fun δ => hg.1.time t δ
  rw [this]; exact hg.2.2.2

/-- C26: hence they are the matrix exponential of the feedback matrix. -/
theorem C26_transitions_eq_exp {K : Stationary o d} {k : ℝ → ℝ} (h : Leaf K k) (t δ : ℝ) :
    K.stateTransitions t δ = NormedSpace.exp (δ • K.feedback) :=
  (C26_transitions_solve_sde h t).eq_exp δ

/-- C26: for nested expressions (sums, products, independent outputs, factor analysis) the transitions
do not depend on the start time and form a one-parameter group. -/
theorem C26_transitions_group {K : Stationary o d} {k} (h : Builds K k) (t t' s δ : ℝ) :
    K.stateTransitions t 0 = 1 ∧ K.stateTransitions t δ = K.stateTransitions t' δ ∧
      K.stateTransitions t (s + δ) = K.stateTransitions t s * K.stateTransitions t δ := by
  have hg := (Builds.good h).1
  exact ⟨by rw [hg.time, hg.zero], by rw [hg.time, hg.time t'],
    by rw [hg.time, hg.add, hg.time t s, hg.time t δ]⟩

theorem solvesSDE_blockDiag {ks : List (Σ d, Stationary o d)}
    (h : ∀ k ∈ ks, ∀ t, SolvesSDE k.2.feedback (k.2.stateTransitions t)) (t : ℝ) :
    SolvesSDE (blockDiag (fun _ (k : Stationary o _) => k.feedback) ks)
      (fun δ => blockDiag (fun _ k => k.stateTransitions t δ) ks) where
  zero := by
    rw [← blockDiag_one (ks := ks)]
    exact blockDiag_congr fun k hk => (h k hk t).zero
  add s r := by
    rw [blockDiag_mul]; exact blockDiag_congr fun k hk => (h k hk t).add s r
  deriv s := by
    rw [blockDiag_mul]
    induction ks with
    | nil => intro i; exact i.elim0
    | cons k ks ih =>
      intro i j
      simp only [blockDiag, submatrix_apply]
      have ih' := ih fun k' hk => h k' (List.mem_cons_of_mem _ hk)
      rcases splitSum k ks i with a | a <;> rcases splitSum k ks j with b | b
      · exact (h k (by simp) t).deriv s a b
      · exact hasDerivAt_const s (0 : ℝ)
      · exact hasDerivAt_const s (0 : ℝ)
      · exact ih' a b

/-- C26: a `Sum` of kernels that solve their SDEs solves its own SDE. -/
theorem C26_sum {ks : List (Σ d, Stationary o d)} {j : ℝ} {K : Stationary o (sumDim ks)}
    (hK : sumKernel ks j = .ok K)
    (h : ∀ k ∈ ks, ∀ t, SolvesSDE k.2.feedback (k.2.stateTransitions t)) (t : ℝ) :
    SolvesSDE K.feedback (K.stateTransitions t) := by
  obtain ⟨-, -, rfl⟩ := combineInit_ok hK
  exact solvesSDE_blockDiag h t

/-- Finding: `Product.feedback_matrix` (the Kronecker product of the feedback matrices) is not the
generator of `Product.state_transitions`: for the product of two unit `Matern12` kernels it is `+1`
while the transitions are `exp(-2δ)`. -/
theorem C26_product_feedback_is_wrong : ∃ (K₁ : Stationary 1 1) (K : Stationary 1 _),
    matern12 1 1 1 0 = .ok K₁ ∧ SDEKernel.mul K₁ K₁ = .ok K ∧
      ¬ SolvesSDE K.feedback (K.stateTransitions 0) := by
  have h1 : matern12 1 1 1 0 = .ok (Stationary.base (fun _ δ => !![Real.exp (-δ / 1)]) !![-1 / 1] !![1] 0 0
      (fun _ => sdeEmission 1 1)) := by
    unfold matern12 kernelInit; rw [if_neg (by simp), if_neg (by simp)]
  refine ⟨_, _, h1, by
    unfold SDEKernel.mul productKernel combineInit; rw [if_neg (by simp), if_neg (by simp)], ?_⟩
  intro h
  have hd := h.deriv 0 (finProdFinEquiv (0, finProdFinEquiv (0, (0 : Fin 1))))
    (finProdFinEquiv (0, finProdFinEquiv (0, (0 : Fin 1))))
  rw [h.zero, Matrix.mul_one] at hd
  simp only [Stationary.base, kron, submatrix_apply, splitProd, kroneckerMap_apply] at hd
  have e : (finProdFinEquiv.symm (finProdFinEquiv ((0 : Fin 1), finProdFinEquiv ((0 : Fin 1), (0 : Fin 1))))
      : Fin 1 × Fin (1 * 1)) = ((0 : Fin 1), finProdFinEquiv ((0 : Fin 1), (0 : Fin 1))) :=
    Equiv.symm_apply_apply _ _
  have hd' : HasDerivAt (fun s : ℝ => Real.exp (-s / 1) * (Real.exp (-s / 1) * 1)) (-1 / 1 * (-1 / 1 * 1)) 0 :=
    hd
  have hd2 : HasDerivAt (fun s : ℝ => Real.exp (-s / 1) * (Real.exp (-s / 1) * 1)) (-2) 0 := by
    have := hasDerivAt_exp_mul (-2) 0
    refine (this.congr_deriv (by simp)).congr_of_eventuallyEq (Filter.Eventually.of_forall fun s => ?_)
    show Real.exp (-s / 1) * (Real.exp (-s / 1) * 1) = Real.exp (-2 * s)
    rw [mul_one, ← Real.exp_add]; congr 1; ring
  have := hd'.unique hd2
  norm_num at this

/-! ## C27 -/

/-- C27: process covariances (both `process_covariances` and the second output of
`transition_statistics`) are positive semi-definite for every kernel expression, any jitter. -/
theorem C27_process_covariance_psd {K : Stationary o d} {k} (h : Builds K k) (t : ℝ) {δ : ℝ}
    (hδ : 0 ≤ δ) : (K.processCov t δ).PosSemidef ∧ (K.transitionNoise t δ).PosSemidef ∧
      K.initialCovariance.PosSemidef := by
  obtain ⟨hc, hr, -⟩ := Builds.good h
  obtain ⟨ε, h0, -, he⟩ := hr.proc t δ hδ
  refine ⟨?_, ?_, ?_⟩
  · rw [he]; exact (hc.contr δ hδ).add (posSemidef_jitter d h0)
  · rw [hr.noise t δ hδ]; exact (hc.contr δ hδ).add (posSemidef_jitter d hr.jit)
  · exact hc.psd.add (posSemidef_jitter d hr.jit)

/-- C27: positive definite for `δ > 0` for the Matérn family and everything built from it (products
with a Matérn factor included); zero for oscillators and constants (jitter zero). -/
theorem C27_process_covariance_pd {K : Stationary o d} {k} (h : Builds K k) (hn : NoiseTag K true)
    (t : ℝ) {δ : ℝ} (hδ : 0 < δ) : (K.processCov t δ).PosDef ∧ (K.transitionNoise t δ).PosDef := by
  obtain ⟨hc, hr, -⟩ := Builds.good h
  obtain ⟨ε, h0, -, he⟩ := hr.proc t δ hδ.le
  have hs := (NoiseTag.noisy hn).2.strict rfl δ hδ
  refine ⟨?_, ?_⟩
  · rw [he]; exact hs.add_posSemidef (posSemidef_jitter d h0)
  · rw [hr.noise t δ hδ.le]; exact hs.add_posSemidef (posSemidef_jitter d hr.jit)

/-- C27 with jitter zero: `Q(δ) = P∞ - A(δ) P∞ A(δ)ᵀ`, so the steady state covariance is invariant,
`Q(0) = 0` and `Q(s + δ) = A(δ) Q(s) A(δ)ᵀ + Q(δ)`. -/
theorem C27_stationary {K : Stationary o d} {k} (h : Builds K k) (hj : K.jitter = 0) (t : ℝ) {s δ : ℝ}
    (hs : 0 ≤ s) (hδ : 0 ≤ δ) :
    K.processCov t δ = K.transitionNoise t δ ∧
    K.transitionNoise t δ = K.Pinf - K.stateTransitions t δ * K.Pinf * (K.stateTransitions t δ)ᵀ ∧
    K.stateTransitions t δ * K.Pinf * (K.stateTransitions t δ)ᵀ + K.transitionNoise t δ = K.Pinf ∧
    K.transitionNoise t 0 = 0 ∧
    K.transitionNoise t (s + δ) =
      K.stateTransitions t δ * K.transitionNoise t s * (K.stateTransitions t δ)ᵀ + K.transitionNoise t δ := by
  obtain ⟨hc, hr, -⟩ := Builds.good h
  have hn : ∀ δ, 0 ≤ δ → K.transitionNoise t δ =
      K.Pinf - K.stateTransitions 0 δ * K.Pinf * (K.stateTransitions 0 δ)ᵀ := by
    intro δ hδ; rw [hr.noise t δ hδ, hj, jitterMatrix_zero, add_zero]
  obtain ⟨ε, h0, h1, he⟩ := hr.proc t δ hδ
  have hε : ε = 0 := le_antisymm (hj ▸ h1) h0
  rw [hε, jitterMatrix_zero, add_zero] at he
  refine ⟨by rw [he, hn δ hδ], by rw [hn δ hδ, hc.time t], by rw [hn δ hδ, hc.time t]; abel, ?_, ?_⟩
  · rw [hn 0 le_rfl, hc.zero]; simp
  · rw [hn _ (add_nonneg hs hδ), hn s hs, hn δ hδ, hc.time t δ]
    exact noise_cocycle hc.add s δ

/-- C27: a state mean set on a basic kernel is invariant under the transitions and offsets. -/
theorem C27_state_mean_invariant {K : Stationary o d} (m : Vec d) (t δ : ℝ) :
    (K.setStateMean m).initialMean = m ∧
    (K.setStateMean m).stateTransitions t δ *ᵥ m + (K.setStateMean m).stateOffsets t δ = m := by
  refine ⟨rfl, ?_⟩
  show K.stateTransitions t δ *ᵥ m + statOffsets K.stateTransitions m t δ = m
  rw [statOffsets, neg_mulVec, sub_mulVec, one_mulVec]; abel

/-- Finding: with jitter `ε` the process is not stationary; each transition adds `ε A Aᵀ`. -/
theorem C27_jitter_accumulates {K : Stationary o d} {k} (h : Builds K k) (t : ℝ) {δ : ℝ} (hδ : 0 ≤ δ) :
    K.stateTransitions t δ * K.initialCovariance * (K.stateTransitions t δ)ᵀ + K.transitionNoise t δ =
      K.initialCovariance + K.jitter • (K.stateTransitions t δ * (K.stateTransitions t δ)ᵀ) := by
  obtain ⟨hc, hr, -⟩ := Builds.good h
  rw [hr.noise t δ hδ, Stationary.initialCovariance, hc.time t, jitterMatrix_eq, Matrix.mul_add,
    Matrix.add_mul, Matrix.mul_smul, Matrix.mul_one, Matrix.smul_mul]
  abel

/-! ## C28 -/

/-- C28/C29: the outputs of the state space model that a kernel expression builds (root jitter zero)
at any time points are jointly a zero-mean Gaussian process with the textbook covariance function. -/
theorem C28_output_law {K : Stationary o d} {k} (h : Builds K k) (hj : K.jitter = 0)
    {ts : Fin (n + 1) → ℝ} {s : SSM n d} (hs : K.stateSpaceModel ts = .ok s) :
    outputLaw s.mu0 s.cholP0 s.A s.b s.cholQ (fun i => K.emission (ts i)) =
      gpLaw (fun _ => 0) k ts := by
  obtain ⟨hc, hr, hd⟩ := Builds.good h
  have h1 := (hc.isProcess hr hj).outputLaw hs
  rw [hd.procCov] at h1
  simpa using h1

/-- C28: construction succeeds for strictly increasing times when the expression has noise throughout
(Matérn family …) or none at all (oscillators …), and for non-decreasing times when the jitter is
positive; it raises when the times decrease somewhere. -/
theorem C28_succeeds {K : Stationary o d} {k} (h : Builds K k) (hn : 0 < n) {ts : Fin (n + 1) → ℝ} :
    (∀ b, NoiseTag K b → StrictMono ts → ∃ s, K.stateSpaceModel ts = .ok s) ∧
    (0 < K.jitter → Monotone ts → ∃ s, K.stateSpaceModel ts = .ok s) ∧
    (¬ Monotone ts → K.stateSpaceModel ts = .error .invalidArgument) := by
  obtain ⟨hc, hr, -⟩ := Builds.good h
  have hnn : Monotone ts → ∀ k : Fin n, 0 ≤ ts k.succ - ts k.castSucc := fun hm k =>
    sub_nonneg.2 (hm Fin.castSucc_lt_succ.le)
  have hpos : 0 < K.jitter → Monotone ts → ∃ s, K.stateSpaceModel ts = .ok s := by
    intro hj hm
    refine stateSpaceModel_ok hc.pos hn hm (Or.inr (PosDef.posSemidef_add hc.psd (posDef_jitter d hj)))
      fun k => Or.inr ?_
    rw [hr.noise _ _ (hnn hm k)]
    exact PosDef.posSemidef_add (hc.contr _ (hnn hm k)) (posDef_jitter d hj)
  refine ⟨fun b hb hm => ?_, hpos, fun hm => ?_⟩
  · rcases hr.jit.lt_or_eq with hj | hj
    · exact hpos hj hm.monotone
    · obtain ⟨-, hN⟩ := NoiseTag.noisy hb
      refine stateSpaceModel_ok hc.pos hn hm.monotone (Or.inr ?_) fun k => ?_
      · rw [Stationary.initialCovariance, ← hj, jitterMatrix_zero, add_zero]; exact hN.pd
      · rw [hr.noise _ _ (hnn hm.monotone k), ← hj, jitterMatrix_zero, add_zero]
        cases b with
        | true => exact Or.inr (hN.strict rfl _ (sub_pos.2 (hm Fin.castSucc_lt_succ)))
        | false => exact Or.inl (hN.zero rfl _ (hnn hm.monotone k))
  · unfold Stationary.stateSpaceModel toDeltaTime
    simp only
    rw [if_neg]
    · rfl
    · intro hall
      exact hm (Fin.monotone_iff_le_succ.2 fun k => sub_nonneg.1 (hall k))

theorem jitter_of_leaf {K : Stationary o d} {j : ℝ} {ps : List ℝ} {K' : Stationary o d}
    (h : kernelInit j ps K' = .ok K) : K = K' := (kernelInit_ok h).2.2

/-- C28 for `Matern12`: `σ² exp(-|t - t'|/ℓ)`. -/
theorem C28_matern12 {l v : ℝ} (hl : 0 < l) (hv : 0 < v) (hn : 0 < n) {ts : Fin (n + 1) → ℝ}
    (hts : StrictMono ts) : ∃ K s, matern12 1 l v 0 = .ok K ∧ K.stateSpaceModel ts = .ok s ∧
      outputLaw s.mu0 s.cholP0 s.A s.b s.cholQ (fun i => K.emission (ts i)) =
        gpLaw (fun _ => 0) (fun t t' => !![v * Real.exp (-(|t - t'| / l))]) ts := by
  have hK : ∃ K, matern12 1 l v 0 = .ok K ∧ K.jitter = 0 := by
    refine ⟨_, by unfold matern12 kernelInit; rw [if_neg (by simp), if_neg (by simp [hl, hv])], rfl⟩
  obtain ⟨K, hK, hj⟩ := hK
  have hb : Builds K _ := .leaf (.matern12 hK)
  obtain ⟨s, hs⟩ := (C28_succeeds hb hn).1 true (.matern12 hK) hts
  refine ⟨K, s, hK, hs, ?_⟩
  rw [C28_output_law hb hj hs]
  congr 1; funext t t'; ext i j; fin_cases i; fin_cases j; rfl

/-- C28 for `OrnsteinUhlenbeck`: `q/(2θ) exp(-θ|t - t'|)`. -/
theorem C28_ornsteinUhlenbeck {dec dif : ℝ} (hl : 0 < dec) (hv : 0 < dif) (hn : 0 < n)
    {ts : Fin (n + 1) → ℝ} (hts : StrictMono ts) :
    ∃ K s, ornsteinUhlenbeck 1 dec dif 0 = .ok K ∧ K.stateSpaceModel ts = .ok s ∧
      outputLaw s.mu0 s.cholP0 s.A s.b s.cholQ (fun i => K.emission (ts i)) =
        gpLaw (fun _ => 0) (fun t t' => !![dif / (2 * dec) * Real.exp (-(dec * |t - t'|))]) ts := by
  have hK : ∃ K, ornsteinUhlenbeck 1 dec dif 0 = .ok K ∧ K.jitter = 0 := by
    refine ⟨_, by unfold ornsteinUhlenbeck kernelInit; rw [if_neg (by simp), if_neg (by simp [hl, hv])], rfl⟩
  obtain ⟨K, hK, hj⟩ := hK
  have hb : Builds K _ := .leaf (.ou hK)
  obtain ⟨s, hs⟩ := (C28_succeeds hb hn).1 true (.ou hK) hts
  refine ⟨K, s, hK, hs, ?_⟩
  rw [C28_output_law hb hj hs]
  congr 1; funext t t'; ext i j; fin_cases i; fin_cases j; rfl

/-- C28 for `Matern32`: `σ² (1 + √3 r/ℓ) exp(-√3 r/ℓ)`. -/
theorem C28_matern32 {l v : ℝ} (hl : 0 < l) (hv : 0 < v) (hn : 0 < n) {ts : Fin (n + 1) → ℝ}
    (hts : StrictMono ts) : ∃ K s, matern32 1 l v 0 = .ok K ∧ K.stateSpaceModel ts = .ok s ∧
      outputLaw s.mu0 s.cholP0 s.A s.b s.cholQ (fun i => K.emission (ts i)) =
        gpLaw (fun _ => 0) (fun t t' => !![v * (1 + Real.sqrt 3 * |t - t'| / l) *
          Real.exp (-(Real.sqrt 3 * |t - t'| / l))]) ts := by
  have hK : ∃ K, matern32 1 l v 0 = .ok K ∧ K.jitter = 0 := by
    refine ⟨_, by unfold matern32 kernelInit; simp only; rw [if_neg (by simp), if_neg (by simp [hl, hv])], rfl⟩
  obtain ⟨K, hK, hj⟩ := hK
  have hb : Builds K _ := .leaf (.matern32 hK)
  obtain ⟨s, hs⟩ := (C28_succeeds hb hn).1 true (.matern32 hK) hts
  refine ⟨K, s, hK, hs, ?_⟩
  rw [C28_output_law hb hj hs]
  congr 1; funext t t'; ext i j; fin_cases i; fin_cases j; rfl

/-- C28 for `Matern52`: `σ² (1 + √5 r/ℓ + 5r²/(3ℓ²)) exp(-√5 r/ℓ)`. -/
theorem C28_matern52 {l v : ℝ} (hl : 0 < l) (hv : 0 < v) (hn : 0 < n) {ts : Fin (n + 1) → ℝ}
    (hts : StrictMono ts) : ∃ K s, matern52 1 l v 0 = .ok K ∧ K.stateSpaceModel ts = .ok s ∧
      outputLaw s.mu0 s.cholP0 s.A s.b s.cholQ (fun i => K.emission (ts i)) =
        gpLaw (fun _ => 0) (fun t t' => !![v * (1 + Real.sqrt 5 * |t - t'| / l +
          5 * |t - t'| ^ 2 / (3 * l ^ 2)) * Real.exp (-(Real.sqrt 5 * |t - t'| / l))]) ts := by
  have hK : ∃ K, matern52 1 l v 0 = .ok K ∧ K.jitter = 0 := by
    refine ⟨_, by unfold matern52 kernelInit; simp only; rw [if_neg (by simp), if_neg (by simp [hl, hv])], rfl⟩
  obtain ⟨K, hK, hj⟩ := hK
  have hb : Builds K _ := .leaf (.matern52 hK)
  obtain ⟨s, hs⟩ := (C28_succeeds hb hn).1 true (.matern52 hK) hts
  refine ⟨K, s, hK, hs, ?_⟩
  rw [C28_output_law hb hj hs]
  congr 1; funext t t'; ext i j; fin_cases i; fin_cases j; rfl

/-- C28 for `HarmonicOscillator`: `σ² cos(2π r/T)`. -/
theorem C28_harmonicOscillator {v p : ℝ} (hv : 0 < v) (hp : 0 < p) (hn : 0 < n) {ts : Fin (n + 1) → ℝ}
    (hts : StrictMono ts) : ∃ K s, harmonicOscillator 1 v p 0 = .ok K ∧ K.stateSpaceModel ts = .ok s ∧
      outputLaw s.mu0 s.cholP0 s.A s.b s.cholQ (fun i => K.emission (ts i)) =
        gpLaw (fun _ => 0) (fun t t' => !![v * Real.cos (2 * Real.pi * |t - t'| / p)]) ts := by
  have hK : ∃ K, harmonicOscillator 1 v p 0 = .ok K ∧ K.jitter = 0 := by
    refine ⟨_, by unfold harmonicOscillator kernelInit; simp only; rw [if_neg (by simp), if_neg (by simp [hp, hv])], rfl⟩
  obtain ⟨K, hK, hj⟩ := hK
  have hb : Builds K _ := .leaf (.periodic hK)
  obtain ⟨s, hs⟩ := (C28_succeeds hb hn).1 false (.periodic hK) hts
  refine ⟨K, s, hK, hs, ?_⟩
  rw [C28_output_law hb hj hs]
  congr 1; funext t t'; ext i j; fin_cases i; fin_cases j; rfl

/-- C28 for `Constant`: `σ²`. -/
theorem C28_constant {v : ℝ} (hv : 0 < v) (hn : 0 < n) {ts : Fin (n + 1) → ℝ}
    (hts : StrictMono ts) : ∃ K s, constant 1 v 0 = .ok K ∧ K.stateSpaceModel ts = .ok s ∧
      outputLaw s.mu0 s.cholP0 s.A s.b s.cholQ (fun i => K.emission (ts i)) =
        gpLaw (fun _ => 0) (fun _ _ => !![v]) ts := by
  have hK : ∃ K, constant 1 v 0 = .ok K ∧ K.jitter = 0 := by
    refine ⟨_, by unfold constant kernelInit; rw [if_neg (by simp), if_neg (by simp [hv])], rfl⟩
  obtain ⟨K, hK, hj⟩ := hK
  have hb : Builds K _ := .leaf (.constant hK)
  obtain ⟨s, hs⟩ := (C28_succeeds hb hn).1 false (.constant hK) hts
  refine ⟨K, s, hK, hs, ?_⟩
  rw [C28_output_law hb hj hs]
  congr 1; funext t t'; ext i j; fin_cases i; fin_cases j; rfl

/-- C28: constructors of the basic kernels raise exactly for invalid hyperparameters. -/
theorem C28_constructors (l v p dec dif j : ℝ) :
    ((∃ K, matern12 o l v j = .ok K) ↔ 0 ≤ j ∧ 0 < l ∧ 0 < v) ∧
    ((∃ K, matern32 o l v j = .ok K) ↔ 0 ≤ j ∧ 0 < l ∧ 0 < v) ∧
    ((∃ K, matern52 o l v j = .ok K) ↔ 0 ≤ j ∧ 0 < l ∧ 0 < v) ∧
    ((∃ K, ornsteinUhlenbeck o dec dif j = .ok K) ↔ 0 ≤ j ∧ 0 < dec ∧ 0 < dif) ∧
    ((∃ K, harmonicOscillator o v p j = .ok K) ↔ 0 ≤ j ∧ 0 < v ∧ 0 < p) ∧
    ((∃ K, constant o v j = .ok K) ↔ 0 ≤ j ∧ 0 < v) := by
  have key : ∀ {d : ℕ} (ps : List ℝ) (K : Stationary o d),
      (∃ K', kernelInit j ps K = .ok K') ↔ 0 ≤ j ∧ ∀ p ∈ ps, 0 < p := by
    intro d ps K
    constructor
    · rintro ⟨K', h⟩; exact ⟨(kernelInit_ok h).1, (kernelInit_ok h).2.1⟩
    · rintro ⟨h1, h2⟩
      refine ⟨K, ?_⟩
      unfold kernelInit
      rw [if_neg (not_not.2 h1), if_neg]
      rintro ⟨p, hp, hle⟩; exact absurd (h2 p hp) (not_lt.2 hle)
  refine ⟨(key _ _).trans ?_, (key _ _).trans ?_, (key _ _).trans ?_, (key _ _).trans ?_,
    (key _ _).trans ?_, (key _ _).trans ?_⟩ <;> simp

/-- C28: dropping time points changes nothing. If the times `ts'` are among the times `ts`, the outputs
of the model built for `ts'` have the law of the corresponding outputs of the model built for `ts`. -/
theorem C28_restriction {m : ℕ} {K : Stationary o d} {k} (h : Builds K k) (hj : K.jitter = 0)
    {ts : Fin (n + 1) → ℝ} {ts' : Fin (m + 1) → ℝ} (f : Fin (m + 1) → Fin (n + 1))
    (hf : ∀ i, ts' i = ts (f i)) {s : SSM n d} {s' : SSM m d}
    (hs : K.stateSpaceModel ts = .ok s) (hs' : K.stateSpaceModel ts' = .ok s') :
    outputLaw s'.mu0 s'.cholP0 s'.A s'.b s'.cholQ (fun i => K.emission (ts' i)) =
      (outputLaw s.mu0 s.cholP0 s.A s.b s.cholQ (fun i => K.emission (ts i))).map
        (fun x p => x (f p.1, p.2)) := by
  rw [C28_output_law h hj hs, C28_output_law h hj hs']
  have hpsd : (ofBlk fun i j => k (ts i) (ts j)).PosSemidef := by
    have h1 := outputLaw_eq s (fun i => K.emission (ts i))
    obtain ⟨hc, hr, hd⟩ := Builds.good h
    have h2 : (ofBlk fun i j => k (ts i) (ts j)) = obsMatrix (fun i => K.emission (ts i)) id * s.Kd *
        (obsMatrix (fun i => K.emission (ts i)) id)ᵀ := by
      refine blk_ext fun i j => ?_
      rw [blk_obsMatrix_conj]
      show k (ts i) (ts j) = _
      have hp := hc.isProcess hr hj
      obtain ⟨hdiag, hcross⟩ := hp.Kd hs
      have hmono := (hp.ssm hs).1
      rcases lt_trichotomy i j with hij | rfl | hij
      · have hT : blk s.Kd i j = (blk s.Kd j i)ᵀ := by
          have h2 : s.Kdᵀ = s.Kd := s.Kd_isJointCov.symm
          conv_lhs => rw [← h2]
          rfl
        rw [hT, hcross j i hij, ← hd.symm, ← hd.cov (ts j) (ts i) (hmono hij.le), transpose_mul,
          transpose_mul, transpose_mul, transpose_mul, transpose_transpose]
        simp only [Matrix.mul_assoc]
      · rw [hdiag, ← hd.cov (ts i) (ts i) le_rfl, sub_self, hc.zero, Matrix.mul_one]
      · rw [hcross i j hij, ← hd.cov (ts i) (ts j) (hmono hij.le)]
        simp only [Matrix.mul_assoc]
    rw [h2]
    have := s.Kd_posSemidef.mul_mul_conjTranspose_same (obsMatrix (fun i => K.emission (ts i)) id)
    rwa [conjTranspose_eq_transpose_of_trivial] at this
  let G : Matrix (Fin (m + 1) × Fin o) (Fin (n + 1) × Fin o) ℝ :=
    Matrix.of fun p q => if q = (f p.1, p.2) then 1 else 0
  have hG : ∀ x : Fin (n + 1) × Fin o → ℝ, G *ᵥ x = fun p => x (f p.1, p.2) := by
    intro x; funext p
    simp [G, mulVec, dotProduct]
  have hmap : (fun (x : Fin (n + 1) × Fin o → ℝ) (p : Fin (m + 1) × Fin o) => x (f p.1, p.2)) =
      fun x => 0 + G *ᵥ x := by
    funext x; rw [zero_add, hG]
  rw [hmap, gpLaw_fin, gpLaw_fin, gaussLaw_map_affine hpsd]
  congr 1
  · rw [zero_add, hG]; rfl
  · ext p q
    rw [Matrix.mul_apply]
    simp only [transpose_apply, Matrix.mul_apply, G, of_apply]
    simp [hf, ofBlk]

/-- C28: a state mean `m` set on a basic kernel shifts the outputs by `H m` and changes nothing else. -/
theorem C28_state_mean {K : Stationary o d} {k} (h : Leaf K k) (hj : K.jitter = 0) (m : Vec d)
    {ts : Fin (n + 1) → ℝ} {s : SSM n d} (hs : (K.setStateMean m).stateSpaceModel ts = .ok s) :
    outputLaw s.mu0 s.cholP0 s.A s.b s.cholQ (fun i => K.emission (ts i)) =
      gpLaw (fun t => K.emission t *ᵥ m) (iso k) ts := by
  obtain ⟨hc, hr, hd, -⟩ := Leaf.good h
  have hp := hc.isProcess hr hj
  have hp' : (K.setStateMean m).IsProcess (K.stateTransitions 0) K.Pinf m :=
    ⟨hp.trans, hp.noise, hp.init, hp.symm, hp.add, rfl, fun t δ _ => by
      show statOffsets K.stateTransitions m t δ = _
      rw [statOffsets, neg_mulVec, sub_mulVec, one_mulVec, hc.time t]; abel, hp.emis⟩
  have h1 := hp'.outputLaw hs
  have h2 : procCov (K.setStateMean m).emission (K.stateTransitions 0) K.Pinf = iso k := hd.procCov
  rw [h2] at h1
  exact h1

/-! ## C29 -/

/-- C29: `k1 + k2` has the sum of the covariance functions. -/
theorem C29_add {d₁ d₂ : ℕ} {K₁ : Stationary o d₁} {K₂ : Stationary o d₂} {k₁ k₂} (h₁ : Builds K₁ k₁)
    (h₂ : Builds K₂ k₂) : ∃ K, SDEKernel.add K₁ K₂ = .ok K ∧ K.jitter = 0 ∧
      Builds K (fun t t' => k₁ t t' + k₂ t t') ∧
      ∀ {n : ℕ} {ts : Fin (n + 1) → ℝ} {s}, K.stateSpaceModel ts = .ok s →
        outputLaw s.mu0 s.cholP0 s.A s.b s.cholQ (fun i => K.emission (ts i)) =
          gpLaw (fun _ => 0) (fun t t' => k₁ t t' + k₂ t t') ts := by
  have hK : ∃ K, SDEKernel.add K₁ K₂ = .ok K ∧ K.jitter = 0 :=
    ⟨_, by unfold SDEKernel.add sumKernel combineInit; rw [if_neg (by simp), if_neg (by simp)], rfl⟩
  obtain ⟨K, hK, hj⟩ := hK
  have hb : Builds K (fun t t' => k₁ t t' + k₂ t t') := by
    have := Builds.sum (ks := [⟨d₁, K₁⟩, ⟨d₂, K₂⟩]) (c := fun a : Fin 2 => ![k₁, k₂] a) (by
      intro a
      match a with
      | ⟨0, _⟩ => exact h₁
      | ⟨1, _⟩ => exact h₂) hK
    convert this using 3
    exact (Fin.sum_univ_two (fun a : Fin 2 => (![k₁, k₂] a) _ _)).symm
  exact ⟨K, hK, hj, hb, fun hs => C28_output_law hb hj hs⟩

/-- C29: `k1 * k2` has the product of the covariance functions. -/
theorem C29_mul {d₁ d₂ : ℕ} {K₁ : Stationary 1 d₁} {K₂ : Stationary 1 d₂} {k₁ k₂} (h₁ : Builds K₁ k₁)
    (h₂ : Builds K₂ k₂) : ∃ K, SDEKernel.mul K₁ K₂ = .ok K ∧ K.jitter = 0 ∧
      Builds K (fun t t' => Matrix.of fun _ _ => k₁ t t' 0 0 * k₂ t t' 0 0) ∧
      ∀ {n : ℕ} {ts : Fin (n + 1) → ℝ} {s}, K.stateSpaceModel ts = .ok s →
        outputLaw s.mu0 s.cholP0 s.A s.b s.cholQ (fun i => K.emission (ts i)) =
          gpLaw (fun _ => 0) (fun t t' => Matrix.of fun _ _ => k₁ t t' 0 0 * k₂ t t' 0 0) ts := by
  have hK : ∃ K, SDEKernel.mul K₁ K₂ = .ok K ∧ K.jitter = 0 :=
    ⟨_, by unfold SDEKernel.mul productKernel combineInit; rw [if_neg (by simp), if_neg (by simp)], rfl⟩
  obtain ⟨K, hK, hj⟩ := hK
  have hb : Builds K (fun t t' => Matrix.of fun _ _ => k₁ t t' 0 0 * k₂ t t' 0 0) := by
    have := Builds.prod (ks := [⟨d₁, K₁⟩, ⟨d₂, K₂⟩]) (c := fun a : Fin 2 => ![k₁, k₂] a) (by
      intro a
      match a with
      | ⟨0, _⟩ => exact h₁
      | ⟨1, _⟩ => exact h₂) hK
    convert this using 5
    funext _
    exact (Fin.prod_univ_two (fun a : Fin 2 => (![k₁, k₂] a) _ _ 0 0)).symm
  exact ⟨K, hK, hj, hb, fun hs => C28_output_law hb hj hs⟩

/-- C29: `Sum` over any list of kernel expressions. -/
theorem C29_sum {ks : List (Σ d, Stationary o d)} {c : Fin ks.length → ℝ → ℝ → Mat o o} {K}
    (hc : ∀ a, Builds (ks.get a).2 (c a)) (h : sumKernel ks 0 = .ok K) {ts : Fin (n + 1) → ℝ} {s}
    (hs : K.stateSpaceModel ts = .ok s) :
    outputLaw s.mu0 s.cholP0 s.A s.b s.cholQ (fun i => K.emission (ts i)) =
      gpLaw (fun _ => 0) (fun t t' => ∑ a, c a t t') ts := by
  have hj : K.jitter = 0 := by obtain ⟨-, -, rfl⟩ := combineInit_ok h; rfl
  exact C28_output_law (.sum hc h) hj hs

/-- C29: `Product` over any list of kernel expressions. -/
theorem C29_product {ks : List (Σ d, Stationary 1 d)} {c : Fin ks.length → ℝ → ℝ → Mat 1 1} {K}
    (hc : ∀ a, Builds (ks.get a).2 (c a)) (h : productKernel ks 0 = .ok K) {ts : Fin (n + 1) → ℝ} {s}
    (hs : K.stateSpaceModel ts = .ok s) :
    outputLaw s.mu0 s.cholP0 s.A s.b s.cholQ (fun i => K.emission (ts i)) =
      gpLaw (fun _ => 0) (fun t t' => Matrix.of fun _ _ => ∏ a, c a t t' 0 0) ts := by
  have hj : K.jitter = 0 := by obtain ⟨-, -, rfl⟩ := combineInit_ok h; rfl
  exact C28_output_law (.prod hc h) hj hs

/-- C29: `IndependentMultiOutput`: block diagonal covariance. -/
theorem C29_independent {ks : List (Σ d, Stationary o d)} {c : Fin ks.length → ℝ → ℝ → Mat o o} {K}
    (hc : ∀ a, Builds (ks.get a).2 (c a)) (h : independentMultiOutput ks 0 = .ok K)
    {ts : Fin (n + 1) → ℝ} {s} (hs : K.stateSpaceModel ts = .ok s) :
    outputLaw s.mu0 s.cholP0 s.A s.b s.cholQ (fun i => K.emission (ts i)) =
      gpLaw (fun _ => 0) (independent c) ts := by
  have hj : K.jitter = 0 := by obtain ⟨-, -, rfl⟩ := combineInit_ok h; rfl
  exact C28_output_law (.multi hc h) hj hs

/-- C29: `FactorAnalysisKernel`: outputs are `W(t) B g(t)` for independent components `g`. -/
theorem C29_factor_analysis {ks : List (Σ d, Stationary o d)} {c : Fin ks.length → ℝ → ℝ → Mat o o}
    {W : ℝ → Mat o' (ks.length * o)} {B : Mat (ks.length * o) (ks.length * o)} {K}
    (hc : ∀ a, Builds (ks.get a).2 (c a)) (h : factorAnalysis ks W B 0 = .ok K)
    {ts : Fin (n + 1) → ℝ} {s} (hs : K.stateSpaceModel ts = .ok s) :
    outputLaw s.mu0 s.cholP0 s.A s.b s.cholQ (fun i => K.emission (ts i)) =
      gpLaw (fun _ => 0) (fun t t' => (W t * B) * independent c t t' * (W t' * B)ᵀ) ts := by
  have hj : K.jitter = 0 := by obtain ⟨-, -, rfl⟩ := combineInit_ok h; rfl
  exact C28_output_law (.factor hc h) hj hs

theorem augment_mul {e : ℕ} (M N : Mat d d) (a b : Bool) :
    augmentSquareMatrix M e a * augmentSquareMatrix N e b =
      augmentSquareMatrix (M * N) e (a || b) := by
  unfold augmentSquareMatrix
  rw [submatrix_mul_equiv, fromBlocks_multiply]
  cases a <;> cases b <;> simp

theorem augment_transpose {e : ℕ} (M : Mat d d) (a : Bool) :
    (augmentSquareMatrix M e a)ᵀ = augmentSquareMatrix Mᵀ e a := by
  unfold augmentSquareMatrix
  rw [transpose_submatrix, fromBlocks_transpose]
  cases a <;> simp

theorem augmentMatrix_mul {e : ℕ} (H : Mat o d) (M : Mat d d) (a : Bool) :
    augmentMatrix H e * augmentSquareMatrix M e a = augmentMatrix (H * M) e := by
  unfold augmentMatrix augmentSquareMatrix
  rw [submatrix_mul_equiv, fromCols_mul_fromBlocks]
  simp

theorem augmentMatrix_mul_transpose {e : ℕ} (H H' : Mat o d) :
    augmentMatrix H e * (augmentMatrix H' e)ᵀ = H * H'ᵀ := by
  unfold augmentMatrix
  rw [transpose_submatrix, submatrix_mul_equiv, transpose_fromCols, fromCols_mul_fromRows]
  simp

theorem augment_sub {e : ℕ} (M N : Mat d d) :
    augmentSquareMatrix M e - augmentSquareMatrix N e true = augmentSquareMatrix (M - N) e := by
  unfold augmentSquareMatrix
  ext i j
  simp only [Matrix.sub_apply, submatrix_apply]
  rcases finSumFinEquiv.symm i with a | a <;> rcases finSumFinEquiv.symm j with b | b <;> simp

/-- C29: every child of an `IndependentMultiOutputStack` keeps its own output law; the padding to the
common state dimension is invisible. -/
theorem C29_stack {K : Stationary 1 d} {k} (h : Builds K k) (extra : ℕ)
    {ts : Fin (n + 1) → ℝ} {s} (hs : (stackSlice K extra 0).stateSpaceModel ts = .ok s) :
    outputLaw s.mu0 s.cholP0 s.A s.b s.cholQ (fun i => (stackSlice K extra 0).emission (ts i)) =
      gpLaw (fun _ => 0) k ts := by
  obtain ⟨hc, hr, hd⟩ := Builds.good h
  have hsym : K.Pinfᵀ = K.Pinf := by
    have := hc.psd.isHermitian
    rwa [IsHermitian, conjTranspose_eq_transpose_of_trivial] at this
  have hp : (stackSlice K extra 0).IsProcess
      (fun δ => augmentSquareMatrix (K.stateTransitions 0 δ) extra true)
      (augmentSquareMatrix K.Pinf extra) 0 := by
    refine ⟨fun t δ _ => ?_, fun t δ _ => ?_, ?_, ?_, fun s t _ _ => ?_, rfl, fun t δ _ => ?_, fun t => ?_⟩
    · simp only [stackSlice, Stationary.base]; rw [hc.time]
    · simp only [stackSlice, Stationary.base, statTransitionNoise, jitterMatrix_zero, add_zero]
      rw [hc.time]
    · simp only [stackSlice, Stationary.base, Stationary.initialCovariance, jitterMatrix_zero, add_zero]
    · rw [augment_transpose, hsym]
    · rw [augment_mul, hc.add]; rfl
    · simp only [stackSlice, hr.offs, mulVec_zero, sub_zero]
      funext i
      simp only [augmentVec, Function.comp]
      rcases finSumFinEquiv.symm i with a | a <;> rfl
    · simp only [stackSlice, Stationary.base]
      rw [augmentMatrix_mul, hc.zero, Matrix.mul_one]
  have h1 := hp.outputLaw hs
  have h2 : procCov (stackSlice K extra 0).emission
      (fun δ => augmentSquareMatrix (K.stateTransitions 0 δ) extra true)
      (augmentSquareMatrix K.Pinf extra) = k := by
    rw [← hd.procCov]
    funext t t'
    simp only [procCov, stackSlice, Stationary.base, augmentMatrix_mul, augmentMatrix_mul_transpose]
  rw [h2] at h1
  simpa using h1

/-- Finding: `Sum` (and the other concatenations) start at the children's state means but do not use
their state offsets, so a child with a non-zero state mean is not stationary inside a `Sum`: here the
child's mean output is the constant `1`, while inside the sum it decays to `exp(-1)` at time one. -/
theorem C29_sum_loses_state_mean : ∃ (C : Stationary 1 1) (K : Stationary 1 1) (S : Stationary 1 _),
    matern12 1 1 1 0 = .ok C ∧ K = C.setStateMean ![1] ∧
    K.stateTransitions 0 1 *ᵥ K.initialMean + K.stateOffsets 0 1 = ![1] ∧
    sumKernel [⟨1, K⟩] 0 = .ok S ∧
    S.stateTransitions 0 1 *ᵥ S.initialMean + S.stateOffsets 0 1 = fun _ => Real.exp (-1) := by
  have h1 : matern12 1 1 1 0 = .ok (Stationary.base (fun _ δ => !![Real.exp (-δ / 1)]) !![-1 / 1] !![1] 0 0
      (fun _ => sdeEmission 1 1)) := by
    unfold matern12 kernelInit; rw [if_neg (by simp), if_neg (by simp)]
  refine ⟨_, _, _, h1, rfl, (C27_state_mean_invariant _ _ _).2, by
    unfold sumKernel combineInit; rw [if_neg (by simp), if_neg (by simp)], ?_⟩
  funext i
  have h0 : ∀ i : Fin 1, i = 0 := fun i => Subsingleton.elim _ _
  have hoff : (concatKernel (o' := 1) [(⟨1, (Stationary.base (fun _ δ => !![Real.exp (-δ / 1)]) !![-1 / 1] !![1] 0 0
      (fun _ => sdeEmission 1 1)).setStateMean ![1]⟩ : Σ d, Stationary 1 d)] 0
      fun t => concatCols (fun _ k => k.emission t) _).stateOffsets 0 1 = 0 := by
    simp [concatKernel, Stationary.base, statOffsets]
    exact mulVec_zero _
  rw [hoff, add_zero]
  have hm : ∀ (ks : List (Σ d, Stationary 1 d)) (H : ℝ → Mat 1 (sumDim ks)),
      (concatKernel ks 0 H).stateTransitions 0 1 *ᵥ (concatKernel ks 0 H).initialMean =
        concatVec (fun _ k => k.stateTransitions 0 1 *ᵥ k.initialMean) ks :=
    fun ks H => blockDiag_mulVec
  rw [hm]
  simp only [concatVec, Function.comp]
  rcases splitSum _ _ i with a | a
  · simp only [Sum.elim_inl, Stationary.setStateMean, Stationary.base]
    obtain rfl := h0 a
    simp [vecHead]
    rfl
  · exact a.elim0

/-- Non-vacuity: a quasi-periodic kernel `Matern32 * HarmonicOscillator + Matern12` at strictly
increasing times. -/
example {ts : Fin 5 → ℝ} (hts : StrictMono ts) :
    ∃ (K₁ : Stationary 1 2) (K₂ : Stationary 1 2) (K₃ : Stationary 1 1) (P : Stationary 1 _)
      (S : Stationary 1 _) (s : SSM 4 _),
      matern32 1 2 3 0 = .ok K₁ ∧ harmonicOscillator 1 1 7 0 = .ok K₂ ∧ matern12 1 1 1 0 = .ok K₃ ∧
      SDEKernel.mul K₁ K₂ = .ok P ∧ SDEKernel.add P K₃ = .ok S ∧ S.stateSpaceModel ts = .ok s ∧
      outputLaw s.mu0 s.cholP0 s.A s.b s.cholQ (fun i => S.emission (ts i)) =
        gpLaw (fun _ => 0) (fun t t' => Matrix.of fun _ _ =>
          matern32Cov 2 3 |t - t'| * cosineCov 1 7 |t - t'| + matern12Cov 1 1 |t - t'|) ts := by
  obtain ⟨K₁, h1⟩ := (C28_constructors (o := 1) 2 3 1 1 1 0).2.1.2 (by norm_num)
  obtain ⟨K₂, h2⟩ := (C28_constructors (o := 1) 2 1 7 1 1 0).2.2.2.2.1.2 (by norm_num)
  obtain ⟨K₃, h3⟩ := (C28_constructors (o := 1) 1 1 1 1 1 0).1.2 (by norm_num)
  obtain ⟨P, hP, hPj, hPb, -⟩ := C29_mul (.leaf (.matern32 h1)) (.leaf (.periodic h2))
  obtain ⟨S, hS, hSj, hSb, hSl⟩ := C29_add hPb (.leaf (.matern12 h3))
  have tP : NoiseTag P true := by
    have := NoiseTag.prod (ks := [⟨2, K₁⟩, ⟨2, K₂⟩]) (bs := ![true, false]) (by
      intro a
      match a with
      | ⟨0, _⟩ => exact NoiseTag.matern32 h1
      | ⟨1, _⟩ => exact NoiseTag.periodic h2) hP
    have hb : decide (∃ a : Fin [(⟨2, K₁⟩ : Σ d, Stationary 1 d), ⟨2, K₂⟩].length,
        (![true, false] : Fin 2 → Bool) a = true) = true := decide_eq_true ⟨(0 : Fin 2), rfl⟩
    rwa [hb] at this
  have tS : NoiseTag S true := NoiseTag.sum (ks := [⟨_, P⟩, ⟨1, K₃⟩]) (by
    intro a
    match a with
    | ⟨0, _⟩ => exact tP
    | ⟨1, _⟩ => exact NoiseTag.matern12 h3) hS
  obtain ⟨s, hs⟩ := (C28_succeeds hSb (by norm_num)).1 true tS hts
  refine ⟨K₁, K₂, K₃, P, S, s, h1, h2, h3, hP, hS, hs, ?_⟩
  rw [hSl hs]
  congr 1

end MF
