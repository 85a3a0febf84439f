import Verif.Spec.KernelTree
import Verif.Lemmas.KernelLaw
import Verif.Lemmas.ListMat
import Verif.Lemmas.LeafKernels
import Verif.Lemmas.Expm

/-! # Kernel expressions denote their covariance functions -/

namespace MF
open Matrix Spec
variable {o o' d : ℕ}

/-- Transitions depend on the time difference only and form a one-parameter group. -/
structure Core (K : Stationary o d) : Prop where
  time : ∀ t δ, K.stateTransitions t δ = K.stateTransitions 0 δ
  zero : K.stateTransitions 0 0 = 1
  add : ∀ s t, K.stateTransitions 0 (s + t) = K.stateTransitions 0 s * K.stateTransitions 0 t
  psd : K.Pinf.PosSemidef
  contr : ∀ δ, 0 ≤ δ → (K.Pinf - K.stateTransitions 0 δ * K.Pinf * (K.stateTransitions 0 δ)ᵀ).PosSemidef
  pos : 0 < d

/-- The inherited parts. -/
structure Regular (K : Stationary o d) : Prop where
  noise : ∀ t δ, 0 ≤ δ → K.transitionNoise t δ =
    (K.Pinf - K.stateTransitions 0 δ * K.Pinf * (K.stateTransitions 0 δ)ᵀ) + jitterMatrix d K.jitter
  proc : ∀ t δ, 0 ≤ δ → ∃ ε, 0 ≤ ε ∧ ε ≤ K.jitter ∧ K.processCov t δ =
    (K.Pinf - K.stateTransitions 0 δ * K.Pinf * (K.stateTransitions 0 δ)ᵀ) + jitterMatrix d ε
  jit : 0 ≤ K.jitter
  mean : K.initialMean = 0
  offs : ∀ t δ, K.stateOffsets t δ = 0

/-- The kernel denotes the covariance function `k`. -/
structure Denotes (K : Stationary o d) (k : ℝ → ℝ → Mat o o) : Prop where
  cov : ∀ t t', t' ≤ t →
    K.emission t * K.stateTransitions 0 (t - t') * K.Pinf * (K.emission t')ᵀ = k t t'
  symm : ∀ t t', (k t t')ᵀ = k t' t

structure Noisy (K : Stationary o d) (b : Bool) : Prop where
  pd : K.Pinf.PosDef
  strict : b = true → ∀ δ, 0 < δ →
    (K.Pinf - K.stateTransitions 0 δ * K.Pinf * (K.stateTransitions 0 δ)ᵀ).PosDef
  zero : b = false → ∀ δ, 0 ≤ δ →
    K.Pinf - K.stateTransitions 0 δ * K.Pinf * (K.stateTransitions 0 δ)ᵀ = 0

theorem jitterMatrix_eq (d : ℕ) (ε : ℝ) : jitterMatrix d ε = ε • (1 : Mat d d) := by
  ext i j; simp [jitterMatrix, mul_comm]

theorem posSemidef_jitter (d : ℕ) {ε : ℝ} (h : 0 ≤ ε) : (jitterMatrix d ε).PosSemidef := by
  rw [jitterMatrix_eq]; exact PosSemidef.one.smul h

theorem posDef_jitter (d : ℕ) {ε : ℝ} (h : 0 < ε) : (jitterMatrix d ε).PosDef := by
  rw [jitterMatrix_eq]; exact PosDef.one.smul h

theorem jitterMatrix_zero (d : ℕ) : jitterMatrix d 0 = 0 := by rw [jitterMatrix_eq, zero_smul]

theorem Core.isProcess {K : Stationary o d} (h : Core K) (hr : Regular K) (hj : K.jitter = 0) :
    K.IsProcess (K.stateTransitions 0) K.Pinf 0 where
  trans t δ _ := h.time t δ
  noise t δ hδ := by rw [hr.noise t δ hδ, hj, jitterMatrix_zero, add_zero]
  init := by rw [Stationary.initialCovariance, hj, jitterMatrix_zero, add_zero]
  symm := by
    have := h.psd.isHermitian
    rwa [IsHermitian, conjTranspose_eq_transpose_of_trivial] at this
  add s t _ _ := h.add s t
  mean := hr.mean
  offs t δ _ := by rw [hr.offs]; simp
  emis t := by rw [h.zero, Matrix.mul_one]

theorem Denotes.procCov {K : Stationary o d} {k} (h : Denotes K k) :
    procCov K.emission (K.stateTransitions 0) K.Pinf = k := by
  funext t t'
  unfold MF.procCov
  split_ifs with hle
  · exact h.cov t t' hle
  · rw [h.cov t' t (not_le.1 hle).le, h.symm]

/-! ### constructor inversion -/

theorem kernelInit_ok {j : ℝ} {ps : List ℝ} {K K' : Stationary o d} (h : kernelInit j ps K = .ok K') :
    0 ≤ j ∧ (∀ p ∈ ps, 0 < p) ∧ K' = K := by
  unfold kernelInit at h
  split_ifs at h with h1 h2
  cases h
  refine ⟨h1, fun p hp => ?_, rfl⟩
  by_contra hc
  exact h2 ⟨p, hp, not_lt.1 hc⟩

theorem combineInit_ok {ks : List (Σ d, Stationary o d)} {j : ℝ} {K K' : Stationary o' d}
    (h : combineInit ks j K = .ok K') : ks ≠ [] ∧ 0 ≤ j ∧ K' = K := by
  unfold combineInit at h
  split_ifs at h with h1 h2
  cases h
  exact ⟨h1, h2, rfl⟩

/-! ### leaves -/

theorem posSemidef_of_zero {M : Mat d d} (h : M = 0) : M.PosSemidef := h ▸ PosSemidef.zero
theorem eq_add_of_zero {M : Mat d d} (h : M = 0) (J : Mat d d) : J = M + J := by rw [h, zero_add]


theorem regular_base (A : ℝ → ℝ → Mat d d) (F P : Mat d d) {j : ℝ} (hj : 0 ≤ j) (H : ℝ → Mat o d)
    (hA : ∀ t δ, A t δ = A 0 δ) : Regular (Stationary.base A F P j 0 H) where
  noise t δ _ := by
    show statTransitionNoise A P j t δ = _
    simp only [statTransitionNoise, Stationary.base]; rw [hA t δ]
  proc t δ _ := ⟨j, hj, le_rfl, by
    show statTransitionNoise A P j t δ = _
    simp only [statTransitionNoise, Stationary.base]; rw [hA t δ]⟩
  jit := hj
  mean := rfl
  offs t δ := by show statOffsets A 0 t δ = 0; simp [statOffsets]

theorem core_of_sde {K : Stationary o d} {F : Mat d d} (hd : 0 < d)
    (ht : ∀ t δ, K.stateTransitions t δ = K.stateTransitions 0 δ)
    (h : SolvesSDE F (K.stateTransitions 0)) (hP : K.Pinf.PosSemidef)
    (hW : (-(F * K.Pinf + K.Pinf * Fᵀ)).PosSemidef) : Core K where
  time := ht
  zero := h.zero
  add := h.add
  psd := hP
  contr δ hδ := by
    have := hP.isHermitian
    rw [IsHermitian, conjTranspose_eq_transpose_of_trivial] at this
    exact h.noise_posSemidef this hW hδ
  pos := hd

theorem sdeEmission_cov (M : Mat (d + 1) (d + 1)) :
    sdeEmission o (d + 1) * M * (sdeEmission o (d + 1))ᵀ = Matrix.of fun _ _ => M 0 0 := by
  ext i j
  simp only [Matrix.mul_apply, sdeEmission, of_apply, transpose_apply]
  have h1 : ∀ x : Fin (d + 1), (if (x : ℕ) = 0 then (1 : ℝ) else 0) = if x = 0 then 1 else 0 := by
    intro x; simp only [Fin.ext_iff, Fin.val_zero]
  simp only [h1, ite_mul, mul_ite, one_mul, mul_one, zero_mul, mul_zero, Finset.sum_ite_eq',
    Finset.mem_univ, if_true]

theorem denotes_iso {K : Stationary o (d + 1)} {k : ℝ → ℝ}
    (hH : ∀ t, K.emission t = sdeEmission o (d + 1))
    (h : ∀ r, 0 ≤ r → (K.stateTransitions 0 r * K.Pinf) 0 0 = k r) : Denotes K (iso k) where
  cov t t' hle := by
    rw [hH, hH, Matrix.mul_assoc _ _ K.Pinf, sdeEmission_cov, h _ (sub_nonneg.2 hle), iso,
      abs_of_nonneg (sub_nonneg.2 hle)]
  symm t t' := by ext i j; simp only [iso, transpose_apply, of_apply]; rw [abs_sub_comm]

theorem leaf_matern12 {l v j : ℝ} {K : Stationary o 1} (h : matern12 o l v j = .ok K) :
    Core K ∧ Regular K ∧ Denotes K (iso (matern12Cov l v)) ∧ Noisy K true ∧
      SolvesSDE K.feedback (K.stateTransitions 0) := by
  obtain ⟨hj, hp, rfl⟩ := kernelInit_ok h
  have hl : 0 < l := hp l (by simp)
  have hv : 0 < v := hp v (by simp)
  have hs : SolvesSDE (!![-1 / l] : Mat 1 1) (fun δ => !![Real.exp (-δ / l)]) :=
    solvesSDE_scalar _ _ fun t => by congr 1; field_simp
  have hW : (-((!![-1 / l] : Mat 1 1) * !![v] + !![v] * (!![-1 / l] : Mat 1 1)ᵀ)).PosSemidef := by
    have : (-((!![-1 / l] : Mat 1 1) * !![v] + !![v] * (!![-1 / l] : Mat 1 1)ᵀ)) = !![2 * v / l] := by
      ext i j; fin_cases i; fin_cases j
      simp only [Matrix.neg_apply, Matrix.add_apply, Matrix.mul_apply, transpose_apply,
        Finset.univ_unique, Finset.sum_singleton]
      simp; ring
    rw [this]; exact (posDef_scalar (by positivity)).posSemidef
  refine ⟨core_of_sde one_pos (fun _ _ => rfl) hs (posDef_scalar hv).posSemidef hW,
    regular_base _ _ _ hj _ fun _ _ => rfl, denotes_iso (fun _ => rfl) fun r _ => ?_, ?_, hs⟩
  · show ((!![Real.exp (-r / l)] : Mat 1 1) * !![v]) 0 0 = _
    simp [Matrix.mul_apply, matern12Cov, neg_div, mul_comm]
  · refine ⟨posDef_scalar hv, fun _ δ hδ => ?_, by simp⟩
    show ((!![v] : Mat 1 1) - !![Real.exp (-δ / l)] * !![v] * (!![Real.exp (-δ / l)])ᵀ).PosDef
    rw [noise_scalar]
    refine posDef_scalar (mul_pos hv ?_)
    have : Real.exp (-δ / l) < 1 := Real.exp_lt_one_iff.2 (div_neg_of_neg_of_pos (by linarith) hl)
    nlinarith [Real.exp_pos (-δ / l)]

theorem leaf_ou {dec dif j : ℝ} {K : Stationary o 1} (h : ornsteinUhlenbeck o dec dif j = .ok K) :
    Core K ∧ Regular K ∧ Denotes K (iso (ouCov dec dif)) ∧ Noisy K true ∧
      SolvesSDE K.feedback (K.stateTransitions 0) := by
  obtain ⟨hj, hp, rfl⟩ := kernelInit_ok h
  have hl : 0 < dec := hp dec (by simp)
  have hv' : 0 < dif := hp dif (by simp)
  have hv : 0 < 0.5 * dif / dec := by positivity
  have hs : SolvesSDE (!![-dec] : Mat 1 1) (fun δ => !![Real.exp (-δ * dec)]) :=
    solvesSDE_scalar _ _ fun t => by congr 1; ring
  have hW : (-((!![-dec] : Mat 1 1) * !![0.5 * dif / dec] +
      !![0.5 * dif / dec] * (!![-dec] : Mat 1 1)ᵀ)).PosSemidef := by
    have : (-((!![-dec] : Mat 1 1) * !![0.5 * dif / dec] +
      !![0.5 * dif / dec] * (!![-dec] : Mat 1 1)ᵀ)) = !![dif] := by
      ext i j; fin_cases i; fin_cases j
      simp only [Matrix.neg_apply, Matrix.add_apply, Matrix.mul_apply, transpose_apply,
        Finset.univ_unique, Finset.sum_singleton]
      simp; field_simp; ring
    rw [this]; exact (posDef_scalar hv').posSemidef
  refine ⟨core_of_sde one_pos (fun _ _ => rfl) hs (posDef_scalar hv).posSemidef hW,
    regular_base _ _ _ hj _ fun _ _ => rfl, denotes_iso (fun _ => rfl) fun r _ => ?_, ?_, hs⟩
  · show ((!![Real.exp (-r * dec)] : Mat 1 1) * !![0.5 * dif / dec]) 0 0 = _
    simp only [Matrix.mul_apply, Finset.univ_unique, Finset.sum_singleton, ouCov]
    simp only [Fin.default_eq_zero, Matrix.of_apply, Matrix.cons_val', Matrix.cons_val_zero,
      Matrix.cons_val_fin_one]
    rw [show -r * dec = -(dec * r) by ring]
    field_simp; norm_num
  · refine ⟨posDef_scalar hv, fun _ δ hδ => ?_, by simp⟩
    show ((!![0.5 * dif / dec] : Mat 1 1) -
      !![Real.exp (-δ * dec)] * !![0.5 * dif / dec] * (!![Real.exp (-δ * dec)])ᵀ).PosDef
    rw [noise_scalar]
    refine posDef_scalar (mul_pos hv ?_)
    have : Real.exp (-δ * dec) < 1 := Real.exp_lt_one_iff.2 (by nlinarith)
    nlinarith [Real.exp_pos (-δ * dec)]

theorem leaf_matern32 {l v j : ℝ} {K : Stationary o 2} (h : matern32 o l v j = .ok K) :
    Core K ∧ Regular K ∧ Denotes K (iso (matern32Cov l v)) ∧ Noisy K true ∧
      SolvesSDE K.feedback (K.stateTransitions 0) := by
  obtain ⟨hj, hp, rfl⟩ := kernelInit_ok h
  have hl : 0 < l := hp l (by simp)
  have hv : 0 < v := hp v (by simp)
  have hlam : 0 < Real.sqrt 3 / l := by positivity
  have hs := solvesSDE_32 (Real.sqrt 3 / l)
  have hW : (diagonal ![0, 4 * (Real.sqrt 3 / l) ^ 3 * v] : Mat 2 2).PosSemidef := by
    apply posSemidef_diag
    intro i; fin_cases i
    · simp
    · show 0 ≤ 4 * (Real.sqrt 3 / l) ^ 3 * v; positivity
  rw [← lyap32] at hW
  refine ⟨core_of_sde two_pos (fun _ _ => rfl) hs (posDef_pinf32 hlam hv).posSemidef hW,
    regular_base _ _ _ hj _ fun _ _ => rfl, denotes_iso (fun _ => rfl) fun r _ => ?_, ?_, hs⟩
  · show ((Real.exp (-(Real.sqrt 3 / l) * r) • (1 + r • (feedback32 (Real.sqrt 3 / l) +
      (Real.sqrt 3 / l) • (1 : Mat 2 2)))) * (v • !![1, 0; 0, (Real.sqrt 3 / l) ^ 2])) 0 0 = _
    rw [feedback32_add]
    simp [Matrix.mul_apply, Fin.sum_univ_two, matern32Cov]
    rw [show -(Real.sqrt 3 / l * r) = -(Real.sqrt 3 * r / l) by ring]
    ring
  · exact ⟨posDef_pinf32 hlam hv, fun _ δ hδ => noise32_posDef hlam hv hδ, by simp⟩

theorem leaf_matern52 {l v j : ℝ} {K : Stationary o 3} (h : matern52 o l v j = .ok K) :
    Core K ∧ Regular K ∧ Denotes K (iso (matern52Cov l v)) ∧ Noisy K true ∧
      SolvesSDE K.feedback (K.stateTransitions 0) := by
  obtain ⟨hj, hp, rfl⟩ := kernelInit_ok h
  have hl : 0 < l := hp l (by simp)
  have hv : 0 < v := hp v (by simp)
  have hlam : 0 < Real.sqrt 5 / l := by positivity
  have hs := solvesSDE_52 (Real.sqrt 5 / l)
  have hW : (diagonal ![0, 0, 16 / 3 * (Real.sqrt 5 / l) ^ 5 * v] : Mat 3 3).PosSemidef := by
    apply posSemidef_diag
    intro i; fin_cases i
    · simp
    · simp
    · show 0 ≤ 16 / 3 * (Real.sqrt 5 / l) ^ 5 * v; positivity
  rw [← lyap52] at hW
  refine ⟨core_of_sde three_pos (fun _ _ => rfl) hs (posDef_pinf52 hlam hv).posSemidef hW,
    regular_base _ _ _ hj _ fun _ _ => rfl, denotes_iso (fun _ => rfl) fun r _ => ?_, ?_, hs⟩
  · show ((Real.exp (-(Real.sqrt 5 / l) * r) • (1 + r • (feedback52 (Real.sqrt 5 / l) +
      (Real.sqrt 5 / l) • (1 : Mat 3 3)) + (1 / 2 : ℝ) • ((r • (feedback52 (Real.sqrt 5 / l) +
      (Real.sqrt 5 / l) • (1 : Mat 3 3))) * (r • (feedback52 (Real.sqrt 5 / l) +
      (Real.sqrt 5 / l) • (1 : Mat 3 3)))))) * (v • pinf52 (Real.sqrt 5 / l))) 0 0 = _
    rw [Matrix.smul_mul, Matrix.mul_smul, Matrix.smul_mul, Matrix.mul_smul, feedback52_sq, feedback52_add]
    simp [Matrix.mul_apply, Fin.sum_univ_three, matern52Cov, pinf52]
    have h5 : Real.sqrt 5 ^ 2 = 5 := Real.sq_sqrt (by norm_num)
    rw [show -(Real.sqrt 5 / l * r) = -(Real.sqrt 5 * r / l) by ring]
    have e : (5 : ℝ) * r ^ 2 / (3 * l ^ 2) = Real.sqrt 5 ^ 2 * r ^ 2 / (3 * l ^ 2) := by rw [h5]
    rw [e]
    field_simp
    ring
  · exact ⟨posDef_pinf52 hlam hv, fun _ δ hδ => noise52_posDef hlam hv hδ, by simp⟩

theorem leaf_periodic {v p j : ℝ} {K : Stationary o 2} (h : harmonicOscillator o v p j = .ok K) :
    Core K ∧ Regular K ∧ Denotes K (iso (cosineCov v p)) ∧ Noisy K false ∧
      SolvesSDE K.feedback (K.stateTransitions 0) := by
  obtain ⟨hj, hp, rfl⟩ := kernelInit_ok h
  have hv : 0 < v := hp v (by simp)
  have hp' : 0 < p := hp p (by simp)
  have hs := solvesSDE_rotation (2 * Real.pi / p)
  have hz := rotation_noise (2 * Real.pi / p) v
  refine ⟨⟨fun _ _ => rfl, hs.zero, hs.add, PosSemidef.one.smul hv.le, fun δ _ => ?_, two_pos⟩,
    ⟨fun t δ _ => rfl, fun t δ _ => ⟨j, hj, le_rfl, ?_⟩, hj, rfl, fun t δ => ?_⟩,
    denotes_iso (fun _ => rfl) fun r _ => ?_, ⟨PosDef.one.smul hv, by simp, fun _ δ _ => hz δ⟩, hs⟩
  · exact posSemidef_of_zero (hz δ)
  · exact eq_add_of_zero (hz δ) _
  · simp [Stationary.base, statOffsets]
  · show ((!![Real.cos (r * (2 * Real.pi / p)), -Real.sin (r * (2 * Real.pi / p));
      Real.sin (r * (2 * Real.pi / p)), Real.cos (r * (2 * Real.pi / p))] : Mat 2 2) * (v • 1)) 0 0 = _
    rw [Matrix.mul_smul, Matrix.mul_one]
    simp [cosineCov]
    left; congr 1; ring

theorem leaf_constant {v j : ℝ} {K : Stationary o 1} (h : constant o v j = .ok K) :
    Core K ∧ Regular K ∧ Denotes K (iso fun _ => v) ∧ Noisy K false ∧
      SolvesSDE K.feedback (K.stateTransitions 0) := by
  obtain ⟨hj, hp, rfl⟩ := kernelInit_ok h
  have hv : 0 < v := hp v (by simp)
  have hs := solvesSDE_const
  have hz : ((!![1 * v] : Mat 1 1) - !![1] * !![1 * v] * (!![1])ᵀ) = 0 := by
    rw [noise_scalar]; ext i j; fin_cases i; fin_cases j; simp
  refine ⟨⟨fun _ _ => rfl, hs.zero, hs.add, (posDef_scalar (by linarith)).posSemidef, fun δ _ => ?_, one_pos⟩,
    ⟨fun t δ _ => ?_, fun t δ _ => ⟨j, hj, le_rfl, ?_⟩, hj, rfl, fun t δ => ?_⟩,
    denotes_iso (fun _ => rfl) fun r _ => ?_,
    ⟨posDef_scalar (by linarith), by simp, fun _ δ _ => hz⟩, hs⟩
  · exact posSemidef_of_zero hz
  · exact (zero_add _).trans (eq_add_of_zero hz _)
  · exact (zero_add _).trans (eq_add_of_zero hz _)
  · simp [Stationary.base, statOffsets]
  · show ((!![1] : Mat 1 1) * !![1 * v]) 0 0 = v
    simp [Matrix.mul_apply]

theorem leg_lyap {d : ℕ} (N R : Mat d d) :
    -(legFeedback N R * (1 : Mat d d) + 1 * (legFeedback N R)ᵀ) = N * Nᵀ := by
  rw [Matrix.mul_one, Matrix.one_mul, legFeedback, transpose_smul, transpose_neg, transpose_sub,
    transpose_add, transpose_mul, transpose_transpose, transpose_transpose]
  ext i j
  simp only [Matrix.neg_apply, Matrix.add_apply, Matrix.smul_apply, Matrix.sub_apply, smul_eq_mul]
  ring

theorem leaf_leg {e : ℕ} {N R : Mat (e + 1) (e + 1)} {j : ℝ} {K} (h : leg N R j = .ok K) :
    Core K ∧ Regular K ∧
      Denotes K (iso fun r => NormedSpace.exp (r • ((1 / 2 : ℝ) • (-(N * Nᵀ + R - Rᵀ)))) 0 0) ∧
      (IsUnit N.det → Noisy K true) ∧ SolvesSDE K.feedback (K.stateTransitions 0) := by
  obtain ⟨hj, hp, rfl⟩ := kernelInit_ok h
  have hs := solvesSDE_exp (legFeedback N R)
  have hl := leg_lyap N R
  have hW : (-(legFeedback N R * (1 : Mat (e + 1) (e + 1)) + 1 * (legFeedback N R)ᵀ)).PosSemidef := by
    rw [hl]; exact posSemidef_mul_transpose N
  refine ⟨core_of_sde e.succ_pos (fun _ _ => rfl) hs PosSemidef.one hW,
    ⟨fun t δ _ => rfl, fun t δ _ => ⟨0, le_rfl, hj, ?_⟩, hj, rfl, fun t δ => ?_⟩,
    denotes_iso (fun _ => rfl) fun r _ => ?_, fun hN => ⟨PosDef.one, fun _ δ hδ => ?_, by simp⟩, hs⟩
  · rw [jitterMatrix_zero, add_zero]
    simp [Stationary.base]
  · simp [Stationary.base, statOffsets]
  · show ((NormedSpace.exp (r • legFeedback N R)) * 1) 0 0 = _
    rw [Matrix.mul_one]; rfl
  · refine hs.noise_posDef (by simp) hW hδ fun v hv => ?_
    have hm : δ / 2 ∈ Set.Ioo 0 δ := ⟨by linarith, by linarith⟩
    have h1 := hv _ hm
    rw [hl] at h1
    by_contra hne
    have hA : IsUnit (NormedSpace.exp ((δ / 2) • legFeedback N R)) := by
      refine IsUnit.of_mul_eq_one (NormedSpace.exp ((-(δ / 2)) • legFeedback N R)) ?_
      rw [← hs.add]; simp
    have hNu : IsUnit N := (Matrix.isUnit_iff_isUnit_det N).2 hN
    have hu : IsUnit (NormedSpace.exp ((δ / 2) • legFeedback N R) * N) := hA.mul hNu
    have hpd : ((NormedSpace.exp ((δ / 2) • legFeedback N R) * N) *
        (NormedSpace.exp ((δ / 2) • legFeedback N R) * N)ᵀ).PosDef := by
      have := PosDef.one (n := Fin (e + 1)) (R := ℝ)
      have h2 := (Matrix.IsUnit.posDef_star_right_conjugate_iff hu).2 this
      simpa [star_eq_conjTranspose, conjTranspose_eq_transpose_of_trivial] using h2
    have h3 := hpd.dotProduct_mulVec_pos hne
    rw [transpose_mul] at h3
    simp only [star_trivial] at h3
    rw [← Matrix.mul_assoc, Matrix.mul_assoc _ N] at h3
    linarith

/-! ### combinations -/

theorem core_concat {ks : List (Σ d, Stationary o d)} (hne : ks ≠ []) (hk : ∀ k ∈ ks, Core k.2) (j : ℝ)
    (H : ℝ → Mat o' (sumDim ks)) : Core (concatKernel ks j H) where
  time t δ := blockDiag_congr fun k hkm => (hk k hkm).time t δ
  zero := by
    show blockDiag _ ks = 1
    rw [← blockDiag_one (ks := ks)]
    exact blockDiag_congr fun k hkm => (hk k hkm).zero
  add s t := by
    show blockDiag _ ks = blockDiag _ ks * blockDiag _ ks
    rw [blockDiag_mul]
    exact blockDiag_congr fun k hkm => (hk k hkm).add s t
  psd := blockDiag_posSemidef fun k hkm => (hk k hkm).psd
  contr δ hδ := by
    show (blockDiag _ ks - blockDiag _ ks * blockDiag _ ks * (blockDiag _ ks)ᵀ).PosSemidef
    rw [blockDiag_transpose, blockDiag_mul, blockDiag_mul, blockDiag_sub]
    exact blockDiag_posSemidef fun k hkm => (hk k hkm).contr δ hδ
  pos := by
    obtain ⟨k, ks', rfl⟩ := List.exists_cons_of_ne_nil hne
    exact Nat.add_pos_left (hk k (by simp)).pos _

theorem regular_concat {ks : List (Σ d, Stationary o d)} (hk : ∀ k ∈ ks, Core k.2)
    (hr : ∀ k ∈ ks, Regular k.2) {j : ℝ} (hj : 0 ≤ j) (H : ℝ → Mat o' (sumDim ks)) :
    Regular (concatKernel ks j H) := by
  have := regular_base (o := o') (fun t δ => blockDiag (fun _ (k : Stationary o _) => k.stateTransitions t δ) ks)
    (blockDiag (fun _ k => k.feedback) ks) (blockDiag (fun _ k => k.Pinf) ks) hj H
    fun t δ => blockDiag_congr fun k hkm => (hk k hkm).time t δ
  exact ⟨this.noise, this.proc, this.jit, concatVec_zero fun k hkm => (hr k hkm).mean, this.offs⟩

theorem noisy_concat {ks : List (Σ d, Stationary o d)} {b : Bool} (hk : ∀ k ∈ ks, Noisy k.2 b) (j : ℝ)
    (H : ℝ → Mat o' (sumDim ks)) : Noisy (concatKernel ks j H) b where
  pd := blockDiag_posDef fun k hkm => (hk k hkm).pd
  strict hb δ hδ := by
    show (blockDiag _ ks - blockDiag _ ks * blockDiag _ ks * (blockDiag _ ks)ᵀ).PosDef
    rw [blockDiag_transpose, blockDiag_mul, blockDiag_mul, blockDiag_sub]
    exact blockDiag_posDef fun k hkm => (hk k hkm).strict hb δ hδ
  zero hb δ hδ := by
    show (blockDiag _ ks - blockDiag _ ks * blockDiag _ ks * (blockDiag _ ks)ᵀ) = 0
    rw [blockDiag_transpose, blockDiag_mul, blockDiag_mul, blockDiag_sub, ← blockDiag_zero (ks := ks)]
    exact blockDiag_congr fun k hkm => (hk k hkm).zero hb δ hδ

theorem denotes_sum {ks : List (Σ d, Stationary o d)} {c : Fin ks.length → ℝ → ℝ → Mat o o}
    (hd : ∀ a, Denotes (ks.get a).2 (c a)) (j : ℝ) :
    Denotes (concatKernel ks j fun t => concatCols (fun _ k => k.emission t) ks)
      (fun t t' => ∑ a, c a t t') where
  cov t t' hle := by
    show concatCols _ ks * blockDiag _ ks * blockDiag _ ks * (concatCols _ ks)ᵀ = _
    rw [concatCols_mul_blockDiag, concatCols_mul_blockDiag, concatCols_mul_transpose,
      ← Fin.sum_univ_fun_getElem]
    exact Finset.sum_congr rfl fun a _ => (hd a).cov t t' hle
  symm t t' := by
    rw [transpose_sum]
    exact Finset.sum_congr rfl fun a _ => (hd a).symm t t'

theorem independent_symm {N : ℕ} {c : Fin N → ℝ → ℝ → Mat o o}
    (h : ∀ a t t', (c a t t')ᵀ = c a t' t) (t t') : (independent c t t')ᵀ = independent c t' t := by
  ext i j
  simp only [independent, transpose_apply, of_apply]
  by_cases hab : (finProdFinEquiv.symm j).1 = (finProdFinEquiv.symm i).1
  · rw [if_pos hab, if_pos hab.symm, hab, ← h, transpose_apply]
  · rw [if_neg hab, if_neg fun h => hab h.symm]

theorem cov_multi {ks : List (Σ d, Stationary o d)} {c : Fin ks.length → ℝ → ℝ → Mat o o}
    (hd : ∀ a, Denotes (ks.get a).2 (c a)) {t t' : ℝ} (hle : t' ≤ t) :
    padConcatRows o (fun _ (k : Stationary o _) => k.emission t) ks *
      blockDiag (fun _ k => k.stateTransitions 0 (t - t')) ks * blockDiag (fun _ k => k.Pinf) ks *
      (padConcatRows o (fun _ k => k.emission t') ks)ᵀ = independent c t t' := by
  rw [padConcatRows_mul_blockDiag, padConcatRows_mul_blockDiag]
  ext i j
  obtain ⟨⟨a, r⟩, rfl⟩ := finProdFinEquiv.surjective i
  obtain ⟨⟨b, s⟩, rfl⟩ := finProdFinEquiv.surjective j
  rw [padConcatRows_mul_transpose]
  simp only [independent, of_apply, Equiv.symm_apply_apply]
  by_cases hab : a = b
  · subst hab
    rw [if_pos rfl, if_pos rfl, ← (hd a).cov t t' hle]
  · rw [if_neg hab, if_neg hab]

theorem denotes_multi {ks : List (Σ d, Stationary o d)} {c : Fin ks.length → ℝ → ℝ → Mat o o}
    (hd : ∀ a, Denotes (ks.get a).2 (c a)) (j : ℝ) :
    Denotes (concatKernel ks j fun t => padConcatRows o (fun _ k => k.emission t) ks)
      (independent c) where
  cov t t' hle := cov_multi hd hle
  symm t t' := independent_symm (fun a => (hd a).symm) t t'

theorem denotes_factor {ks : List (Σ d, Stationary o d)} {c : Fin ks.length → ℝ → ℝ → Mat o o}
    (hd : ∀ a, Denotes (ks.get a).2 (c a)) (j : ℝ) (W : ℝ → Mat o' (ks.length * o))
    (B : Mat (ks.length * o) (ks.length * o)) :
    Denotes (concatKernel ks j fun t =>
      composedEmission (N := 1) (fun _ => W t * B)
        (fun _ => padConcatRows o (fun _ (k : Stationary o _) => k.emission t) ks) 0)
      (fun t t' => (W t * B) * independent c t t' * (W t' * B)ᵀ) := by
  have hc : ∀ t, composedEmission (N := 1) (fun _ => W t * B)
        (fun _ => padConcatRows o (fun _ (k : Stationary o _) => k.emission t) ks) 0 =
      (W t * B) * padConcatRows o (fun _ (k : Stationary o _) => k.emission t) ks := by
    intro t; ext i k; rw [Matrix.mul_apply]; rfl
  refine ⟨fun t t' hle => ?_, fun t t' => ?_⟩
  · rw [← cov_multi hd hle]
    have he : ∀ t, (concatKernel ks j fun t =>
      composedEmission (N := 1) (fun _ => W t * B)
        (fun _ => padConcatRows o (fun _ (k : Stationary o _) => k.emission t) ks) 0).emission t =
        (W t * B) * padConcatRows o (fun _ (k : Stationary o _) => k.emission t) ks := hc
    rw [he, he, transpose_mul]
    simp only [concatKernel, Stationary.base]
    simp only [Matrix.mul_assoc]
  · rw [transpose_mul (W t * B * _), transpose_mul (W t * B), transpose_transpose,
      independent_symm fun a => (hd a).symm]
    simp only [Matrix.mul_assoc]

theorem prodDim_pos {α : ℕ → Type*} {ks : List (Σ d, α d)} (h : ∀ k ∈ ks, 0 < k.1) : 0 < prodDim ks := by
  induction ks with
  | nil => exact one_pos
  | cons k ks ih =>
    exact Nat.mul_pos (h k (by simp)) (ih fun k' hk => h k' (List.mem_cons_of_mem _ hk))

/-- The value of the `Product` constructor. -/
noncomputable def prodK (ks : List (Σ d, Stationary 1 d)) (jitter : ℝ) : Stationary 1 (prodDim ks) :=
  .base
      (fun t δ => kron (fun _ k => k.stateTransitions t δ) ks)
      (kron (fun _ k => k.feedback) ks)
      (kron (fun _ k => k.Pinf) ks) jitter 0 (fun t => kronRow (fun _ k => k.emission t) ks)

theorem core_prod {ks : List (Σ d, Stationary 1 d)} (hk : ∀ k ∈ ks, Core k.2) (j : ℝ) :
    Core (prodK ks j) where
  time t δ := kron_congr fun k hkm => (hk k hkm).time t δ
  zero := by
    show kron _ ks = 1
    rw [← kron_one (ks := ks)]
    exact kron_congr fun k hkm => (hk k hkm).zero
  add s t := by
    show kron _ ks = kron _ ks * kron _ ks
    rw [kron_mul]
    exact kron_congr fun k hkm => (hk k hkm).add s t
  psd := kron_posSemidef fun k hkm => (hk k hkm).psd
  contr δ hδ := by
    show (kron _ ks - kron _ ks * kron _ ks * (kron _ ks)ᵀ).PosSemidef
    rw [kron_transpose, kron_mul, kron_mul]
    refine kron_sub_posSemidef (fun k hkm => (hk k hkm).psd) (fun k hkm => ?_)
      fun k hkm => (hk k hkm).contr δ hδ
    have := (hk k hkm).psd.mul_mul_conjTranspose_same (k.2.stateTransitions 0 δ)
    rwa [conjTranspose_eq_transpose_of_trivial] at this
  pos := prodDim_pos fun k hkm => (hk k hkm).pos

theorem regular_prod {ks : List (Σ d, Stationary 1 d)} (hk : ∀ k ∈ ks, Core k.2) {j : ℝ} (hj : 0 ≤ j) :
    Regular (prodK ks j) :=
  regular_base _ _ _ hj _ fun t δ => kron_congr fun k hkm => (hk k hkm).time t δ

theorem Core.isUnit {K : Stationary o d} (h : Core K) (δ : ℝ) : IsUnit (K.stateTransitions 0 δ) := by
  refine IsUnit.of_mul_eq_one (K.stateTransitions 0 (-δ)) ?_
  rw [← h.add, add_neg_cancel, h.zero]

theorem Core.conj_posDef {K : Stationary o d} (h : Core K) (hP : K.Pinf.PosDef) (δ : ℝ) :
    (K.stateTransitions 0 δ * K.Pinf * (K.stateTransitions 0 δ)ᵀ).PosDef := by
  have h2 := (Matrix.IsUnit.posDef_star_right_conjugate_iff (h.isUnit δ)).2 hP
  rwa [star_eq_conjTranspose, conjTranspose_eq_transpose_of_trivial] at h2

theorem noisy_prod {ks : List (Σ d, Stationary 1 d)} (hk : ∀ k ∈ ks, Core k.2)
    {bs : Fin ks.length → Bool} (hn : ∀ a, Noisy (ks.get a).2 (bs a)) (j : ℝ) :
    Noisy (prodK ks j) (decide (∃ a, bs a = true)) := by
  have hpd : ∀ k ∈ ks, k.2.Pinf.PosDef := by
    intro k hkm
    obtain ⟨a, rfl⟩ := List.mem_iff_get.1 hkm
    exact (hn a).pd
  refine ⟨kron_posDef hpd, fun hb δ hδ => ?_, fun hb δ hδ => ?_⟩
  · show (kron _ ks - kron _ ks * kron _ ks * (kron _ ks)ᵀ).PosDef
    rw [kron_transpose, kron_mul, kron_mul]
    obtain ⟨a, ha⟩ := of_decide_eq_true hb
    exact kron_sub_posDef hpd (fun k hkm => (hk k hkm).conj_posDef (hpd k hkm) δ)
      (fun k hkm => (hk k hkm).contr δ hδ.le) ⟨ks.get a, List.get_mem ks a, (hn a).strict ha δ hδ⟩
  · show (kron _ ks - kron _ ks * kron _ ks * (kron _ ks)ᵀ) = 0
    rw [kron_transpose, kron_mul, kron_mul, sub_eq_zero]
    have hb' : ¬ ∃ a, bs a = true := of_decide_eq_false hb
    refine kron_congr fun k hkm => ?_
    obtain ⟨a, rfl⟩ := List.mem_iff_get.1 hkm
    have : bs a = false := by
      cases h : bs a
      · rfl
      · exact absurd ⟨a, h⟩ hb'
    exact sub_eq_zero.1 ((hn a).zero this δ hδ)

theorem denotes_prod {ks : List (Σ d, Stationary 1 d)} {c : Fin ks.length → ℝ → ℝ → Mat 1 1}
    (hd : ∀ a, Denotes (ks.get a).2 (c a)) (j : ℝ) :
    Denotes (prodK ks j) (fun t t' => Matrix.of fun _ _ => ∏ a, c a t t' 0 0) where
  cov t t' hle := by
    show kronRow _ ks * kron _ ks * kron _ ks * (kronRow _ ks)ᵀ = _
    rw [kronRow_mul_kron, kronRow_mul_kron]
    ext i j
    have hi : i = 0 := Subsingleton.elim _ _
    have hj : j = 0 := Subsingleton.elim _ _
    subst hi hj
    rw [kronRow_mul_transpose, ← Fin.prod_univ_fun_getElem, of_apply]
    refine Finset.prod_congr rfl fun a _ => ?_
    rw [← (hd a).cov t t' hle]; rfl
  symm t t' := by
    ext i j
    simp only [transpose_apply, of_apply]
    refine Finset.prod_congr rfl fun a _ => ?_
    rw [← (hd a).symm]; rfl

/-! ### expressions -/

theorem noise_cocycle {A : ℝ → Mat d d} {P : Mat d d} (h : ∀ s t, A (s + t) = A s * A t) (s t : ℝ) :
    P - A (s + t) * P * (A (s + t))ᵀ =
      A t * (P - A s * P * (A s)ᵀ) * (A t)ᵀ + (P - A t * P * (A t)ᵀ) := by
  rw [add_comm s t, h, transpose_mul, Matrix.mul_sub, Matrix.sub_mul]
  simp only [Matrix.mul_assoc]
  abel

theorem stateSpaceModel_ok {n : ℕ} {K : Stationary o d} (hd : 0 < d) (hn : 0 < n)
    {ts : Fin (n + 1) → ℝ} (hts : Monotone ts)
    (h0 : K.initialCovariance = 0 ∨ K.initialCovariance.PosDef)
    (h1 : ∀ k : Fin n, K.transitionNoise (ts k.castSucc) (ts k.succ - ts k.castSucc) = 0 ∨
      (K.transitionNoise (ts k.castSucc) (ts k.succ - ts k.castSucc)).PosDef) :
    ∃ s, K.stateSpaceModel ts = .ok s := by
  unfold Stationary.stateSpaceModel
  rw [toDeltaTime_of_mono hts]
  obtain ⟨c0, hc0, -⟩ := choleskyOrZero_ok hd h0
  obtain ⟨cs, hcs, -⟩ := choleskyOrZeros_ok hd h1
  refine ⟨⟨K.initialMean, c0, fun k => K.stateTransitions (ts k.castSucc) (ts k.succ - ts k.castSucc),
    fun k => K.stateOffsets (ts k.castSucc) (ts k.succ - ts k.castSucc), cs⟩, ?_⟩
  simp only [bind, Except.bind]
  unfold ssmFromCovariances
  rw [if_neg (by omega), hc0]
  simp only [bind, Except.bind, pure, Except.pure]
  rw [hcs]

theorem forall_get {ks : List (Σ d, Stationary o d)} {p : (Σ d, Stationary o d) → Prop}
    (h : ∀ a, p (ks.get a)) : ∀ k ∈ ks, p k := by
  intro k hk
  obtain ⟨a, rfl⟩ := List.mem_iff_get.1 hk
  exact h a

theorem Leaf.good {K : Stationary o d} {k} (h : Leaf K k) :
    Core K ∧ Regular K ∧ Denotes K (iso k) ∧ SolvesSDE K.feedback (K.stateTransitions 0) := by
  cases h with
  | matern12 h => have := leaf_matern12 h; exact ⟨this.1, this.2.1, this.2.2.1, this.2.2.2.2⟩
  | ou h => have := leaf_ou h; exact ⟨this.1, this.2.1, this.2.2.1, this.2.2.2.2⟩
  | matern32 h => have := leaf_matern32 h; exact ⟨this.1, this.2.1, this.2.2.1, this.2.2.2.2⟩
  | matern52 h => have := leaf_matern52 h; exact ⟨this.1, this.2.1, this.2.2.1, this.2.2.2.2⟩
  | periodic h => have := leaf_periodic h; exact ⟨this.1, this.2.1, this.2.2.1, this.2.2.2.2⟩
  | constant h => have := leaf_constant h; exact ⟨this.1, this.2.1, this.2.2.1, this.2.2.2.2⟩
  | leg h => have := leaf_leg h; exact ⟨this.1, this.2.1, this.2.2.1, this.2.2.2.2⟩

theorem Builds.good {K : Stationary o d} {k} (h : Builds K k) : Core K ∧ Regular K ∧ Denotes K k := by
  induction h with
  | leaf h => have := Leaf.good h; exact ⟨this.1, this.2.1, this.2.2.1⟩
  | sum hc h ih =>
    obtain ⟨hne, hj, rfl⟩ := combineInit_ok h
    exact ⟨core_concat hne (forall_get (p := fun k => Core k.2) fun a => (ih a).1) _ _,
      regular_concat (forall_get (p := fun k => Core k.2) fun a => (ih a).1)
        (forall_get (p := fun k => Regular k.2) fun a => (ih a).2.1) hj _,
      denotes_sum (fun a => (ih a).2.2) _⟩
  | multi hc h ih =>
    obtain ⟨hne, hj, rfl⟩ := combineInit_ok h
    exact ⟨core_concat hne (forall_get (p := fun k => Core k.2) fun a => (ih a).1) _ _,
      regular_concat (forall_get (p := fun k => Core k.2) fun a => (ih a).1)
        (forall_get (p := fun k => Regular k.2) fun a => (ih a).2.1) hj _,
      denotes_multi (fun a => (ih a).2.2) _⟩
  | factor hc h ih =>
    obtain ⟨hne, hj, rfl⟩ := combineInit_ok h
    exact ⟨core_concat hne (forall_get (p := fun k => Core k.2) fun a => (ih a).1) _ _,
      regular_concat (forall_get (p := fun k => Core k.2) fun a => (ih a).1)
        (forall_get (p := fun k => Regular k.2) fun a => (ih a).2.1) hj _,
      denotes_factor (fun a => (ih a).2.2) _ _ _⟩
  | prod hc h ih =>
    obtain ⟨hne, hj, rfl⟩ := combineInit_ok h
    exact ⟨core_prod (forall_get (p := fun k => Core k.2) fun a => (ih a).1) _,
      regular_prod (forall_get (p := fun k => Core k.2) fun a => (ih a).1) hj,
      denotes_prod (fun a => (ih a).2.2) _⟩

theorem NoiseTag.noisy {K : Stationary o d} {b} (h : NoiseTag K b) : Core K ∧ Noisy K b := by
  induction h with
  | matern12 h => have := leaf_matern12 h; exact ⟨this.1, this.2.2.2.1⟩
  | ou h => have := leaf_ou h; exact ⟨this.1, this.2.2.2.1⟩
  | matern32 h => have := leaf_matern32 h; exact ⟨this.1, this.2.2.2.1⟩
  | matern52 h => have := leaf_matern52 h; exact ⟨this.1, this.2.2.2.1⟩
  | periodic h => have := leaf_periodic h; exact ⟨this.1, this.2.2.2.1⟩
  | constant h => have := leaf_constant h; exact ⟨this.1, this.2.2.2.1⟩
  | leg hN h => have := leaf_leg h; exact ⟨this.1, this.2.2.2.1 hN⟩
  | sum hc h ih =>
    obtain ⟨hne, hj, rfl⟩ := combineInit_ok h
    exact ⟨core_concat hne (forall_get (p := fun k => Core k.2) fun a => (ih a).1) _ _,
      noisy_concat (forall_get (p := fun k => Noisy k.2 _) fun a => (ih a).2) _ _⟩
  | multi hc h ih =>
    obtain ⟨hne, hj, rfl⟩ := combineInit_ok h
    exact ⟨core_concat hne (forall_get (p := fun k => Core k.2) fun a => (ih a).1) _ _,
      noisy_concat (forall_get (p := fun k => Noisy k.2 _) fun a => (ih a).2) _ _⟩
  | factor hc h ih =>
    obtain ⟨hne, hj, rfl⟩ := combineInit_ok h
    exact ⟨core_concat hne (forall_get (p := fun k => Core k.2) fun a => (ih a).1) _ _,
      noisy_concat (forall_get (p := fun k => Noisy k.2 _) fun a => (ih a).2) _ _⟩
  | prod hc h ih =>
    obtain ⟨hne, hj, rfl⟩ := combineInit_ok h
    exact ⟨core_prod (forall_get (p := fun k => Core k.2) fun a => (ih a).1) _,
      noisy_prod (forall_get (p := fun k => Core k.2) fun a => (ih a).1) (fun a => (ih a).2) _⟩

end MF
