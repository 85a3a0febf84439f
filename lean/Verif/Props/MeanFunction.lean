import Verif.Lemmas.MeanFunction
import Verif.Props.Kernels

/-!
# Properties C31: mean functions solve the forced SDE

`Spec.impulseResponse`, `Spec.stepInput` and `Spec.IsStepResponse` are the textbook notions.
-/

namespace MF
open Matrix Spec

variable {o d n N : ℕ}

/-- C31: the zero mean function is zero everywhere, for any number of outputs. -/
theorem C31_zero (o : ℕ) (s : Fin N → ℝ) (i : Fin N) (j : Fin o) : zeroMean o s i j = 0 := rfl

/-- C31: the linear mean function is `c t` in every output. -/
theorem C31_linear (c : ℝ) (o : ℕ) (s : Fin N → ℝ) (i : Fin N) (j : Fin o) :
    linearMean c o s i j = c * s i := rfl

theorem projectStateToF_eq (H : Fin N → Mat o d) (x : Fin N → Vec d) :
    projectStateToF H x = fun i => H i *ᵥ x i := by
  funext i j; rfl

/-- C31: for every kernel expression and non-decreasing action times, at any query times in any order,
the impulse mean function is the superposition of the propagated actions strictly before the query. -/
theorem C31_impulse_transitions {K : Stationary o d} {k} (hK : Builds K k) {ts : Fin (n + 1) → ℝ}
    (hts : Monotone ts) (u : Fin (n + 1) → Vec d) (s : Fin N → ℝ) :
    impulseMean K ts u s = .ok fun i => K.emission (s i) *ᵥ
      open Classical in ∑ k, if ts k < s i then K.stateTransitions (ts k) (s i - ts k) *ᵥ u k else 0 := by
  have hg := (Builds.good hK).1
  unfold impulseMean
  simp only
  rw [actionSolve_ok (A := K.stateTransitions 0) hg.time hg.zero hg.add hts]
  simp only [bind, Except.bind, pure, Except.pure, hg.time _ (_ - _)]
  congr 1
  rw [projectStateToF_eq]
  funext i
  rw [lookup hg.add hts]

/-- C31: for the basic kernels, `exp(F (t - t_k)) u_k` summed over the actions before `t`. -/
theorem C31_impulse {K : Stationary o d} {k} (hK : Leaf K k) {ts : Fin (n + 1) → ℝ}
    (hts : Monotone ts) (u : Fin (n + 1) → Vec d) (s : Fin N → ℝ) :
    impulseMean K ts u s =
      .ok fun i => K.emission (s i) *ᵥ impulseResponse K.feedback ts u (s i) := by
  rw [C31_impulse_transitions (.leaf hK) hts]
  simp only [C26_transitions_eq_exp hK]
  rfl

/-- C31: a single action at time `c` is not visible up to and including `c`, and right after it the
mean is close to `H u`: the limit from the right is `H u`. -/
theorem C31_impulse_jump {F : Mat d d} (u : Vec d) (c : ℝ) :
    (∀ t ≤ c, impulseResponse F (fun _ : Fin 1 => c) (fun _ => u) t = 0) ∧
    Filter.Tendsto (impulseResponse F (fun _ : Fin 1 => c) (fun _ => u)) (nhdsWithin c (Set.Ioi c)) (nhds u) := by
  classical
  constructor
  · intro t ht
    simp [impulseResponse, not_lt.2 ht]
  · have h : Filter.Tendsto (fun t => NormedSpace.exp ((t - c) • F) *ᵥ u) (nhdsWithin c (Set.Ioi c)) (nhds u) := by
      have hc : Continuous fun t : ℝ => NormedSpace.exp ((t - c) • F) *ᵥ u :=
        Continuous.matrix_mulVec ((solvesSDE_exp F).continuous.comp (continuous_id.sub continuous_const))
          continuous_const
      have := hc.tendsto c
      simp only [sub_self, zero_smul, NormedSpace.exp_zero, one_mulVec] at this
      exact this.mono_left nhdsWithin_le_nhds
    refine h.congr' ?_
    filter_upwards [self_mem_nhdsWithin] with t ht
    simp [impulseResponse, show c < t from ht]

theorem actionSolve_unsorted {K : Stationary o d} {ts : Fin (n + 1) → ℝ} (hts : ¬ Monotone ts)
    (r : Fin (n + 1) → Vec d) : actionSolve K ts r = .error .invalidArgument := by
  have hn : n + 1 ≠ 1 := by
    intro h
    apply hts
    intro i j _
    have : i = j := Fin.ext (by omega)
    rw [this]
  unfold actionSolve
  rw [if_neg hn]
  unfold toDeltaTime
  simp only
  rw [if_neg]
  · rfl
  · intro h
    apply hts
    rw [Fin.monotone_iff_le_succ]
    intro k
    linarith [h k]

theorem stepA_ok {K : Stationary o d} (hF : IsUnit K.feedback.det) (u : Fin (n + 1) → Vec d) :
    stepA K u = .ok (Fin.cons 0 fun k => -(K.feedback⁻¹ *ᵥ u k)) := by
  unfold stepA
  have : (seqFin fun k => tfSolve K.feedback (replicateCol (Fin 1) (u k))) =
      .ok fun k => K.feedback⁻¹ * replicateCol (Fin 1) (u k) := by
    apply seqFin_ok
    intro k
    unfold tfSolve
    rw [if_pos hF]
  rw [this]
  rfl

theorem stepA_singular {K : Stationary o d} (hF : ¬ IsUnit K.feedback.det) (u : Fin (n + 1) → Vec d) :
    stepA K u = .error .invalidArgument := by
  unfold stepA seqFin tfSolve
  simp only [if_neg hF]
  rfl

/-- C31: action times that are not sorted raise. -/
theorem C31_unsorted_actions {K : Stationary o d} {ts : Fin (n + 1) → ℝ} (hts : ¬ Monotone ts)
    (u : Fin (n + 1) → Vec d) (s : Fin N → ℝ) : impulseMean K ts u s = .error .invalidArgument ∧
      stepMean K ts u s = .error .invalidArgument := by
  constructor
  · unfold impulseMean
    simp only
    rw [actionSolve_unsorted hts]
    rfl
  · unfold stepMean
    simp only
    by_cases hF : IsUnit K.feedback.det
    · rw [stepA_ok hF]
      simp only [bind, Except.bind]
      rw [actionSolve_unsorted hts]
    · rw [stepA_singular hF]; rfl

/-- C31: for every kernel whose transitions are generated by its feedback matrix (the basic kernels,
`C26_transitions_solve_sde`, and sums of them, `C26_sum`), with invertible feedback matrix, and for
non-decreasing action times, the step mean function is (the projection of) the response of
`dx/dt = F x + u(t)`, started from rest, to the piecewise constant input: the same function `x` for
all query times, of any number and in any order. -/
theorem C31_step {K : Stationary o d} (hK : ∀ t, SolvesSDE K.feedback (K.stateTransitions t))
    (hF : IsUnit K.feedback.det) {ts : Fin (n + 1) → ℝ} (hts : Monotone ts) (u : Fin (n + 1) → Vec d) :
    ∃ x, IsStepResponse K.feedback ts u x ∧ ∀ (N : ℕ) (s : Fin N → ℝ),
      stepMean K ts u s = .ok fun i => K.emission (s i) *ᵥ x (s i) := by
  classical
  have h0 := hK 0
  have htime : ∀ t δ, K.stateTransitions t δ = K.stateTransitions 0 δ := fun t δ => (hK t).unique h0 δ
  refine ⟨_, isStepResponse_sum h0 hF hts u, fun N s => ?_⟩
  unfold stepMean
  simp only
  rw [stepA_ok hF]
  simp only [bind, Except.bind]
  rw [actionSolve_ok (A := K.stateTransitions 0) htime h0.zero h0.add hts]
  simp only [pure, Except.pure, htime _ (_ - _)]
  congr 1
  rw [projectStateToF_eq]
  funext i
  congr 1
  rw [lookup h0.add hts, lookup_level hts, stepInput_eq_sum hts, ← Finset.sum_add_distrib]
  refine Finset.sum_congr rfl fun k _ => ?_
  rw [stepUnit_eq h0.zero]
  have e : ∀ j : Fin (n + 2), (Fin.cons 0 fun k => -(K.feedback⁻¹ *ᵥ u k) : Fin (n + 2) → Vec d) j =
      -(K.feedback⁻¹ *ᵥ (Fin.cons 0 u : Fin (n + 2) → Vec d) j) := by
    intro j; refine Fin.cases ?_ (fun k => ?_) j
    · simp
    · rfl
  by_cases h : ts k < s i
  · rw [if_pos h, if_pos h, if_pos h, e, e, sub_mulVec, one_mulVec, mulVec_sub]
    simp only [mulVec_sub, mulVec_neg]
    abel
  · rw [if_neg h, if_neg h, if_neg h, add_zero]

/-- C31: that response is unique, so `C31_step` pins down every returned value. -/
theorem C31_step_response_unique {F : Mat d d} {ts : Fin n → ℝ} {u : Fin n → Vec d} {x y : ℝ → Vec d}
    (hx : IsStepResponse F ts u x) (hy : IsStepResponse F ts u y) : x = y := hx.unique hy

/-- C31: the basic kernels. -/
theorem C31_step_leaf {K : Stationary o d} {k} (hK : Leaf K k) (hF : IsUnit K.feedback.det)
    {ts : Fin (n + 1) → ℝ} (hts : Monotone ts) (u : Fin (n + 1) → Vec d) (s : Fin N → ℝ) {x}
    (hx : IsStepResponse K.feedback ts u x) :
    stepMean K ts u s = .ok fun i => K.emission (s i) *ᵥ x (s i) := by
  obtain ⟨y, hy, h⟩ := C31_step (C26_transitions_solve_sde hK) hF hts u
  rw [hx.unique hy]; exact h N s

/-- C31: when the feedback matrix is singular (a `Constant` kernel, alone or in a sum) the step mean
function raises, although the forced equation has a solution. -/
theorem C31_step_singular_raises {K : Stationary o d} (hF : ¬ IsUnit K.feedback.det)
    (ts : Fin (n + 1) → ℝ) (u : Fin (n + 1) → Vec d) (s : Fin N → ℝ) :
    stepMean K ts u s = .error .invalidArgument := by
  unfold stepMean
  simp only
  rw [stepA_singular hF]; rfl

/-- C31: which basic kernels have an invertible feedback matrix: all the stochastic ones and the
oscillator, but not the constant one. -/
theorem C31_feedback_invertible (o : ℕ) :
    (∀ l v j K, matern12 o l v j = .ok K → IsUnit K.feedback.det) ∧
    (∀ a b j K, ornsteinUhlenbeck o a b j = .ok K → IsUnit K.feedback.det) ∧
    (∀ l v j K, matern32 o l v j = .ok K → IsUnit K.feedback.det) ∧
    (∀ l v j K, matern52 o l v j = .ok K → IsUnit K.feedback.det) ∧
    (∀ v p j K, harmonicOscillator o v p j = .ok K → IsUnit K.feedback.det) ∧
    (∀ v j K, constant o v j = .ok K → ¬ IsUnit K.feedback.det) ∧
    (∀ {d : ℕ} (N R : Mat d d) j K, IsUnit N.det → leg N R j = .ok K → IsUnit K.feedback.det) := by
  refine ⟨?_, ?_, ?_, ?_, ?_, ?_, ?_⟩
  · intro l v j K h
    obtain ⟨-, hp, rfl⟩ := kernelInit_ok h
    have hl := hp l (by simp)
    simp [Stationary.base, hl.ne']
  · intro a b j K h
    obtain ⟨-, hp, rfl⟩ := kernelInit_ok h
    have hl := hp a (by simp)
    simp [Stationary.base, hl.ne']
  · intro l v j K h
    obtain ⟨-, hp, rfl⟩ := kernelInit_ok h
    have hl := hp l (by simp)
    simp [Stationary.base, feedback32, det_fin_two, hl.ne']
  · intro l v j K h
    obtain ⟨-, hp, rfl⟩ := kernelInit_ok h
    have hl := hp l (by simp)
    simp [Stationary.base, feedback52, det_fin_three, hl.ne']
  · intro v p j K h
    obtain ⟨-, hp, rfl⟩ := kernelInit_ok h
    have hl := hp p (by simp)
    simp [Stationary.base, det_fin_two, hl.ne', Real.pi_ne_zero]
  · intro v j K h
    obtain ⟨-, hp, rfl⟩ := kernelInit_ok h
    simp [Stationary.base]
  · intro d N R j K hN h
    obtain ⟨-, hp, rfl⟩ := kernelInit_ok h
    simp only [Stationary.base]
    rw [isUnit_iff_ne_zero, Ne, ← exists_mulVec_eq_zero_iff]
    rintro ⟨v, hv, h0⟩
    apply hv
    have h1 : v ⬝ᵥ (legFeedback N R *ᵥ v) = -(1 / 2) * ((Nᵀ *ᵥ v) ⬝ᵥ (Nᵀ *ᵥ v)) := by
      have e1 : v ⬝ᵥ (R *ᵥ v) = v ⬝ᵥ (Rᵀ *ᵥ v) := by
        rw [dotProduct_mulVec, mulVec_transpose, dotProduct_comm]
      unfold legFeedback
      rw [smul_mulVec, neg_mulVec, sub_mulVec, add_mulVec, dotProduct_smul, dotProduct_neg,
        dotProduct_sub, dotProduct_add, e1, ← mulVec_mulVec, dotProduct_mulVec v N, ← mulVec_transpose]
      simp only [smul_eq_mul]
      ring
    rw [h0, dotProduct_zero] at h1
    have h2 : Nᵀ *ᵥ v = 0 := by
      apply dotProduct_self_eq_zero.1
      linarith
    have hN2 : IsUnit Nᵀ := by rw [isUnit_iff_isUnit_det, det_transpose]; exact hN
    have := Matrix.mulVec_injective_of_isUnit hN2
    exact this (h2.trans (mulVec_zero _).symm)

/-- Finding: with a product kernel the step mean function moves in the wrong direction, because
`Product.feedback_matrix` is wrong (`C26_product_feedback_is_wrong`): after a constant push `+1` from time
`0` on a product of two unit `Matern12` kernels (whose transitions are `exp(-2δ)`), the mean
function at time `1` is negative, while the response of `dx/dt = -2 x + 1` is positive. -/
theorem C31_step_product_wrong : ∃ (K₁ : Stationary 1 1) (K : Stationary 1 1),
    matern12 1 1 1 0 = .ok K₁ ∧ SDEKernel.mul K₁ K₁ = .ok K ∧
      SolvesSDE !![-2] (K.stateTransitions 0) ∧
      (∃ r, stepMean K (fun _ : Fin 1 => 0) (fun _ => 1) (fun _ : Fin 1 => 1) = .ok r ∧ r 0 0 < 0) ∧
      ∀ x, IsStepResponse !![-2] (fun _ : Fin 1 => 0) (fun _ => 1) x → 0 < x 1 0 := by
  have h1 : matern12 1 1 1 0 = .ok (Stationary.base (fun _ δ => !![Real.exp (-δ / 1)]) !![-1 / 1] !![1] 0 0
      (fun _ => sdeEmission 1 1)) := by
    unfold matern12 kernelInit; rw [if_neg (by simp), if_neg (by simp)]
  obtain ⟨K, hK⟩ : ∃ K : Stationary 1 1, SDEKernel.mul (Stationary.base (o := 1) (fun _ δ => !![Real.exp (-δ / 1)])
      !![-1 / 1] !![1] 0 0 (fun _ => sdeEmission 1 1)) (Stationary.base (o := 1) (fun _ δ => !![Real.exp (-δ / 1)])
      !![-1 / 1] !![1] 0 0 (fun _ => sdeEmission 1 1)) = .ok K := by
    unfold SDEKernel.mul productKernel combineInit; rw [if_neg (by simp), if_neg (by simp)]
    exact ⟨_, rfl⟩
  have hA : ∀ t δ, K.stateTransitions t δ = !![Real.exp (-2 * δ)] := by
    intro t δ
    have hK' := hK
    unfold SDEKernel.mul productKernel at hK'
    obtain ⟨-, -, rfl⟩ := combineInit_ok hK'
    ext i j
    obtain rfl : i = 0 := Subsingleton.elim _ _
    obtain rfl : j = 0 := Subsingleton.elim _ _
    show Real.exp (-δ / 1) * (Real.exp (-δ / 1) * 1) = Real.exp (-2 * δ)
    rw [mul_one, ← Real.exp_add]
    congr 1; ring
  have hF : K.feedback = !![1] := by
    have hK' := hK
    unfold SDEKernel.mul productKernel at hK'
    obtain ⟨-, -, rfl⟩ := combineInit_ok hK'
    ext i j
    obtain rfl : i = 0 := Subsingleton.elim _ _
    obtain rfl : j = 0 := Subsingleton.elim _ _
    show (-1 / 1 : ℝ) * (-1 / 1 * 1) = 1
    norm_num
  have hH : ∀ t i j, K.emission t i j = 1 := by
    have hK' := hK
    unfold SDEKernel.mul productKernel at hK'
    obtain ⟨-, -, rfl⟩ := combineInit_ok hK'
    intro t i j
    show sdeEmission 1 1 0 _ * (sdeEmission 1 1 0 _ * 1) = 1
    have e : ∀ a : Fin 1, sdeEmission 1 1 0 a = 1 := by intro a; fin_cases a; rfl
    rw [e, e]; norm_num
  have hS : SolvesSDE !![-2] (K.stateTransitions 0) := by
    refine ⟨?_, ?_, ?_⟩
    · rw [hA]; ext i j; fin_cases i; fin_cases j; simp
    · intro s t; rw [hA, hA, hA]; ext i j; fin_cases i; fin_cases j
      simp [← Real.exp_add]; ring
    · intro t i j
      simp only [hA]
      fin_cases i; fin_cases j
      have := (hasDerivAt_exp_mul (-2) t)
      simpa [mul_apply] using this
  refine ⟨_, K, h1, hK, hS, ?_, ?_⟩
  · unfold stepMean
    have hdet : IsUnit K.feedback.det := by rw [hF]; simp
    simp only
    rw [stepA_ok hdet]
    simp only [bind, Except.bind]
    rw [actionSolve_ok (A := K.stateTransitions 0) (fun t δ => by rw [hA, hA]) hS.zero hS.add
      (monotone_const (c := (0 : ℝ)))]
    refine ⟨_, rfl, ?_⟩
    rw [projectStateToF_eq]
    have e : ∀ δ, K.stateTransitions 1 δ = K.stateTransitions 0 δ := fun δ => by rw [hA, hA]
    simp only [e]
    rw [lookup hS.add monotone_const, lookup_level monotone_const]
    simp only [stepInput, mulVec, dotProduct, hH, hA, hF]
    have := Real.exp_lt_one_iff.2 (show (-2 : ℝ) < 0 by norm_num)
    simp [dotProduct]
  · intro x hx
    have hdet : IsUnit (!![-2] : Mat 1 1).det := by simp
    have := isStepResponse_sum hS hdet (monotone_const (c := (0 : ℝ))) (fun _ : Fin 1 => (1 : Vec 1))
    rw [hx.unique this]
    simp only [stepUnit_eq hS.zero, hA]
    have := Real.exp_lt_one_iff.2 (show (-2 : ℝ) < 0 by norm_num)
    simp [Fin.sum_univ_one, inv_def, mulVec, dotProduct]
    linarith

/-- The hypotheses are met: a Matérn 3/2 kernel, two actions, queries before, between and after. -/
example : ∃ K : Stationary 1 2, matern32 1 1 1 0 = .ok K ∧
    (∀ u : Fin 2 → Vec 2, ∃ r, impulseMean K ![0, 1] u ![-1, 0.5, 2] = .ok r ∧ r 0 = 0) ∧
    ∃ x, IsStepResponse K.feedback ![0, 1] ![![1, 0], ![0, 2]] x ∧
      stepMean K ![0, 1] ![![1, 0], ![0, 2]] ![-1, 0.5, 2] =
        .ok fun i => K.emission ((![-1, 0.5, 2] : Fin 3 → ℝ) i) *ᵥ x ((![-1, 0.5, 2] : Fin 3 → ℝ) i) := by
  have h1 : ∃ K, matern32 1 1 1 0 = .ok K := by
    unfold matern32 kernelInit
    simp only
    rw [if_neg (by simp), if_neg (by simp)]
    exact ⟨_, rfl⟩
  obtain ⟨K, hK⟩ := h1
  have hts : Monotone (![0, 1] : Fin 2 → ℝ) := by
    rw [Fin.monotone_iff_le_succ]; intro i; fin_cases i; simp
  refine ⟨K, hK, fun u => ⟨_, C31_impulse (.matern32 hK) hts u _, ?_⟩, ?_⟩
  · beta_reduce
    have e : impulseResponse K.feedback ![0, 1] u (![-1, 0.5, 2] 0) = 0 := by
      simp [impulseResponse, Fin.sum_univ_two]
      norm_num
    rw [e, mulVec_zero]
  · obtain ⟨x, hx, h⟩ := C31_step (C26_transitions_solve_sde (.matern32 hK))
      ((C31_feedback_invertible 1).2.2.1 _ _ _ _ hK) hts ![![1, 0], ![0, 2]]
    exact ⟨x, hx, h 3 _⟩

end MF
