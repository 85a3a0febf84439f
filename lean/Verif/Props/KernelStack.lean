import Verif.Lemmas.GPR

/-!
# C29: the slices of an `IndependentMultiOutputStack` are usable models

`C29_stack` (in `Props/Kernels.lean`) says which law a slice has once its state space model is built.
Here: the model *is* built for every strictly increasing list of times, because the padded steady
state covariance stays positive definite; and what the padding does to the reported feedback matrix.
-/
namespace MF
open Matrix Spec

variable {n d : ℕ}

theorem augment_posDef {M : Mat d d} (h : M.PosDef) (e : ℕ) : (augmentSquareMatrix M e).PosDef := by
  unfold augmentSquareMatrix
  refine PosDef.submatrix ?_ finSumFinEquiv.symm.injective
  have hs : Mᵀ = M := by
    have := h.isHermitian
    rwa [IsHermitian, conjTranspose_eq_transpose_of_trivial] at this
  refine PosDef.of_dotProduct_mulVec_pos ?_ fun x hx => ?_
  · rw [IsHermitian, conjTranspose_eq_transpose_of_trivial, fromBlocks_transpose]
    simp [hs]
  · rw [fromBlocks_mulVec]
    simp only [Matrix.zero_mulVec, add_zero, zero_add, if_neg Bool.false_ne_true, one_smul, one_mulVec]
    have e1 : star x ⬝ᵥ Sum.elim (M *ᵥ (x ∘ Sum.inl)) (x ∘ Sum.inr) =
        star (x ∘ Sum.inl) ⬝ᵥ (M *ᵥ (x ∘ Sum.inl)) + (x ∘ Sum.inr) ⬝ᵥ (x ∘ Sum.inr) := by
      simp [dotProduct, Fintype.sum_sum_type]
    rw [e1]
    by_cases h0 : x ∘ Sum.inl = 0
    · rw [h0]
      have h1 : x ∘ Sum.inr ≠ 0 := by
        intro h1
        refine hx (funext fun i => ?_)
        rcases i with i | i
        · exact congrFun h0 i
        · exact congrFun h1 i
      have : 0 < (x ∘ Sum.inr) ⬝ᵥ (x ∘ Sum.inr) := by
        have := dotProduct_star_self_pos_iff.2 h1
        simpa using this
      simpa using this
    · have h1 := h.dotProduct_mulVec_pos h0
      have h2 : 0 ≤ (x ∘ Sum.inr) ⬝ᵥ (x ∘ Sum.inr) := Finset.sum_nonneg fun i _ => mul_self_nonneg _
      linarith

/-- C29: padding a child of an `IndependentMultiOutputStack` to the common state dimension never makes
the state space model fail or degenerate: for every kernel expression whose children all have process
noise, every padding, every non-negative jitter and all strictly increasing times, the model exists and
has invertible Cholesky factors (so that its precision exists). -/
theorem C29_stack_succeeds {K : Stationary 1 d} {k} (h : Builds K k) (hN : NoiseTag K true) (extra : ℕ)
    {j : ℝ} (hj : 0 ≤ j) (hn : 0 < n) {ts : Fin (n + 1) → ℝ} (hts : StrictMono ts) :
    ∃ s, (stackSlice K extra j).stateSpaceModel ts = .ok s ∧ s.Nondegenerate := by
  obtain ⟨hc, hr, -⟩ := Builds.good h
  have hd : 0 < d + extra := Nat.add_pos_left hc.pos extra
  have hno := (NoiseTag.noisy hN).2
  have h0 : (stackSlice K extra j).initialCovariance.PosDef :=
    (augment_posDef hno.pd extra).add_posSemidef (posSemidef_jitter _ hj)
  have h1 : ∀ k : Fin n, ((stackSlice K extra j).transitionNoise (ts k.castSucc)
      (ts k.succ - ts k.castSucc)).PosDef := fun k => by
    have hp := hno.strict rfl _ (sub_pos.2 (hts (Fin.castSucc_lt_succ (i := k))))
    have hp' := (augment_posDef hp extra).add_posSemidef (posSemidef_jitter (d + extra) hj)
    have e : (stackSlice K extra j).transitionNoise (ts k.castSucc) (ts k.succ - ts k.castSucc) =
        augmentSquareMatrix (K.Pinf - K.stateTransitions 0 (ts k.succ - ts k.castSucc) * K.Pinf *
          (K.stateTransitions 0 (ts k.succ - ts k.castSucc))ᵀ) extra + jitterMatrix (d + extra) j := by
      simp only [stackSlice, Stationary.base, statTransitionNoise]
      rw [hc.time, augment_transpose, augment_mul, augment_mul]
      exact congrArg (· + _) (augment_sub _ _)
    rw [e]
    exact hp'
  unfold Stationary.stateSpaceModel
  rw [toDeltaTime_of_mono hts.monotone]
  obtain ⟨c0, hc0, hc0'⟩ := choleskyOrZero_ok hd (Or.inr h0)
  obtain ⟨cs, hcs, hcs'⟩ := choleskyOrZeros_ok hd fun k => Or.inr (h1 k)
  have nz : ∀ {M : Mat (d + extra) (d + extra)}, M.PosDef → M ≠ 0 := by
    rintro M hM rfl
    exact lt_irrefl _ (hM.diag_pos (i := (⟨0, hd⟩ : Fin (d + extra))))
  refine ⟨⟨(stackSlice K extra j).initialMean, c0,
    fun k => (stackSlice K extra j).stateTransitions (ts k.castSucc) (ts k.succ - ts k.castSucc),
    fun k => (stackSlice K extra j).stateOffsets (ts k.castSucc) (ts k.succ - ts k.castSucc), cs⟩, ?_, ?_⟩
  · simp only [bind, Except.bind]
    unfold ssmFromCovariances
    rw [if_neg (by omega), hc0]
    simp only [bind, Except.bind, pure, Except.pure]
    rw [hcs]
  · intro b
    refine Fin.cases ?_ (fun k => ?_) b
    · rcases hc0' with h | h
      · exact absurd h.1 (nz h0)
      · exact ⟨h.2.lower, fun i => (h.2.diag_pos i).ne'⟩
    · rcases hcs' k with h | h
      · exact absurd h.1 (nz (h1 k))
      · exact ⟨h.2.lower, fun i => (h.2.diag_pos i).ne'⟩

/-- Finding: the padding of the feedback matrix is the identity (the docstring says zeros), which is not
the generator of the slice: for *every* child and every padding, the transition over a zero interval has
a zero where the identity has a one, and the diffusion `-(F P + P Fᵀ)` that the reported feedback `F`
and steady state covariance `P` imply has a negative variance in each padded coordinate. -/
theorem C29_stack_feedback_padding (K : Stationary 1 d) (extra : ℕ) (j t : ℝ) (i : Fin extra) :
    (stackSlice K extra j).stateTransitions t 0 (Fin.natAdd d i) (Fin.natAdd d i) = 0 ∧
    (-((stackSlice K extra j).feedback * (stackSlice K extra j).Pinf +
      (stackSlice K extra j).Pinf * (stackSlice K extra j).feedbackᵀ))
        (Fin.natAdd d i) (Fin.natAdd d i) = -2 := by
  refine ⟨?_, ?_⟩
  · simp [stackSlice, Stationary.base, augmentSquareMatrix]
  · simp only [stackSlice, Stationary.base]
    rw [augment_transpose, augment_mul, augment_mul]
    simp [augmentSquareMatrix]
    norm_num

/-- Non-vacuity of `C29_stack_succeeds`: a Matern 3/2 child padded from two to five state dimensions. -/
example {ts : Fin 4 → ℝ} (hts : StrictMono ts) : ∃ (K : Stationary 1 2) (s : SSM 3 5),
    matern32 1 2 3 0 = .ok K ∧ (stackSlice K 3 0).stateSpaceModel ts = .ok s ∧ s.Nondegenerate := by
  obtain ⟨K, h⟩ := (C28_constructors (o := 1) 2 3 1 1 1 0).2.1.2 (by norm_num)
  obtain ⟨s, hs, hn⟩ := C29_stack_succeeds (.leaf (.matern32 h)) (.matern32 h) 3 le_rfl (by norm_num) hts
  exact ⟨K, s, h, hs, hn⟩

end MF
