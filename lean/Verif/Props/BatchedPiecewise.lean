import Verif.Lemmas.BatchedPiecewise4
import Verif.Props.BatchedVariational
import Verif.Props.Piecewise

/-!
# C73: piecewise kernels on tensors

A `PiecewiseKernel` works for times without batch axes: every method returns what the mathematical model of C30 says, or raises its exception. It does not
work for batches, although the documentation promises a `batch_shape`: with two or more axes every method that gathers raises, whatever the kernels and times
are, and the remaining methods raise too or, for batch axes of size one, silently drop them.
-/

namespace MF
open Matrix Spec Tensor

variable {o d n m : ℕ} {K : TPiecewise} {k : Piecewise o d} {t δ : Tensor} {times deltas : List ℝ} {inf : ℝ}

theorem Spec.Agree.mono {α β : Type*} {R R' : β → α → Prop} {X : Except Err β} {Y : Except Err α} (h : Agree R X Y) (hR : ∀ x y, R x y → R' x y) :
    Agree R' X Y := by
  rcases h with ⟨x, y, h1, h2, h3⟩ | h
  exacts [.inl ⟨x, y, h1, h2, hR x y h3⟩, .inr h]

/-- **C73 (constructor).** For kernels of the same state dimension, the constructor builds the same object or raises the same exception. -/
theorem C73_constructor {Ks : List TKernel} {ks : List (Stationary o d)} (hk : List.Forall₂ HoldsKernel Ks ks) {cp : Tensor} {cps : List ℝ}
    (hc : HoldsReals [] cp cps) (jitter : ℝ) : Agree HoldsPiecewise (TPiecewise.init Ks cp jitter) (Piecewise.init ks cps jitter) := by
  cases hk with
  | nil => exact .inr ⟨.assertion, rfl, by simp [Piecewise.init]⟩
  | @cons K k Ks ks h1 h2 =>
    have ho : ∀ K' ∈ Ks, K'.outputDim = K.outputDim ∧ K'.stateDim = K.stateDim := by
      intro K' hK'
      obtain ⟨g1, g2⟩ := List.forall₂_iff_get.1 h2
      obtain ⟨q, rfl⟩ := List.get_of_mem hK'
      have := g2 q q.2 (by rw [← g1]; exact q.2)
      exact ⟨by rw [this.outputDim, h1.outputDim], by rw [this.stateDim, h1.stateDim]⟩
    have a1 : ∀ K' ∈ Ks, K'.outputDim = K.outputDim := fun K' h => (ho K' h).1
    have a2 : ∀ K' ∈ Ks, K'.stateDim = K.stateDim := fun K' h => (ho K' h).2
    by_cases hj : 0 ≤ jitter
    · refine .inl ⟨_, ⟨k :: ks, cps, jitter⟩, by simp only [TPiecewise.init, not_not.2 a1, not_not.2 a2, hj, not_true_eq_false, if_false]; rfl,
        by simp [Piecewise.init, hj], .cons h1 h2, by simp, hc, h1.stateDim, rfl⟩
    · exact .inr ⟨.assertion, by simp only [TPiecewise.init, not_not.2 a1, not_not.2 a2, hj, not_false_eq_true, if_true, if_false],
        by simp [Piecewise.init, hj]⟩

/-- **C73 (different dimensions).** Kernels with different output or state dimensions are rejected. -/
theorem C73_dimensions {Ks : List TKernel} {K₁ K₂ : TKernel} (h₁ : K₁ ∈ Ks) (h₂ : K₂ ∈ Ks) (h : K₁.outputDim ≠ K₂.outputDim ∨ K₁.stateDim ≠ K₂.stateDim)
    (cp : Tensor) (jitter : ℝ) : TPiecewise.init Ks cp jitter = .error .assertion := by
  cases Ks with
  | nil => rfl
  | cons K Ks =>
    simp only [TPiecewise.init]
    split_ifs with a1 a2 a3
    · exfalso
      have b1 : ∀ K' ∈ K :: Ks, K'.outputDim = K.outputDim := by simpa using a1
      have b2 : ∀ K' ∈ K :: Ks, K'.stateDim = K.stateDim := by simpa using a2
      rcases h with h | h
      exacts [h ((b1 _ h₁).trans (b1 _ h₂).symm), h ((b2 _ h₁).trans (b2 _ h₂).symm)]
    all_goals rfl

/-- **C73 (times without batch axes).** Every method of a piecewise kernel agrees with the mathematical model, exceptions included. -/
theorem C73_unbatched (h : HoldsPiecewise K k) (ht : HoldsReals [] t times) (hδ : HoldsReals [] δ deltas) :
    (∃ i, K.splitTimeIndices inf t = .ok i ∧ HoldsInts i (k.splitTimeIndices inf times)) ∧
    Agree HoldsMatrices (K.steadyStateCovariances inf t) (k.steadyStateCovariances inf times) ∧
    Agree HoldsMatrices (K.feedbackMatrices inf t) (k.feedbackMatrices inf times) ∧
    Agree HoldsVectors (K.stateMeans inf t) (k.stateMeans inf times) ∧
    Agree HoldsMatrices (K.stateTransitions inf t δ) (k.stateTransitions inf times deltas) ∧
    Agree HoldsVectors (K.stateOffsets inf t δ) (k.stateOffsets inf times deltas) ∧
    Agree HoldsMatrices (K.emission inf t) (k.emissions inf times) ∧
    Agree (fun x y => HoldsMatrices x.1 y.1 ∧ HoldsMatrices x.2 y.2) (K.transitionStatistics inf t δ) (k.transitionStatistics inf times deltas) :=
  ⟨(splitTimeIndices_holds (m := 0) h inf ht).imp fun _ hi => ⟨hi.1, holdsInts_iff.2 hi.2⟩,
    (pw_steady_holds h inf ht).mono fun _ _ hz => holdsMatrices_iff.2 hz.1, (pw_feedback_holds h inf ht).mono fun _ _ hz => holdsMatrices_iff.2 hz.1,
    (pw_stateMeans_holds h inf ht).mono fun _ _ hz => holdsVectors_iff.2 hz.1,
    (pw_stateTransitions_holds (m := 0) h inf ht hδ).mono fun _ _ hz => holdsMatrices_iff.2 hz.1,
    (pw_stateOffsets_holds (m := 0) h inf ht hδ).mono fun _ _ hz => holdsVectors_iff.2 hz.1,
    (pw_emission_holds (m := 0) h inf ht).mono fun _ _ hz => holdsMatrices_iff.2 hz.1,
    (pw_transitionStatistics_holds h inf ht hδ).mono fun _ _ hz => ⟨holdsMatrices_iff.2 hz.1, holdsMatrices_iff.2 hz.2.1⟩⟩

/-- **C73 (initial covariance).** -/
theorem C73_initial_covariance (h : HoldsPiecewise K k) {t0 : ℝ} (ht : HoldsReals [] t [t0]) :
    Agree (fun z P => HoldsMat [] z fun _ => P) (K.initialCovariance inf t) (k.initialCovariance inf t0) :=
  pw_initialCovariance_holds h inf ht

/-- **C73 (state space model).** -/
theorem C73_state_space_model (h : HoldsPiecewise K k) {ts : Fin (n + 1) → ℝ} (ht : HoldsTimes [] t fun _ => ts) :
    Elementwise [] (HoldsSSM []) (K.stateSpaceModel inf t) fun _ => k.stateSpaceModel inf ts :=
  pw_stateSpaceModel_holds h inf ht

/-! ### Batches -/

theorem split_shape {i : ZTensor} (h : K.splitTimeIndices inf t = .ok i) : i.shape = t.shape ∧ rowCount t.shape = 1 := by
  simp only [TPiecewise.splitTimeIndices] at h
  obtain ⟨a, -, h⟩ := exBind_ok h
  obtain ⟨b, -, h⟩ := exBind_ok h
  obtain ⟨s, hs, h⟩ := exBind_ok h
  cases h
  simp only [searchsortedRightT] at hs
  split at hs
  · split_ifs at hs with hr
    cases hs
    exact ⟨rfl, hr⟩
  · cases hs

theorem split_raises (h : rowCount t.shape ≠ 1) : ∃ e, K.splitTimeIndices inf t = .error e := by
  cases hi : K.splitTimeIndices inf t with
  | error e => exact ⟨e, rfl⟩
  | ok i => exact absurd (split_shape hi).2 h

theorem gather_raises (F : TKernel → Except Err Tensor) (h : t.shape.length ≠ 1) : ∃ e, K.gatherKernels F inf t = .error e := by
  cases hi : K.gatherKernels F inf t with
  | error e => exact ⟨e, rfl⟩
  | ok z =>
    exfalso
    simp only [TPiecewise.gatherKernels] at hi
    obtain ⟨a, -, hi⟩ := exBind_ok hi
    obtain ⟨i, h1, hi⟩ := exBind_ok hi
    obtain ⟨⟨y, idx⟩, hu, -⟩ := exBind_ok hi
    simp only [uniqueT] at hu
    split at hu
    · rename_i hs
      rw [(split_shape h1).1] at hs
      exact h (by rw [hs]; rfl)
    · cases hu

theorem pw_error_bind {α β : Type} {X : Except Err α} {F : α → Except Err β} (h : ∃ e, X = .error e) : ∃ e, X >>= F = .error e := by
  obtain ⟨e, rfl⟩ := h
  exact ⟨e, rfl⟩

theorem pw_bind_error {α β : Type} {X : Except Err α} {F : α → Except Err β} (h : ∀ x, ∃ e, F x = .error e) : ∃ e, X >>= F = .error e := by
  cases X with
  | error e => exact ⟨e, rfl⟩
  | ok x => exact h x

theorem statistics_raise (h : t.shape.length ≠ 1) : ∃ e, K.transitionStatistics inf t δ = .error e := by
  simp only [TPiecewise.transitionStatistics]
  exact pw_bind_error fun A => pw_error_bind (gather_raises _ h)

/-- **C73 (batches raise).** For times with batch axes the stationary covariances, the feedback matrices, the state means, the transition statistics, the initial
covariance and the state space model of a piecewise kernel raise: for every kernel, all change points, all times, and every batch shape except `[]`. -/
theorem C73_batches_raise {p b : ℕ} {bs : List ℕ} (ht : t.shape = p :: b :: bs) :
    (∃ e, K.steadyStateCovariances inf t = .error e) ∧ (∃ e, K.feedbackMatrices inf t = .error e) ∧ (∃ e, K.stateMeans inf t = .error e) ∧
    (∃ e, K.transitionStatistics inf t δ = .error e) ∧ (∃ e, K.initialCovariance inf t = .error e) ∧ ∃ e, K.stateSpaceModel inf t = .error e := by
  have h : t.shape.length ≠ 1 := by rw [ht]; simp
  refine ⟨gather_raises _ h, gather_raises _ h, gather_raises _ h, statistics_raise h, ?_, ?_⟩
  · simp only [TPiecewise.initialCovariance]
    exact pw_error_bind (gather_raises _ h)
  · simp only [TPiecewise.stateSpaceModel]
    refine pw_bind_error fun δ => pw_error_bind (statistics_raise ?_)
    simp [sliceDrop, ht, modifyAt]

/-- **C73 (several batch elements raise).** For two or more batch elements, the remaining methods raise as well. -/
theorem C73_many_raise {p : ℕ} {bs : List ℕ} (ht : t.shape = p :: bs) (hp : 0 < p) (hbs : bs.prod ≠ 1) :
    (∃ e, K.splitTimeIndices inf t = .error e) ∧ (∃ e, K.stateTransitions inf t δ = .error e) ∧ (∃ e, K.stateOffsets inf t δ = .error e) ∧
    ∃ e, K.emission inf t = .error e := by
  have h : rowCount t.shape ≠ 1 := by rw [ht]; simpa [rowCount, hp.ne'] using hbs
  refine ⟨split_raises h, ?_, ?_, ?_⟩
  · simp only [TPiecewise.stateTransitions]
    exact pw_error_bind (split_raises h)
  · simp only [TPiecewise.stateOffsets]
    exact pw_error_bind (split_raises h)
  · simp only [TPiecewise.emission]
    exact pw_error_bind (split_raises h)

/-- **C73 (batch axes of size one are lost).** For times of shape `[1, …, 1, n]` the transitions, the offsets and the emission matrices are computed, but their
shapes are `[n, d, d]`, `[n, d]` and `[n, o, d]`, without the batch axes. -/
theorem C73_single_batch (h : HoldsPiecewise K k) {bs : List ℕ} (hbs : ∀ b ∈ bs, b = 1) (ht : HoldsReals bs t times) (hδ : HoldsReals bs δ deltas) :
    Agree HoldsMatrices (K.stateTransitions inf t δ) (k.stateTransitions inf times deltas) ∧
    Agree HoldsVectors (K.stateOffsets inf t δ) (k.stateOffsets inf times deltas) ∧
    Agree HoldsMatrices (K.emission inf t) (k.emissions inf times) := by
  obtain ⟨m, rfl⟩ : ∃ m, bs = List.replicate m 1 := ⟨bs.length, List.eq_replicate_iff.2 ⟨rfl, hbs⟩⟩
  exact ⟨(pw_stateTransitions_holds h inf ht hδ).mono fun _ _ hz => holdsMatrices_iff.2 hz.1,
    (pw_stateOffsets_holds h inf ht hδ).mono fun _ _ hz => holdsVectors_iff.2 hz.1,
    (pw_emission_holds h inf ht).mono fun _ _ hz => holdsMatrices_iff.2 hz.1⟩

/-! ### A concrete case -/

/-- Two Matérn-3/2 kernels with a change at time one, three time points on both sides of it: the state space model exists, on lists and on tensors; the same times
with a batch axis raise. -/
example : ∃ (K : TPiecewise) (k : Piecewise 1 2) (s : SSM 2 2), HoldsPiecewise K k ∧
    HoldsTimes (n := 3) [] ⟨[3], fun i => i.getD 0 0⟩ (fun _ i => (i : ℝ)) ∧
    k.stateSpaceModel approxInf (fun i : Fin 3 => (i : ℝ)) = .ok s ∧ (∃ S, K.stateSpaceModel approxInf ⟨[3], fun i => i.getD 0 0⟩ = .ok S) ∧
    ∃ e, K.stateSpaceModel approxInf ⟨[3, 2], fun i => i.getD 0 0⟩ = .error e := by
  obtain ⟨-, -, -, K₁, k₁, -, hk₁, hK₁, -⟩ := batch_example
  let cp : Tensor := ⟨[1], fun _ => 1⟩
  have hP := C73_constructor (cp := cp) (cps := [1]) (.cons hK₁ (.cons hK₁ .nil)) ⟨rfl, fun b _ i => by simp [cp]⟩ 0
  rcases hP with ⟨K, k, hK, hk, hKk⟩ | ⟨e, -, he⟩
  swap
  · simp [Piecewise.init] at he
  have ht : HoldsTimes (n := 3) [] ⟨[3], fun i => i.getD 0 0⟩ (fun _ i => (i : ℝ)) := ⟨rfl, fun b _ i => by simp⟩
  obtain ⟨s, hs, -⟩ := C30_succeeds (ker := fun _ : Fin 2 => k₁) (cp := fun _ : Fin 1 => 1) (b := fun _ => true) (fun _ => .leaf (.matern32 hk₁))
    (fun _ => .matern32 hk₁) hk one_pos two_pos (ts := fun i : Fin 3 => (i : ℝ)) (fun a b hab => by simpa using hab) (fun i => by
      have : ((i : ℕ) : ℝ) ≤ 2 := by exact_mod_cast Nat.le_of_lt_succ i.2
      constructor
      · exact le_trans (by norm_num [approxInf]) (Nat.cast_nonneg _)
      · exact lt_of_le_of_lt this (by norm_num [approxInf]))
  rcases C73_state_space_model (inf := approxInf) hKk ht with ⟨S, s', hS, -, hs'⟩ | ⟨e, -, b, -, he⟩
  · exact ⟨K, k, s, hKk, ht, hs, ⟨S, hS⟩, (C73_batches_raise (δ := cp) rfl).2.2.2.2.2⟩
  · rw [hs] at he
    cases he

end MF
