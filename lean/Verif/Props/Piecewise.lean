import Verif.Lemmas.Piecewise
import Verif.Props.Kernels

/-!
# C30: piecewise kernels

`ker 0, …, ker m` are the child kernels, `cp 0, …, cp (m-1)` the change points; `segment cp t` is the
interval `t` falls in.
-/

namespace MF
open Matrix Spec
variable {o d m n : ℕ}

/-- C30: for sorted change points `segment` is the interval: change point `j` is not after `t` iff
`j` precedes the index of the interval. -/
theorem C30_segment {cp : Fin m → ℝ} (hcp : Monotone cp) (t : ℝ) (j : Fin m) :
    cp j ≤ t ↔ (j : ℕ) < segment cp t := by
  classical
  show _ ↔ _ < (Finset.univ.filter fun j => cp j ≤ t).card
  constructor
  · intro h
    have h1 : Finset.Iic j ⊆ Finset.univ.filter fun j => cp j ≤ t := by
      intro i hi
      rw [Finset.mem_filter]
      exact ⟨Finset.mem_univ _, (hcp (Finset.mem_Iic.1 hi)).trans h⟩
    have := Finset.card_le_card h1
    rw [Fin.card_Iic] at this
    omega
  · intro h
    by_contra hc
    have h1 : (Finset.univ.filter fun j => cp j ≤ t) ⊆ Finset.Iio j := by
      intro i hi
      rw [Finset.mem_filter] at hi
      rw [Finset.mem_Iio]
      by_contra hij
      exact hc ((hcp (not_lt.1 hij)).trans hi.2)
    have := Finset.card_le_card h1
    rw [Fin.card_Iio] at this
    omega

variable (ker : Fin (m + 1) → Stationary o d) (cp : Fin m → ℝ) {j : ℝ} {K : Piecewise o d}

/-- C30: `split_time_indices` returns, for every time, the number of change points not after it. -/
theorem C30_split_indices (hK : Piecewise.init (List.ofFn ker) (List.ofFn cp) j = .ok K) (hm : 0 < m)
    {ts : List ℝ} (ht : ∀ t ∈ ts, -approxInf ≤ t ∧ t < approxInf) :
    K.splitTimeIndices approxInf ts = ts.map fun t => ((segment cp t : ℕ) : ℤ) := by
  unfold Piecewise.init at hK
  split_ifs at hK
  cases hK
  exact Piecewise.splitTimeIndices_eq _ hm j ht

/-- C30: for sorted times the transitions, offsets, process covariances and emissions are, position by
position, those of the kernel active at that time. -/
theorem C30_sorted_times (hK : Piecewise.init (List.ofFn ker) (List.ofFn cp) j = .ok K) (hm : 0 < m)
    {ts δs : List ℝ} (hl : ts.length = δs.length) (hs : ts.Pairwise (· ≤ ·))
    (ht : ∀ t ∈ ts, -approxInf ≤ t ∧ t < approxInf) :
    K.stateTransitions approxInf ts δs =
      .ok (List.zipWith (fun t δ => (ker (segment cp t)).stateTransitions t δ) ts δs) ∧
    K.stateOffsets approxInf ts δs =
      .ok (List.zipWith (fun t δ => (ker (segment cp t)).stateOffsets t δ) ts δs) ∧
    K.emissions approxInf ts = .ok (ts.map fun t => (ker (segment cp t)).emission t) ∧
    K.transitionStatistics approxInf ts δs =
      .ok (List.zipWith (fun t δ => (ker (segment cp t)).stateTransitions t δ) ts δs,
        List.zipWith (fun t δ => (ker (segment cp t)).Pinf -
          (ker (segment cp t)).stateTransitions t δ * (ker (segment cp t)).Pinf *
            ((ker (segment cp t)).stateTransitions t δ)ᵀ + jitterMatrix d j) ts δs) := by
  unfold Piecewise.init at hK
  split_ifs at hK
  cases hK
  have h1 := Piecewise.split_apply ker cp j (fun k a => k.stateTransitions a.1 a.2) hm hl hs ht
  refine ⟨h1, Piecewise.split_apply ker cp j (fun k a => k.stateOffsets a.1 a.2) hm hl hs ht,
    Piecewise.split_apply1 ker cp j (fun k t => k.emission t) hm hs ht, ?_⟩
  have h2 := Piecewise.gather_split ker cp j (·.Pinf) hm ht
  have h1' : (Piecewise.mk (List.ofFn ker) (List.ofFn cp) j).stateTransitions approxInf ts δs = _ := h1
  unfold Piecewise.transitionStatistics
  rw [h1']
  simp only [bind, Except.bind, pure, Except.pure, Piecewise.steadyStateCovariances, h2]
  congr 2
  clear h1 h1' h2 hs ht
  induction ts generalizing δs with
  | nil => simp
  | cons t ts ih =>
    cases δs with
    | nil => simp at hl
    | cons δ δs =>
      rw [List.zipWith_cons_cons, List.map_cons, List.zipWith_cons_cons, List.zipWith_cons_cons,
        ih (by simpa using hl)]

/-- C30: the per-time attributes are those of the active kernel, for times in any order. -/
theorem C30_any_order (hK : Piecewise.init (List.ofFn ker) (List.ofFn cp) j = .ok K) (hm : 0 < m)
    {ts : List ℝ} (ht : ∀ t ∈ ts, -approxInf ≤ t ∧ t < approxInf) :
    K.steadyStateCovariances approxInf ts = .ok (ts.map fun t => (ker (segment cp t)).Pinf) ∧
    K.feedbackMatrices approxInf ts = .ok (ts.map fun t => (ker (segment cp t)).feedback) ∧
    K.stateMeans approxInf ts = .ok (ts.map fun t => (ker (segment cp t)).stateMean) := by
  unfold Piecewise.init at hK
  split_ifs at hK
  cases hK
  exact ⟨Piecewise.gather_split ker cp j _ hm ht, Piecewise.gather_split ker cp j _ hm ht,
    Piecewise.gather_split ker cp j _ hm ht⟩

theorem toFin_zipWith {α : Type} (f : ℝ → ℝ → α) (a b : Fin n → ℝ) :
    Piecewise.toFin n (List.zipWith f (List.ofFn a) (List.ofFn b)) = .ok fun i => f (a i) (b i) := by
  unfold Piecewise.toFin
  rw [dif_pos (by simp)]
  congr 1
  funext i
  simp [List.getElem_zipWith]

/-- C30: hence the state space model of a piecewise kernel is built from the kernel active at the
*start* of each transition. -/
theorem C30_state_space_model (hK : Piecewise.init (List.ofFn ker) (List.ofFn cp) j = .ok K)
    (hm : 0 < m) {ts : Fin (n + 1) → ℝ} (hs : Monotone ts)
    (ht : ∀ i, -approxInf ≤ ts i ∧ ts i < approxInf) :
    K.stateSpaceModel approxInf ts =
      ssmFromCovariances 0 (ker (segment cp (ts 0))).Pinf
        (fun k => (ker (segment cp (ts k.castSucc))).stateTransitions (ts k.castSucc)
          (ts k.succ - ts k.castSucc))
        (fun k => (ker (segment cp (ts k.castSucc))).stateOffsets (ts k.castSucc)
          (ts k.succ - ts k.castSucc))
        (fun k => (ker (segment cp (ts k.castSucc))).Pinf -
          (ker (segment cp (ts k.castSucc))).stateTransitions (ts k.castSucc)
            (ts k.succ - ts k.castSucc) * (ker (segment cp (ts k.castSucc))).Pinf *
          ((ker (segment cp (ts k.castSucc))).stateTransitions (ts k.castSucc)
            (ts k.succ - ts k.castSucc))ᵀ + jitterMatrix d j) := by
  have hsort : (List.ofFn fun k : Fin n => ts k.castSucc).Pairwise (· ≤ ·) := by
    rw [List.pairwise_ofFn]
    intro a b hab
    exact hs (Fin.castSucc_le_castSucc_iff.2 hab.le)
  have hr : ∀ t ∈ List.ofFn fun k : Fin n => ts k.castSucc, -approxInf ≤ t ∧ t < approxInf := by
    intro t htm
    obtain ⟨i, rfl⟩ := (List.mem_ofFn' _ _).1 htm
    exact ht _
  obtain ⟨-, h2, -, h4⟩ := C30_sorted_times ker cp hK hm
    (δs := List.ofFn fun k : Fin n => ts k.succ - ts k.castSucc) (by simp) hsort hr
  have h5 := (C30_any_order ker cp hK hm (ts := [ts 0]) (by simpa using ht 0)).1
  unfold Piecewise.stateSpaceModel Piecewise.initialCovariance
  rw [toDeltaTime_of_mono hs, h5]
  simp only [bind, Except.bind, h4, h2, toFin_zipWith]
  rfl

/-- C30: two transitions that meet at a time in the same interval compose to the transition between
the outer times: inside an interval the piecewise model is the (time homogeneous) process of that
interval's kernel. -/
theorem C30_composes {k : Fin (m + 1) → ℝ → ℝ → Mat o o} (hb : ∀ i, Builds (ker i) (k i))
    (hK : Piecewise.init (List.ofFn ker) (List.ofFn cp) 0 = .ok K) (hm : 0 < m)
    {s u t : ℝ} (hsu : s ≤ u) (hut : u ≤ t) (hs : -approxInf ≤ s) (hu : u < approxInf)
    (hseg : segment cp s = segment cp u) :
    ∃ A₁ A₂ A₃ Q₁ Q₂ Q₃, K.transitionStatistics approxInf [s, u] [u - s, t - u] = .ok ([A₁, A₂], [Q₁, Q₂]) ∧
      K.transitionStatistics approxInf [s] [t - s] = .ok ([A₃], [Q₃]) ∧
      A₃ = A₂ * A₁ ∧ Q₃ = A₂ * Q₁ * A₂ᵀ + Q₂ := by
  obtain ⟨-, -, -, h4⟩ := C30_sorted_times ker cp hK hm (ts := [s, u]) (δs := [u - s, t - u]) rfl
    (by simpa using hsu) (by
      intro x hx
      rcases List.mem_cons.1 hx with rfl | hx
      · exact ⟨hs, hsu.trans_lt hu⟩
      · rw [List.mem_singleton.1 hx]; exact ⟨hs.trans hsu, hu⟩)
  obtain ⟨-, -, -, h5⟩ := C30_sorted_times ker cp hK hm (ts := [s]) (δs := [t - s]) rfl
    (by simp) (by
      intro x hx
      rw [List.mem_singleton.1 hx]; exact ⟨hs, hsu.trans_lt hu⟩)
  refine ⟨_, _, _, _, _, _, h4, h5, ?_⟩
  beta_reduce
  rw [← hseg]
  set c := ker (segment cp s)
  obtain ⟨hc, -, -⟩ := Builds.good (hb (segment cp s))
  have e : t - s = (t - u) + (u - s) := by ring
  have hA : c.stateTransitions s (t - s) = c.stateTransitions u (t - u) * c.stateTransitions s (u - s) := by
    rw [hc.time s, hc.time u, hc.time s, e, hc.add]
  refine ⟨hA, ?_⟩
  rw [hA, jitterMatrix_zero, transpose_mul]
  noncomm_ring

/-- C30: times at or beyond the internal infinity (`1e10`) are rejected rather than given to a wrong
kernel. -/
theorem C30_out_of_range (hK : Piecewise.init (List.ofFn ker) (List.ofFn cp) j = .ok K)
    (hm : 0 < m) {t δ : ℝ} (hcp : ∀ i, cp i < approxInf) (ht : approxInf ≤ t) :
    K.stateTransitions approxInf [t] [δ] = .error .invalidArgument := by
  unfold Piecewise.init at hK
  split_ifs at hK
  cases hK
  have hpos : (0 : ℝ) < approxInf := by norm_num [approxInf]
  have hi : (Piecewise.mk (List.ofFn ker) (List.ofFn cp) j).splitTimeIndices approxInf [t] =
      [((m + 1 : ℕ) : ℤ)] := by
    unfold Piecewise.splitTimeIndices
    simp only
    have hl : ((List.ofFn cp).drop ((List.ofFn cp).length - 1)).length = 1 := by
      rw [List.length_drop, List.length_ofFn]; omega
    have hseg : (segment cp t : ℕ) = m := by
      classical
      show (Finset.univ.filter fun j => cp j ≤ t).card = m
      rw [Finset.filter_true_of_mem fun i _ => ((hcp i).le.trans ht)]
      simp
    rw [List.map_singleton, List.map_const', List.map_const', hl, List.countP_append,
      List.countP_append, countP_ofFn, hseg]
    have e1 : (List.replicate 1 (-approxInf)).countP (fun c => decide (c ≤ t)) = 1 := by
      simp; linarith
    have e2 : (List.replicate 1 approxInf).countP (fun c => decide (c ≤ t)) = 1 := by
      simp [ht]
    rw [e1, e2]; push_cast; congr 1; ring
  unfold Piecewise.stateTransitions
  simp only [hi]
  unfold Piecewise.splitInput dynamicPartition
  rw [if_neg (by simp)]
  rfl

/-! ### Findings -/

/-- The two Ornstein–Uhlenbeck kernels of the findings below: decay 1 before, 2 after time zero. -/
theorem exists_two_ou : ∃ k₀ k₁ : Stationary 1 1, ornsteinUhlenbeck 1 1 1 0 = .ok k₀ ∧
    ornsteinUhlenbeck 1 2 1 0 = .ok k₁ ∧ (∀ t δ, k₀.stateTransitions t δ = !![Real.exp (-δ * 1)]) ∧
    (∀ t δ, k₁.stateTransitions t δ = !![Real.exp (-δ * 2)]) ∧
    k₀.stateOffsets = statOffsets k₀.stateTransitions 0 := by
  have hk : ∀ dec : ℝ, 0 < dec → ∃ K : Stationary 1 1, ornsteinUhlenbeck 1 dec 1 0 = .ok K ∧
      (∀ t δ, K.stateTransitions t δ = !![Real.exp (-δ * dec)]) ∧
      K.stateOffsets = statOffsets K.stateTransitions 0 := by
    intro dec h
    refine ⟨_, by unfold ornsteinUhlenbeck kernelInit; rw [if_neg (by simp), if_neg (by simp [h])],
      fun t δ => rfl, rfl⟩
  obtain ⟨k₀, a0, b0, c0⟩ := hk 1 one_pos
  obtain ⟨k₁, a1, b1, -⟩ := hk 2 two_pos
  exact ⟨k₀, k₁, a0, a1, b0, b1, c0⟩

theorem segment_zero (t : ℝ) : segment (fun _ : Fin 1 => (0 : ℝ)) t = if 0 ≤ t then 1 else 0 := by
  classical
  apply Fin.ext
  show (Finset.univ.filter fun _ : Fin 1 => (0 : ℝ) ≤ t).card = _
  by_cases h : 0 ≤ t
  · rw [if_pos h, Finset.filter_true_of_mem fun _ _ => h]; rfl
  · rw [if_neg h, Finset.filter_false_of_mem fun _ _ => h]; rfl

/-- Finding: a transition across a change point is taken with the left kernel only, so it is not the
composition of the two transitions meeting at the change point (the class docstring warns about
this). -/
theorem C30_crossing_uses_left_kernel : ∃ (K : Piecewise 1 1) (A₁ A₂ A₃ : Mat 1 1),
    K.stateTransitions approxInf [-1, 0] [1, 1] = .ok [A₁, A₂] ∧
    K.stateTransitions approxInf [-1] [2] = .ok [A₃] ∧ A₃ ≠ A₂ * A₁ := by
  obtain ⟨k₀, k₁, -, -, h0, h1, -⟩ := exists_two_ou
  have hK : Piecewise.init (List.ofFn ![k₀, k₁]) (List.ofFn fun _ : Fin 1 => (0 : ℝ)) 0 =
      .ok ⟨List.ofFn ![k₀, k₁], List.ofFn fun _ : Fin 1 => (0 : ℝ), 0⟩ := by
    unfold Piecewise.init; rw [if_neg (by simp), if_neg (by simp)]
  have r : ∀ x : ℝ, x = -1 ∨ x = 0 → -approxInf ≤ x ∧ x < approxInf := by
    rintro x (rfl | rfl) <;> norm_num [approxInf]
  have e1 := (C30_sorted_times ![k₀, k₁] (fun _ : Fin 1 => (0 : ℝ)) hK one_pos (ts := [-1, 0])
    (δs := [1, 1]) rfl (by simp) (fun x hx => r x (by simpa using hx))).1
  have e2 := (C30_sorted_times ![k₀, k₁] (fun _ : Fin 1 => (0 : ℝ)) hK one_pos (ts := [-1])
    (δs := [2]) rfl (by simp) (fun x hx => r x (Or.inl (by simpa using hx)))).1
  refine ⟨_, _, _, _, e1, e2, ?_⟩
  beta_reduce
  rw [segment_zero, segment_zero, if_neg (by norm_num), if_pos le_rfl]
  show k₀.stateTransitions _ _ ≠ k₁.stateTransitions _ _ * k₀.stateTransitions _ _
  rw [h0, h0, h1]
  intro h
  have := congrFun (congrFun h 0) 0
  simp only [mul_apply, Fin.sum_univ_one, Matrix.of_apply, cons_val', cons_val_fin_one] at this
  rw [← Real.exp_add] at this
  have := Real.exp_injective this
  norm_num at this

/-- Finding: for times that are not sorted the results are returned in the order of the intervals, not
of the times. -/
theorem C30_unsorted_times : ∃ (K : Piecewise 1 1) (k₀ k₁ : Stationary 1 1),
    K.kernels = [k₀, k₁] ∧ K.changePoints = [0] ∧
    K.stateTransitions approxInf [1, -1] [1, 1] =
      .ok [k₀.stateTransitions (-1) 1, k₁.stateTransitions 1 1] ∧
    k₀.stateTransitions (-1) 1 ≠ k₁.stateTransitions 1 1 := by
  obtain ⟨k₀, k₁, -, -, h0, h1, -⟩ := exists_two_ou
  refine ⟨⟨[k₀, k₁], [0], 0⟩, k₀, k₁, rfl, rfl, ?_, ?_⟩
  · have hi : (Piecewise.mk [k₀, k₁] [(0 : ℝ)] 0).splitTimeIndices approxInf [1, -1] = [1, 0] := by
      have := Piecewise.splitTimeIndices_eq [k₀, k₁] (cp := fun _ : Fin 1 => (0 : ℝ)) one_pos 0
        (inf := approxInf) (ts := [1, -1]) (by
          intro t ht
          rcases List.mem_cons.1 ht with rfl | ht
          · norm_num [approxInf]
          · rw [List.mem_singleton.1 ht]; norm_num [approxInf])
      simp only [List.map_cons, List.map_nil, segment_zero] at this
      rw [if_pos (by norm_num), if_neg (by norm_num)] at this
      simpa using this
    unfold Piecewise.stateTransitions
    simp only [hi]
    unfold Piecewise.splitInput dynamicPartition
    rw [if_pos (by simp), if_pos (by simp)]
    simp [bind, Except.bind, pure, Except.pure, Piecewise.applyKernels, List.range_succ]
  · rw [h0, h1]
    intro h
    have := congrFun (congrFun h 0) 0
    have := Real.exp_injective this
    norm_num at this

/-- C30: a piecewise kernel of noise-driven children (Matérn, Ornstein–Uhlenbeck, ...) gives a state space
model for all strictly increasing times in range. -/
theorem C30_succeeds {k : Fin (m + 1) → ℝ → ℝ → Mat o o} {b : Fin (m + 1) → Bool}
    (hb : ∀ i, Builds (ker i) (k i)) (hN : ∀ i, NoiseTag (ker i) (b i))
    (hK : Piecewise.init (List.ofFn ker) (List.ofFn cp) j = .ok K) (hm : 0 < m) (hn : 0 < n)
    {ts : Fin (n + 1) → ℝ} (hs : StrictMono ts) (ht : ∀ i, -approxInf ≤ ts i ∧ ts i < approxInf) :
    ∃ s, K.stateSpaceModel approxInf ts = .ok s ∧ s.mu0 = 0 ∧
      s.initialCovariance = (ker (segment cp (ts 0))).Pinf ∧
      ∀ i : Fin n, s.A i = (ker (segment cp (ts i.castSucc))).stateTransitions (ts i.castSucc)
        (ts i.succ - ts i.castSucc) ∧ s.b i = 0 := by
  have hj : 0 ≤ j := by
    unfold Piecewise.init at hK
    split_ifs at hK with h1 h2
    exact h2
  have hd : 0 < d := (Builds.good (hb 0)).1.pos
  have hP : ∀ i, (ker i).Pinf.PosDef := fun i => (NoiseTag.noisy (hN i)).2.pd
  have hQ : ∀ (i : Fin (m + 1)) (t δ : ℝ), 0 < δ →
      (ker i).Pinf - (ker i).stateTransitions t δ * (ker i).Pinf * ((ker i).stateTransitions t δ)ᵀ +
        jitterMatrix d j = 0 ∨ ((ker i).Pinf - (ker i).stateTransitions t δ * (ker i).Pinf *
          ((ker i).stateTransitions t δ)ᵀ + jitterMatrix d j).PosDef := by
    intro i t δ hδ
    obtain ⟨hc, -, -⟩ := Builds.good (hb i)
    obtain ⟨-, hNi⟩ := NoiseTag.noisy (hN i)
    rw [hc.time t]
    rcases hj.lt_or_eq with h | h
    · exact Or.inr (PosDef.posSemidef_add (hc.contr _ hδ.le) (posDef_jitter d h))
    · rw [← h, jitterMatrix_zero, add_zero]
      cases hbi : b i with
      | true => exact Or.inr (hNi.strict hbi _ hδ)
      | false => exact Or.inl (hNi.zero hbi _ hδ.le)
  rw [C30_state_space_model ker cp hK hm hs.monotone ht]
  have hpos : ∀ i : Fin n, 0 < ts i.succ - ts i.castSucc := fun i => sub_pos.2 (hs Fin.castSucc_lt_succ)
  obtain ⟨c0, hc0, hc0'⟩ := choleskyOrZero_ok hd (Or.inr (hP (segment cp (ts 0))))
  obtain ⟨cq, hcq, -⟩ := choleskyOrZeros_ok hd (n := n) (q := fun i =>
      (ker (segment cp (ts i.castSucc))).Pinf -
          (ker (segment cp (ts i.castSucc))).stateTransitions (ts i.castSucc)
            (ts i.succ - ts i.castSucc) * (ker (segment cp (ts i.castSucc))).Pinf *
          ((ker (segment cp (ts i.castSucc))).stateTransitions (ts i.castSucc)
            (ts i.succ - ts i.castSucc))ᵀ + jitterMatrix d j) (fun i => hQ _ _ _ (hpos i))
  refine ⟨⟨0, c0, fun i => (ker (segment cp (ts i.castSucc))).stateTransitions (ts i.castSucc)
      (ts i.succ - ts i.castSucc), fun i => (ker (segment cp (ts i.castSucc))).stateOffsets
      (ts i.castSucc) (ts i.succ - ts i.castSucc), cq⟩, ?_, rfl, ?_, fun i => ⟨rfl, ?_⟩⟩
  · unfold ssmFromCovariances
    rw [if_neg (by omega), hc0, hcq]; rfl
  · rcases hc0' with ⟨h0, -⟩ | ⟨-, h⟩
    · exfalso
      have := (hP (segment cp (ts 0))).diag_pos (i := (⟨0, hd⟩ : Fin d))
      rw [h0] at this; exact lt_irrefl _ this
    · exact h.mul_transpose
  · exact (Builds.good (hb _)).2.1.offs _ _

/-- Non-vacuity of the hypotheses of C30: a kernel with one change point, times on both sides. -/
example : ∃ (K : Piecewise 1 1) (k₀ k₁ : Stationary 1 1) (s : SSM 2 1),
    Piecewise.init (List.ofFn ![k₀, k₁]) (List.ofFn fun _ : Fin 1 => (0 : ℝ)) 0 = .ok K ∧
    K.stateSpaceModel approxInf ![-1, 0, 1] = .ok s ∧ s.A 0 = !![Real.exp (-1)] ∧
    s.A 1 = !![Real.exp (-2)] := by
  obtain ⟨k₀, k₁, a0, a1, h0, h1, -⟩ := exists_two_ou
  have hK : Piecewise.init (List.ofFn ![k₀, k₁]) (List.ofFn fun _ : Fin 1 => (0 : ℝ)) 0 =
      .ok ⟨List.ofFn ![k₀, k₁], List.ofFn fun _ : Fin 1 => (0 : ℝ), 0⟩ := by
    unfold Piecewise.init; rw [if_neg (by simp), if_neg (by simp)]
  have hmono : StrictMono ![(-1 : ℝ), 0, 1] := by
    rw [Fin.strictMono_iff_lt_succ]
    intro i; fin_cases i
    · show (-1 : ℝ) < 0; norm_num
    · show (0 : ℝ) < 1; norm_num
  have hr : ∀ i, -approxInf ≤ ![(-1 : ℝ), 0, 1] i ∧ ![(-1 : ℝ), 0, 1] i < approxInf := by
    intro i; fin_cases i <;> norm_num [approxInf]
  obtain ⟨s, hs, -, -, hA⟩ := C30_succeeds ![k₀, k₁] (fun _ : Fin 1 => (0 : ℝ))
    (k := ![iso (ouCov 1 1), iso (ouCov 2 1)]) (b := fun _ => true)
    (by intro i; fin_cases i
        · exact .leaf (.ou a0)
        · exact .leaf (.ou a1))
    (by intro i; fin_cases i
        · exact .ou a0
        · exact .ou a1) hK one_pos (n := 2) two_pos hmono hr
  refine ⟨_, k₀, k₁, s, hK, hs, ?_, ?_⟩
  · rw [(hA 0).1]
    show ((![k₀, k₁] (segment (fun _ : Fin 1 => (0 : ℝ)) (-1))).stateTransitions (-1) (0 - -1)) = _
    rw [segment_zero, if_neg (by norm_num)]
    show k₀.stateTransitions _ _ = _
    rw [h0]; norm_num
  · rw [(hA 1).1]
    show ((![k₀, k₁] (segment (fun _ : Fin 1 => (0 : ℝ)) 0)).stateTransitions 0 (1 - 0)) = _
    rw [segment_zero, if_pos le_rfl]
    show k₁.stateTransitions _ _ = _
    rw [h1]; norm_num

end MF
