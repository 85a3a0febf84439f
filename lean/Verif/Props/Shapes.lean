import Verif.Lemmas.Shapes

/-!
# C42: which shapes the constructors accept

The documented shapes are always accepted, and among tensors of the documented *ranks* nothing else
is.  For tensors of other ranks the checks compare shape vectors with a broadcasting element-wise
equality, and the exact set of accepted shapes is given by the `_exact` theorems.
-/

namespace MF
open MF.Shapes MF.Spec

theorem exists_unit {p : Unit → Prop} : (∃ u, p u) ↔ p () :=
  ⟨fun ⟨_, h⟩ => h, fun h => ⟨_, h⟩⟩

theorem bind_ok_iff {α β : Type} (x : Except Err α) (f : α → Except Err β) (b : β) :
    (x >>= f) = .ok b ↔ ∃ a, x = .ok a ∧ f a = .ok b := by
  cases x <;> simp [bind, Except.bind]

theorem check_ok (e : Err) (b : Bool) : check e b = .ok () ↔ b = true := by
  cases b <;> simp [check]

theorem exists_append (k : ℕ) (s : List ℕ) (h : k ≤ s.length) :
    ∃ batch t, t.length = k ∧ s = batch ++ t :=
  ⟨dropLast k s, takeLast k s, takeLast_length h, (dropLast_takeLast k s).symm⟩

theorem exists_append2 {s : List ℕ} (h : 2 ≤ s.length) : ∃ batch a b, s = batch ++ [a, b] := by
  obtain ⟨batch, t, ht, e⟩ := exists_append 2 s h
  match t, ht with
  | [a, b], _ => exact ⟨batch, a, b, e⟩

theorem exists_append3 {s : List ℕ} (h : 3 ≤ s.length) :
    ∃ batch a b c, s = batch ++ [a, b, c] := by
  obtain ⟨batch, t, ht, e⟩ := exists_append 3 s h
  match t, ht with
  | [a, b, c], _ => exact ⟨batch, a, b, c, e⟩

theorem dimFromEnd_ok {k : ℕ} {s : List ℕ} {v : ℕ} (h : dimFromEnd k s = .ok v) : k ≤ s.length := by
  unfold dimFromEnd at h
  split_ifs at h with hk
  exact hk

theorem dim1 (B : List ℕ) (a : ℕ) : dimFromEnd 1 (B ++ [a]) = .ok a := by simp [dimFromEnd]
theorem dim1_2 (B : List ℕ) (a b : ℕ) : dimFromEnd 1 (B ++ [a, b]) = .ok b := by
  simp [dimFromEnd]
theorem dim2_2 (B : List ℕ) (a b : ℕ) : dimFromEnd 2 (B ++ [a, b]) = .ok a := by
  simp [dimFromEnd]
theorem dim1_3 (B : List ℕ) (a b c : ℕ) : dimFromEnd 1 (B ++ [a, b, c]) = .ok c := by
  simp [dimFromEnd]
theorem dim2_3 (B : List ℕ) (a b c : ℕ) : dimFromEnd 2 (B ++ [a, b, c]) = .ok b := by
  simp [dimFromEnd]
theorem dim3_3 (B : List ℕ) (a b c : ℕ) : dimFromEnd 3 (B ++ [a, b, c]) = .ok a := by
  simp [dimFromEnd]

theorem looselyEqual_eq {x y : List ℕ} (h : LooselyEqual x y)
    (hl : x.length = y.length) : x = y := by
  rcases h with h | ⟨k, rfl, hk⟩ | ⟨k, rfl, hk⟩
  · exact h
  · match y, hl with
    | [b], _ => rw [hk b (by simp)]
  · match x, hl with
    | [b], _ => rw [hk b (by simp)]

theorem looselyEqual_long {s t : List ℕ} (ht : 2 ≤ t.length) :
    LooselyEqual s t ↔ s = t ∨ ∃ k, s = [k] ∧ Constant k t := by
  constructor
  · rintro (h | h | ⟨k, rfl, hk⟩)
    · exact .inl h
    · exact .inr h
    · simp at ht
  · rintro (h | h)
    · exact .inl h
    · exact .inr (.inl h)

/-! ### `StateSpaceModel` -/

/-- Exactly which shapes `StateSpaceModel(...)` accepts: the trailing dimensions are the documented
ones (a scalar mean counts as `[1]`), and the batch shapes are compared with the mean's one through
a broadcasting comparison. -/
theorem C42_state_space_model_exact (mu0 cholP0 A b cholQ : List ℕ) :
    ssmInit mu0 cholP0 A b cholQ = .ok () ↔
      ∃ (n d : ℕ) (B₀ B₁ B₂ B₃ B₄ : List ℕ),
        (mu0 = B₀ ++ [d] ∨ (mu0 = [] ∧ B₀ = [] ∧ d = 1)) ∧ cholP0 = B₁ ++ [d, d] ∧
        A = B₂ ++ [n, d, d] ∧ b = B₃ ++ [n, d] ∧ cholQ = B₄ ++ [n, d, d] ∧
        LooselyEqual B₀ B₁ ∧ LooselyEqual B₀ B₂ ∧ LooselyEqual B₀ B₃ ∧ LooselyEqual B₀ B₄ := by
  have hB₀ : ∀ {B₀ : List ℕ} {d : ℕ}, (mu0 = B₀ ++ [d] ∨ (mu0 = [] ∧ B₀ = [] ∧ d = 1)) →
      dropLast 1 mu0 = B₀ := by
    rintro B₀ d (rfl | ⟨rfl, rfl, -⟩)
    · exact dropLast_append (by simp)
    · rfl
  simp only [ssmInit, bind_ok_iff, assertShapes_ok, assertEqual_ok, List.forall_mem_cons,
    List.not_mem_nil, false_imp_iff, implies_true, and_true, exists_const, exists_unit, Holds,
    Bool.true_eq_false, true_and, List.map_cons, List.map_nil, evalDim]
  simp only [dimensionSizes_eq_append (t := [_, _]) (by simp),
    dimensionSizes_eq_append (t := [_, _, _]) (by simp), dimensionSizes_eq_one]
  constructor
  · rintro ⟨⟨σ, ⟨B₀, h₀⟩, ⟨B₁, h₁⟩, ⟨B₂, h₂⟩, ⟨B₃, h₃⟩, ⟨B₄, h₄⟩⟩, l₁, l₂, l₃, l₄⟩
    rw [hB₀ h₀] at l₁ l₂ l₃ l₄
    rw [h₁, dropLast_append (by simp)] at l₁
    rw [h₂, dropLast_append (by simp)] at l₂
    rw [h₃, dropLast_append (by simp)] at l₃
    rw [h₄, dropLast_append (by simp)] at l₄
    exact ⟨σ "num_transitions", σ "state_dim", B₀, B₁, B₂, B₃, B₄, h₀, h₁, h₂, h₃, h₄, l₁, l₂, l₃, l₄⟩
  · rintro ⟨n, d, B₀, B₁, B₂, B₃, B₄, h₀, rfl, rfl, rfl, rfl, l₁, l₂, l₃, l₄⟩
    rw [hB₀ h₀, dropLast_append (by simp), dropLast_append (by simp), dropLast_append (by simp),
      dropLast_append (by simp)]
    refine ⟨⟨fun s => if s = "state_dim" then d else n, ⟨B₀, ?_⟩, ⟨B₁, ?_⟩, ⟨B₂, ?_⟩, ⟨B₃, ?_⟩, ⟨B₄, ?_⟩⟩, l₁, l₂, l₃, l₄⟩
    · simpa using h₀
    all_goals simp

/-- **C42** (state space models).  Among arguments whose ranks are the documented ones (the
Cholesky factor of the initial covariance and the offsets have one axis more than the mean, the
transitions and process covariances two more) the constructor succeeds exactly when the documented
relations hold, and raises otherwise. -/
theorem C42_state_space_model (mu0 cholP0 A b cholQ : List ℕ)
    (hP : cholP0.length = mu0.length + 1) (hA : A.length = mu0.length + 2)
    (hb : b.length = mu0.length + 1) (hQ : cholQ.length = mu0.length + 2) :
    ssmInit mu0 cholP0 A b cholQ = .ok () ↔
      ∃ batch n d, SSMShapes batch n d mu0 cholP0 A b cholQ := by
  rw [C42_state_space_model_exact]
  constructor
  · rintro ⟨n, d, B₀, B₁, B₂, B₃, B₄, h₀ | ⟨h₀, -, -⟩, h₁, h₂, h₃, h₄, l₁, l₂, l₃, l₄⟩
    · subst h₀ h₁ h₂ h₃ h₄
      simp at hP hA hb hQ
      rw [← looselyEqual_eq l₁ (by omega), ← looselyEqual_eq l₂ (by omega),
        ← looselyEqual_eq l₃ (by omega), ← looselyEqual_eq l₄ (by omega)]
      exact ⟨B₀, n, d, rfl, rfl, rfl, rfl, rfl⟩
    · subst h₀ h₁; simp at hP
  · rintro ⟨B, n, d, h₀, h₁, h₂, h₃, h₄⟩
    exact ⟨n, d, B, B, B, B, B, .inl h₀, h₁, h₂, h₃, h₄, .inl rfl, .inl rfl, .inl rfl, .inl rfl⟩

/-- The documented shapes are accepted, and then the object reports the documented
`event_shape = [num_transitions + 1, state_dim]`, `batch_shape`, `state_dim` and
`num_transitions`. -/
theorem C42_state_space_model_documented {batch : List ℕ} {n d : ℕ} {mu0 cholP0 A b cholQ : List ℕ}
    (h : SSMShapes batch n d mu0 cholP0 A b cholQ) :
    ssmInit mu0 cholP0 A b cholQ = .ok () ∧ ssmEventShape mu0 b = .ok [n + 1, d] ∧
      ssmBatchShape A = batch ∧ ssmStateDim A = .ok d ∧ ssmNumTransitions A = .ok n := by
  obtain ⟨h₀, h₁, h₂, h₃, h₄⟩ := h
  refine ⟨(C42_state_space_model_exact ..).2 ⟨n, d, batch, batch, batch, batch, batch, .inl h₀, h₁,
    h₂, h₃, h₄, .inl rfl, .inl rfl, .inl rfl, .inl rfl⟩, ?_, ?_, ?_, ?_⟩
  · subst h₀ h₃
    simp only [ssmEventShape, ssmConcatenatedOffsets, concatAxis2, bind, Except.bind, dim1,
      dim1_2, dim2_2, dropLast_append (t := [_]) (k := 1) rfl,
      dropLast_append (t := [_, _]) (k := 2) rfl, and_self, if_true, pure, Except.pure,
      takeLast_append (t := [_, _]) (k := 2) rfl, add_comm 1 n]
  · subst h₂; exact dropLast_append (by simp)
  · subst h₂; exact dim2_3 ..
  · subst h₂; exact dim3_3 ..

/-- The comment "assert batch shapes are exactly matching" is not what is checked: a mean with a
batch axis (of any size) is accepted together with unbatched matrices, because comparing a shape
vector of length one with an empty one is vacuous ... -/
theorem C42_batch_mismatch_accepted (k n d : ℕ) :
    ssmInit [k, d] [d, d] [n, d, d] [n, d] [n, d, d] = .ok () ∧
      ¬ ∃ batch n' d', SSMShapes batch n' d' [k, d] [d, d] [n, d, d] [n, d] [n, d, d] := by
  constructor
  · refine (C42_state_space_model_exact ..).2 ⟨n, d, [k], [], [], [], [], .inl rfl, rfl, rfl, rfl, rfl, ?_⟩
    have : LooselyEqual [k] [] := .inr (.inl ⟨k, rfl, by simp [Constant]⟩)
    exact ⟨this, this, this, this⟩
  · rintro ⟨B, n', d', h₀, h₁, -⟩
    have h₀ := congrArg List.length h₀
    have h₁ := congrArg List.length h₁
    simp only [List.length_append, List.length_cons, List.length_nil] at h₀ h₁
    omega

/-- ... and a scalar is accepted as the mean of a one dimensional state. -/
theorem C42_scalar_mean_accepted (n : ℕ) : ssmInit [] [1, 1] [n, 1, 1] [n, 1] [n, 1, 1] = .ok () :=
  (C42_state_space_model_exact ..).2 ⟨n, 1, [], [], [], [], [], .inr ⟨rfl, rfl, rfl⟩, rfl, rfl, rfl,
    rfl, .inl rfl, .inl rfl, .inl rfl, .inl rfl⟩

/-- An accepted model whose mean and offsets do not have the same batch shape is unusable: whenever
`event_shape` can be computed, the mean and the offsets have the documented shapes. -/
theorem C42_event_shape {mu0 b e : List ℕ} (he : ssmEventShape mu0 b = .ok e) :
    ∃ batch n d, mu0 = batch ++ [d] ∧ b = batch ++ [n, d] ∧ e = [n + 1, d] := by
  simp only [ssmEventShape, ssmConcatenatedOffsets, bind_ok_iff, concatAxis2] at he
  obtain ⟨s, ⟨d, hd, nx, hnx, dx, hdx, ny, hny, dy, hdy, hs⟩, hs'⟩ := he
  obtain ⟨B₀, t, ht, rfl⟩ := exists_append 1 mu0 (dimFromEnd_ok hd)
  match t, ht with
  | [d₀], _ =>
  obtain ⟨B, n, d₁, rfl⟩ := exists_append2 (dimFromEnd_ok hny)
  rw [dim1] at hd
  obtain rfl := Except.ok.inj hd
  rw [dropLast_append (t := [_]) (k := 1) rfl] at hnx hdx hs
  rw [dim2_2] at hnx hny
  rw [dim1_2] at hdx hdy
  rw [dropLast_append (t := [_, _]) (k := 2) rfl, dropLast_append (t := [_, _]) (k := 2) rfl] at hs
  obtain rfl := Except.ok.inj hnx
  obtain rfl := Except.ok.inj hdx
  obtain rfl := Except.ok.inj hny
  obtain rfl := Except.ok.inj hdy
  split_ifs at hs with hc
  obtain ⟨rfl, rfl⟩ := hc
  obtain rfl := Except.ok.inj hs
  obtain rfl := Except.ok.inj hs'
  exact ⟨B₀, n, d₀, rfl, rfl, by rw [takeLast_append (by simp), add_comm]⟩

/-- Two state space models are `check_compatible` exactly when they have the same state dimension
and number of transitions and (loosely) the same batch shape. -/
theorem C42_check_compatible (B₁ B₂ : List ℕ) (n₁ n₂ d₁ d₂ : ℕ) :
    checkCompatible (B₁ ++ [n₁, d₁, d₁]) (B₂ ++ [n₂, d₂, d₂]) = .ok () ↔
      d₁ = d₂ ∧ n₁ = n₂ ∧ LooselyEqual B₁ B₂ := by
  simp only [checkCompatible, ssmStateDim, ssmBatchShape, ssmNumTransitions, dim2_3, dim3_3,
    dropLast_append (t := [_, _, _]) (k := 3) rfl, bind_ok_iff, check_ok, assertEqual_ok,
    Except.ok.injEq, exists_eq_left', beq_iff_eq, exists_unit]
  tauto

/-- A trajectory may be evaluated exactly when its last two axes are the event shape (or, for a
rank-one argument, when it is `[k]` and the event shape is `[k, k]`). -/
theorem C42_log_pdf_states {batch : List ℕ} {n d : ℕ} {mu0 cholP0 A b cholQ : List ℕ}
    (h : SSMShapes batch n d mu0 cholP0 A b cholQ) (states : List ℕ) :
    logPdfStatesCheck mu0 b states = .ok () ↔
      (∃ sample, states = sample ++ [n + 1, d]) ∨ (n + 1 = d ∧ states = [d]) := by
  simp only [logPdfStatesCheck, (C42_state_space_model_documented h).2.1, bind_ok_iff,
    Except.ok.injEq, exists_eq_left', assertEqual_ok]
  rw [looselyEqual_long (by simp)]
  constructor
  · rintro (e | ⟨k, e, hk⟩)
    · exact .inl ⟨dropLast 2 states, by rw [← e, dropLast_takeLast]⟩
    · have h1 := hk (n + 1) (by simp)
      have h2 := hk d (by simp)
      refine .inr ⟨by omega, ?_⟩
      have hl := congrArg List.length e
      simp only [takeLast, List.length_drop, List.length_cons, List.length_nil] at hl
      have : states.length - 2 = 0 := by omega
      rw [takeLast, this, List.drop_zero] at e
      rw [e, h2]
  · rintro (⟨sample, rfl⟩ | ⟨hn, rfl⟩)
    · exact .inl (takeLast_append (by simp))
    · exact .inr ⟨d, rfl, by simp [Constant, hn]⟩

/-! ### `BlockTriDiagonal` -/

/-- Exactly which shapes `BlockTriDiagonal(...)` accepts. -/
theorem C42_block_tri_exact (diag : List ℕ) (sub : Option (List ℕ)) :
    blockTriInit diag sub = .ok () ↔
      ∃ batch n d, diag = batch ++ [n, d, d] ∧ ∀ s, sub = some s → 1 < n ∧
        (s = batch ++ [n - 1, d, d] ∨ (s = [d] ∧ n = d + 1 ∧ Constant d batch)) := by
  simp only [blockTriInit, bind_ok_iff, check_ok, beq_iff_eq, exists_unit, decide_eq_true_eq]
  have key : ∀ (s batch : List ℕ) (n d : ℕ), LooselyEqual s (batch ++ [n - 1, d, d]) ∧ 1 < n ↔
      1 < n ∧ (s = batch ++ [n - 1, d, d] ∨ (s = [d] ∧ n = d + 1 ∧ Constant d batch)) := by
    intro s batch n d
    rw [looselyEqual_long (by simp), and_comm]
    refine and_congr_right fun hn => or_congr_right ?_
    constructor
    · rintro ⟨k, rfl, hk⟩
      have h1 := hk (n - 1) (by simp)
      have h2 := hk d (by simp)
      subst h2
      exact ⟨rfl, by omega, fun v hv => hk v (by simp [hv])⟩
    · rintro ⟨rfl, rfl, hk⟩
      refine ⟨d, rfl, fun v hv => ?_⟩
      simp only [List.mem_append, List.mem_cons, List.not_mem_nil, or_false] at hv
      rcases hv with hv | hv | hv | hv
      · exact hk v hv
      · omega
      · exact hv
      · exact hv
  constructor
  · rintro ⟨inner, hi, last, hl, hil, outer, ho, -, hsub⟩
    obtain ⟨batch, a, b, c, rfl⟩ := exists_append3 (dimFromEnd_ok ho)
    rw [dim2_3] at hi; rw [dim1_3] at hl; rw [dim3_3] at ho
    obtain rfl := Except.ok.inj hl
    obtain rfl := Except.ok.inj hi
    subst hil
    obtain rfl := Except.ok.inj ho
    refine ⟨batch, a, b, rfl, ?_⟩
    rintro s rfl
    simp only [bind_ok_iff, check_ok, assertEqual_ok, decide_eq_true_eq, exists_unit,
      dropLast_append (t := [_, _, _]) (k := 3) rfl] at hsub
    exact (key s batch a b).1 ⟨hsub.2, hsub.1⟩
  · rintro ⟨batch, n, d, rfl, hs⟩
    refine ⟨d, dim2_3 .., d, dim1_3 .., rfl, n, dim3_3 .., Nat.zero_le _, ?_⟩
    cases sub with
    | none => rfl
    | some s =>
      simp only [bind_ok_iff, check_ok, assertEqual_ok, decide_eq_true_eq, exists_unit,
        dropLast_append (t := [_, _, _]) (k := 3) rfl]
      have := (key s batch n d).2 (hs s rfl)
      exact ⟨this.2, this.1⟩

/-- **C42** (block tri-diagonal matrices): if the sub-diagonal has the same rank as the diagonal,
the constructor succeeds exactly on the documented shapes. -/
theorem C42_block_tri (diag : List ℕ) (sub : Option (List ℕ))
    (hr : ∀ s, sub = some s → s.length = diag.length) :
    blockTriInit diag sub = .ok () ↔ ∃ batch n d, BlockTriShapes batch n d diag sub := by
  rw [C42_block_tri_exact]
  constructor
  · rintro ⟨batch, n, d, rfl, h⟩
    refine ⟨batch, n, d, rfl, fun s hs => ⟨(h s hs).1, ?_⟩⟩
    rcases (h s hs).2 with e | ⟨e, -, -⟩
    · exact e
    · have := hr s hs
      rw [e] at this; simp at this
  · rintro ⟨batch, n, d, rfl, h⟩
    exact ⟨batch, n, d, rfl, fun s hs => ⟨(h s hs).1, .inl (h s hs).2⟩⟩

/-- The assertion "Outer dimensions of the block matrix must be greater than 0" never fires: a
matrix without blocks is accepted. -/
theorem C42_block_tri_no_blocks_accepted (batch : List ℕ) (d : ℕ) :
    blockTriInit (batch ++ [0, d, d]) none = .ok () :=
  (C42_block_tri_exact ..).2 ⟨batch, 0, d, rfl, by simp⟩

/-- A rank-one "sub-diagonal" is accepted if its length is the block size and there is one block
more than that. -/
theorem C42_block_tri_vector_accepted (d : ℕ) (hd : 0 < d) :
    blockTriInit [d + 1, d, d] (some [d]) = .ok () ∧
      ¬ ∃ batch n d', BlockTriShapes batch n d' [d + 1, d, d] (some [d]) := by
  constructor
  · refine (C42_block_tri_exact ..).2 ⟨[], d + 1, d, rfl, ?_⟩
    rintro s h
    obtain rfl := Option.some.inj h
    exact ⟨by omega, .inr ⟨rfl, rfl, by simp [Constant]⟩⟩
  · rintro ⟨batch, n, d', -, h⟩
    have := congrArg List.length (h _ rfl).2
    simp at this

/-! ### The right-hand side of `solve` and `dense_mult` -/

theorem broadcastRev_of_forall (x y : List ℕ) (h : ∀ p ∈ x.zip y, p.1 = p.2 ∨ p.1 = 1 ∨ p.2 = 1) :
    BroadcastRev x y := by
  induction x generalizing y with
  | nil => trivial
  | cons a x ih =>
    cases y with
    | nil => trivial
    | cons b y =>
      simp only [List.zip_cons_cons, List.forall_mem_cons] at h
      exact ⟨h.1, ih y h.2⟩

theorem broadcastRev_iff (x y : List ℕ) :
    BroadcastRev x y ↔ ∀ p ∈ x.zip y, p.1 = p.2 ∨ p.1 = 1 ∨ p.2 = 1 := by
  refine ⟨?_, broadcastRev_of_forall x y⟩
  intro h
  induction x generalizing y with
  | nil => simp
  | cons a x ih =>
    cases y with
    | nil => simp
    | cons b y => exact List.forall_mem_cons.2 ⟨h.1, ih y h.2⟩

theorem zip_reverse {x y : List ℕ} (h : x.length = y.length) :
    x.reverse.zip y.reverse = (x.zip y).reverse := by
  simp only [List.zip_eq_zipWith]
  rw [List.reverse_zipWith h]

/-- Extra leading axes never matter for broadcasting. -/
theorem broadcastable_append (pre x y : List ℕ) (h : x.length = y.length) :
    Broadcastable (pre ++ x) y ↔ ∀ p ∈ x.zip y, p.1 = p.2 ∨ p.1 = 1 ∨ p.2 = 1 := by
  have hu : ∀ (u v w : List ℕ), u.length = v.length → (u ++ w).zip v = u.zip v := by
    intro u
    induction u with
    | nil => intro v w hv; cases v <;> simp_all
    | cons a u ih =>
      intro v w hv
      cases v with
      | nil => simp at hv
      | cons b v => simp [ih v w (by simpa using hv)]
  rw [Broadcastable, broadcastRev_iff, List.reverse_append, hu _ _ _ (by simpa using h),
    zip_reverse h]
  simp only [List.mem_reverse]

theorem allBroadcast_right_iff (rb batch : List ℕ) :
    allBroadcast (fun r s => r == s || (r == 1 || s == 1)) rb batch = some true ↔
      (rb.length = batch.length ∧ ∀ p ∈ rb.zip batch, p.1 = p.2 ∨ p.1 = 1 ∨ p.2 = 1) ∨
      (∃ r, rb = [r] ∧ ∀ s ∈ batch, r = s ∨ r = 1 ∨ s = 1) ∨
      (∃ s, batch = [s] ∧ ∀ r ∈ rb, r = s ∨ r = 1 ∨ s = 1) := by
  unfold allBroadcast
  by_cases h : rb.length = batch.length
  · simp only [h, if_true, Option.some.injEq, List.all_eq_true, Bool.or_eq_true, beq_iff_eq, true_and]
    constructor
    · exact .inl
    · rintro (h' | ⟨r, rfl, h'⟩ | ⟨s, rfl, h'⟩)
      · exact h'
      · match batch, h with
        | [s], _ => simpa using h'
      · match rb, h with
        | [r], _ => simpa using h'
  · simp only [h, if_false, false_and, false_or]
    match rb, batch, h with
    | [], [], h => simp at h
    | [], [b], h => simp
    | [], b :: b' :: y, h => simp
    | [a], [], h => simp
    | [a], [b], h => simp at h
    | [a], b :: b' :: y, h => simp
    | a :: a' :: x, [], h => simp
    | a :: a' :: x, [b], h => simp
    | a :: a' :: x, b :: b' :: y, h => simp

theorem compatibleRight_iff (batch rb : List ℕ) (n d n' d' : ℕ) :
    assertCompatibleRight (batch ++ [n, d, d]) (rb ++ [n', d']) = .ok () ↔
      n' = n ∧ d' = d ∧ (0 < rb.length →
        allBroadcast (fun r s => r == s || (r == 1 || s == 1))
          (takeLast batch.length rb) batch = some true) := by
  have hb : (if (rb ++ [n', d']).length ≥ 2 + batch.length then
        dropLast 2 (takeLast (2 + batch.length) (rb ++ [n', d']))
      else dropLast 2 (rb ++ [n', d'])) = takeLast batch.length rb := by
    rw [dropLast_append (by simp)]
    split_ifs with h
    · simp only [takeLast, dropLast, List.length_append, List.length_cons, List.length_nil,
        List.length_drop] at h ⊢
      rw [List.drop_append_of_le_length (by omega),
        List.take_append_of_le_length (by simp; omega), List.take_of_length_le (by simp; omega)]
      congr 1; omega
    · simp only [takeLast, List.length_append, List.length_cons, List.length_nil] at h ⊢
      rw [show rb.length - batch.length = 0 by omega, List.drop_zero]
  simp only [assertCompatibleRight, dim2_2, dim1_2, dim3_3, dim2_3, bind_ok_iff, Except.ok.injEq,
    exists_eq_left', exists_unit, assertEqual_ok,
    dropLast_append (s := batch) (t := [_, _, _]) (k := 3) rfl, hb]
  have h2 : LooselyEqual [n', d'] [n, d] ↔ n' = n ∧ d' = d := by
    constructor
    · intro h; simpa using looselyEqual_eq h rfl
    · rintro ⟨rfl, rfl⟩; exact .inl rfl
  rw [h2, and_assoc]
  refine and_congr_right fun _ => and_congr_right fun _ => ?_
  by_cases h : 0 < rb.length
  · have : (rb ++ [n', d']).length > 2 := by simp; omega
    simp only [this, if_true, h, true_imp_iff]
    cases allBroadcast (fun r s => r == s || (r == 1 || s == 1)) (takeLast batch.length rb) batch with
    | none => simp
    | some b => simp [check_ok]
  · have hrb : rb = [] := List.length_eq_zero_iff.1 (by omega)
    subst hrb
    simp [pure, Except.pure]

/-- Whatever right-hand side is accepted by `solve` / `dense_mult` has the blocks of the matrix as
its last two axes, and its remaining axes broadcast with the batch shape of the matrix. -/
theorem C42_right_hand_side_sound (batch : List ℕ) (n d : ℕ) (right : List ℕ)
    (h : assertCompatibleRight (batch ++ [n, d, d]) right = .ok ()) :
    ∃ rb, right = rb ++ [n, d] ∧ Broadcastable rb batch := by
  have h2 : 2 ≤ right.length := by
    simp only [assertCompatibleRight, bind_ok_iff] at h
    obtain ⟨v, hv, -⟩ := h
    exact dimFromEnd_ok hv
  obtain ⟨rb, n', d', rfl⟩ := exists_append2 h2
  obtain ⟨rfl, rfl, h'⟩ := (compatibleRight_iff ..).1 h
  refine ⟨rb, rfl, ?_⟩
  rcases Nat.eq_zero_or_pos rb.length with h0 | h0
  · have : rb = [] := List.length_eq_zero_iff.1 h0
    subst this
    simp [Broadcastable, BroadcastRev]
  rcases (allBroadcast_right_iff ..).1 (h' h0) with ⟨hl, hp⟩ | ⟨r, hr, hp⟩ | ⟨s, rfl, hp⟩
  · rw [← dropLast_takeLast batch.length rb, broadcastable_append _ _ _ hl]
    exact hp
  · rcases List.eq_nil_or_concat' batch with rfl | ⟨b0, s, rfl⟩
    · simp only [Broadcastable, List.reverse_nil]
      cases rb.reverse <;> trivial
    · have hs := hp s (by simp)
      have hrb : ∃ pre, rb = pre ++ [r] :=
        ⟨dropLast (b0 ++ [s]).length rb, by rw [← hr]; exact (dropLast_takeLast _ _).symm⟩
      by_cases hb0 : b0 = []
      · subst hb0
        obtain ⟨pre, rfl⟩ := hrb
        exact (broadcastable_append pre [r] [s] rfl).2 (by simpa using hs)
      · have hrb : rb = [r] := by
          have hl := congrArg List.length hr
          have : 0 < b0.length := List.length_pos_iff.2 hb0
          simp only [takeLast, List.length_drop, List.length_append, List.length_cons, List.length_nil] at hl
          rw [takeLast, show rb.length - (b0 ++ [s]).length = 0 by simp; omega, List.drop_zero] at hr
          exact hr
        subst hrb
        simp only [Broadcastable, List.reverse_append, List.reverse_cons,
          List.reverse_nil, List.nil_append, List.singleton_append]
        exact ⟨hs, trivial⟩
  · obtain ⟨pre, r, rfl⟩ : ∃ pre r, rb = pre ++ [r] := by
      obtain ⟨pre, t, ht, e⟩ := exists_append 1 rb h0
      match t, ht with
      | [r], _ => exact ⟨pre, r, e⟩
    rw [takeLast_append (by simp)] at hp
    exact (broadcastable_append pre [r] [s] rfl).2 (by simpa using hp)

/-- Conversely an unbatched right-hand side, and any right-hand side with at least as many axes as
the matrix whose leading axes broadcast with the batch shape, is accepted ... -/
theorem C42_right_hand_side_complete (batch rb : List ℕ) (n d : ℕ)
    (hrb : rb = [] ∨ batch.length ≤ rb.length) (hb : Broadcastable rb batch) :
    assertCompatibleRight (batch ++ [n, d, d]) (rb ++ [n, d]) = .ok () := by
  refine (compatibleRight_iff ..).2 ⟨rfl, rfl, fun h0 => ?_⟩
  rcases hrb with rfl | hl
  · simp at h0
  · refine (allBroadcast_right_iff ..).2 (.inl ⟨takeLast_length hl, ?_⟩)
    rw [← dropLast_takeLast batch.length rb,
      broadcastable_append _ _ _ (takeLast_length hl)] at hb
    exact hb

/-- ... but for fewer batch axes than the matrix some broadcastable right-hand sides are refused. -/
theorem C42_right_hand_side_refused (n d : ℕ) :
    Broadcastable [3] [2, 3] ∧
      assertCompatibleRight ([2, 3] ++ [n, d, d]) ([3] ++ [n, d]) ≠ .ok () := by
  constructor
  · exact ⟨.inl rfl, trivial⟩
  · rw [Ne, compatibleRight_iff]
    rintro ⟨-, -, h⟩
    have := h (by simp)
    simp [allBroadcast, takeLast] at this

/-- Flattening a right-hand side for the banded operators and un-flattening the result gives the
original shape back. -/
theorem C42_flatten_round_trip (batch rb : List ℕ) (n d : ℕ) :
    flattenRight (batch ++ [n, d, d]) (rb ++ [n, d]) = .ok (rb ++ [n * d, 1]) ∧
      unflattenRight (batch ++ [n, d, d]) (rb ++ [n * d, 1]) = .ok (rb ++ [n, d]) := by
  simp [flattenRight, unflattenRight, dim3_3, dim2_3, bind, Except.bind,
    dropLast_append (t := [_, _]) (k := 2) rfl]

/-! ### Emission models -/

/-- An emission matrix is accepted exactly when it is `batch_shape + [num_data, output_dim,
state_dim]`; the output dimension is then the second-last axis. -/
theorem C42_emission (H : List ℕ) :
    emissionInit H = .ok () ↔ ∃ batch n o d, H = batch ++ [n, o, d] ∧ emissionOutputDim H = .ok o := by
  constructor
  · intro h
    unfold emissionInit at h
    split_ifs at h with hl
    obtain ⟨B, n, o, d, rfl⟩ := exists_append3 (by omega : 3 ≤ H.length)
    exact ⟨B, n, o, d, rfl, dim2_3 ..⟩
  · rintro ⟨B, n, o, d, rfl, -⟩
    simp [emissionInit]

/-- A stacked emission matrix is accepted exactly when it is `(..., num_kernels) + [num_data, 1,
state_dim]`; the output dimension is then the number of kernels. -/
theorem C42_stack_emission (H : List ℕ) :
    stackEmissionInit H = .ok () ↔
      ∃ batch k n d, H = batch ++ [k, n, 1, d] ∧ stackOutputDim H = .ok k := by
  constructor
  · intro h
    simp only [stackEmissionInit] at h
    by_cases hl : H.length < 4
    · simp [hl, bind, Except.bind] at h
    simp only [if_neg hl, bind_ok_iff, check_ok, exists_unit, beq_iff_eq] at h
    obtain ⟨o, ho, rfl, -⟩ := h
    obtain ⟨B, t, ht, rfl⟩ := exists_append 4 H (by omega)
    match t, ht with
    | [k, n, o, d], _ =>
      have e : B ++ [k, n, o, d] = (B ++ [k]) ++ [n, o, d] := by simp
      rw [e, dim2_3] at ho
      obtain rfl := Except.ok.inj ho
      refine ⟨B, k, n, d, rfl, ?_⟩
      rw [stackOutputDim, e, dropLast_append (by simp), dim1]
  · rintro ⟨B, k, n, d, rfl, -⟩
    have e : B ++ [k, n, 1, d] = (B ++ [k]) ++ [n, 1, d] := by simp
    have hl : ¬ (B ++ [k, n, 1, d]).length < 4 := by simp
    simp only [stackEmissionInit, if_neg hl, bind_ok_iff, check_ok, exists_unit, beq_iff_eq]
    refine ⟨1, by rw [e, dim2_3], rfl, ?_⟩
    simp [emissionInit]

/-- `project_state_to_f` accepts exactly the states whose last two axes are the number of data
points and the state dimension of the emission matrix. -/
theorem C42_project_state (batch : List ℕ) (n o d : ℕ) (state : List ℕ) :
    projectStateCheck (batch ++ [n, o, d]) state = .ok () ↔ ∃ B, state = B ++ [n, d] := by
  simp only [projectStateCheck, assertShapes_ok, List.forall_mem_cons,
    List.not_mem_nil, false_imp_iff, implies_true, and_true, Holds,
    Bool.true_eq_false, true_and, List.map_cons, List.map_nil, evalDim]
  simp only [dimensionSizes_eq_append (t := [_, _]) (by simp),
    dimensionSizes_eq_append (t := [_, _, _]) (by simp)]
  constructor
  · rintro ⟨σ, ⟨B, h⟩, ⟨B', h'⟩⟩
    have := List.append_inj_right' h' rfl
    simp at this
    exact ⟨B, by rw [h, this.1, this.2.2]⟩
  · rintro ⟨B, rfl⟩
    refine ⟨fun s => if s = "state_dim" then d else if s = "num_data" then n else o, ⟨B, ?_⟩,
      ⟨batch, ?_⟩⟩ <;> simp

/-! ### Kalman filters -/

theorem kalmanInit_iff (batch BH : List ℕ) (n d nH o dH : ℕ) (observations cholR : List ℕ) :
    kalmanInit (batch ++ [n, d, d]) (BH ++ [nH, o, dH]) observations cholR = .ok () ↔
      LooselyEqual cholR [o, o] ∧ LooselyEqual observations (batch ++ [n + 1, o]) := by
  simp only [kalmanInit, emissionOutputDim, ssmNumTransitions, ssmBatchShape, dim2_3, dim3_3,
    dropLast_append (t := [_, _, _]) (k := 3) rfl, bind_ok_iff, Except.ok.injEq, exists_eq_left',
    exists_unit, assertEqual_ok]

/-- Exactly which observations and observation covariances `KalmanFilter(...)` accepts, for a state
space model with batch shape `batch` and `n` transitions and an emission model with output
dimension `o`. -/
theorem C42_kalman_filter_exact (batch BH : List ℕ) (n d nH o dH : ℕ)
    (observations cholR : List ℕ) :
    kalmanInit (batch ++ [n, d, d]) (BH ++ [nH, o, dH]) observations cholR = .ok () ↔
      (cholR = [o, o] ∨ cholR = [o]) ∧
      (observations = batch ++ [n + 1, o] ∨
        (observations = [o] ∧ n + 1 = o ∧ Constant o batch)) := by
  rw [kalmanInit_iff, looselyEqual_long (by simp), looselyEqual_long (by simp)]
  refine and_congr (or_congr_right ?_) (or_congr_right ?_)
  · constructor
    · rintro ⟨k, rfl, hk⟩; rw [hk o (by simp)]
    · rintro rfl; exact ⟨o, rfl, by simp [Constant]⟩
  · constructor
    · rintro ⟨k, rfl, hk⟩
      have h1 := hk (n + 1) (by simp)
      have h2 := hk o (by simp)
      subst h2
      exact ⟨rfl, h1, fun v hv => hk v (by simp [hv])⟩
    · rintro ⟨rfl, hn, hk⟩
      refine ⟨o, rfl, fun v hv => ?_⟩
      simp only [List.mem_append, List.mem_cons, List.not_mem_nil, or_false] at hv
      rcases hv with hv | hv | hv
      · exact hk v hv
      · omega
      · exact hv

/-- **C42** (Kalman filter): for an observation covariance of rank two and observations of the same
rank as the mean of the states, the constructor succeeds exactly on the documented shapes. -/
theorem C42_kalman_filter (batch BH : List ℕ) (n d nH o dH : ℕ) (observations cholR : List ℕ)
    (hR : cholR.length = 2) (hy : observations.length = batch.length + 2) :
    kalmanInit (batch ++ [n, d, d]) (BH ++ [nH, o, dH]) observations cholR = .ok () ↔
      cholR = [o, o] ∧ observations = batch ++ [n + 1, o] := by
  rw [C42_kalman_filter_exact]
  constructor
  · rintro ⟨h1 | h1, h2 | ⟨h2, -, -⟩⟩
    · exact ⟨h1, h2⟩
    · rw [h2] at hy; simp at hy
    · rw [h1] at hR; simp at hR
    · rw [h1] at hR; simp at hR
  · rintro ⟨h1, h2⟩; exact ⟨.inl h1, .inl h2⟩

/-- The number of time points and the state dimension of the emission matrix are not compared with
the state space model: any emission matrix with the right output dimension is accepted. -/
theorem C42_kalman_emission_unchecked (batch BH BH' : List ℕ) (n d nH nH' o dH dH' : ℕ)
    (observations cholR : List ℕ) :
    kalmanInit (batch ++ [n, d, d]) (BH ++ [nH, o, dH]) observations cholR =
      kalmanInit (batch ++ [n, d, d]) (BH' ++ [nH', o, dH']) observations cholR := by
  simp only [kalmanInit, emissionOutputDim, dim2_3]

/-- **C42**, negative result: with a stack of two or more kernels no Kalman filter (hence no Gaussian process regression) works: for
every accepted emission matrix, every observation covariance of rank two and all observations, either the constructor raises or
the posterior precision does. -/
theorem C42_stack_kalman (A H observations cholR batch : List ℕ) (K n d : ℕ) (hH : H = batch ++ [K, n, 1, d])
    (hR : cholR.length = 2) (hK : K ≠ 1) (h : kalmanStackInit A H observations cholR = .ok ()) :
    kalmanEinsum H cholR = .error .invalidArgument := by
  subst hH
  have e : batch ++ [K, n, 1, d] = (batch ++ [K]) ++ [n, 1, d] := by simp
  rw [e] at h ⊢
  have ho : stackOutputDim ((batch ++ [K]) ++ [n, 1, d]) = .ok K := by
    rw [stackOutputDim, dropLast_append (by simp), dim1]
  simp only [kalmanStackInit, ho, bind_ok_iff, Except.ok.injEq, exists_eq_left', exists_unit, assertEqual_ok] at h
  obtain ⟨h, -⟩ := h
  rw [looselyEqual_long (by simp)] at h
  obtain h | ⟨k, rfl, -⟩ := h
  · subst h
    have h1 : dimFromEnd 2 [K, K] = .ok K := by simp [dimFromEnd]
    have h2 : dimFromEnd 1 [K, K] = .ok K := by simp [dimFromEnd]
    have h3 : dimFromEnd 2 ((batch ++ [K]) ++ [n, 1, d]) = .ok 1 := dim2_3 _ _ _ _
    have h4 : (1 == K) = false := by simpa using hK.symm
    rw [kalmanEinsum, h1, h2, h3]
    simp only [bind, Except.bind, check, h4, Bool.false_and, Bool.false_eq_true, if_false]
  · simp at hR

/-- With a single kernel the shapes fit. -/
example : kalmanStackInit [1, 4, 2, 2] [1, 5, 1, 2] [1, 5, 1] [1, 1] = .ok () ∧ kalmanEinsum [1, 5, 1, 2] [1, 1] = .ok () :=
  ⟨rfl, rfl⟩

/-- With two kernels the constructor accepts one set of shapes. -/
example : kalmanStackInit [2, 4, 2, 2] [2, 5, 1, 2] [2, 5, 2] [2, 2] = .ok () := rfl

/-- Univariate Gaussian sites are accepted exactly when `nat1` is `[N, 1]`, `nat2` is `[N, 1, 1]`
and the normaliser, if given, `[N, 1]`; they then report `num_data = N` and `output_dim = 1`. -/
theorem C42_sites (nat1 nat2 : List ℕ) (logNorm : Option (List ℕ)) (N o : ℕ) :
    sitesInit nat1 nat2 logNorm = .ok (N, o) ↔
      o = 1 ∧ nat1 = [N, 1] ∧ nat2 = [N, 1, 1] ∧ ∀ l, logNorm = some l → l = [N, 1] := by
  have hdim : ∀ (s t : List ℕ), 2 ≤ t.length → (dimensionSizes s = t ↔ s = t) := fun s t ht => by
    simpa using dimensionSizes_eq_append (s := s) (batch := []) ht
  cases logNorm with
  | none =>
    simp only [sitesInit, bind_ok_iff, exists_unit, assertShapes_ok, List.forall_mem_cons,
      List.not_mem_nil, false_imp_iff, implies_true, and_true, Holds, true_imp_iff,
      List.map_cons, List.map_nil, evalDim, exists_eq_left, List.nil_append]
    simp only [hdim _ [_, _] (by simp), hdim _ [_, _, _] (by simp)]
    constructor
    · rintro ⟨⟨σ, rfl, rfl⟩, h⟩
      simp only [Except.ok.injEq, Prod.mk.injEq] at h
      obtain ⟨rfl, rfl⟩ := h
      simp
    · rintro ⟨rfl, rfl, rfl, -⟩
      exact ⟨⟨fun _ => N, rfl, rfl⟩, rfl⟩
  | some l =>
    simp only [sitesInit, bind_ok_iff, exists_unit, assertShapes_ok, List.forall_mem_cons,
      List.cons_append, List.nil_append,
      List.not_mem_nil, false_imp_iff, implies_true, and_true, Holds, true_imp_iff,
      List.map_cons, List.map_nil, evalDim, exists_eq_left]
    simp only [hdim _ [_, _] (by simp), hdim _ [_, _, _] (by simp)]
    constructor
    · rintro ⟨⟨σ, rfl, rfl, rfl⟩, h⟩
      simp only [Except.ok.injEq, Prod.mk.injEq] at h
      obtain ⟨rfl, rfl⟩ := h
      simp
    · rintro ⟨rfl, rfl, rfl, hl⟩
      obtain rfl := hl l rfl
      exact ⟨⟨fun _ => N, rfl, rfl, rfl⟩, rfl⟩

/-- A Kalman filter with sites is accepted exactly when the sites are well formed and the emission
matrix has output dimension one; the number of sites is not compared with the number of time
points. -/
theorem C42_kalman_sites (A BH : List ℕ) (nH o dH : ℕ) (nat1 nat2 : List ℕ)
    (logNorm : Option (List ℕ)) :
    kalmanSitesInit A (BH ++ [nH, o, dH]) nat1 nat2 logNorm = .ok () ↔
      o = 1 ∧ ∃ N, nat1 = [N, 1] ∧ nat2 = [N, 1, 1] ∧ ∀ l, logNorm = some l → l = [N, 1] := by
  simp only [kalmanSitesInit, bind_ok_iff, emissionOutputDim, dim2_3, Except.ok.injEq,
    exists_eq_left', check_ok, beq_iff_eq, Prod.exists, C42_sites]
  constructor
  · rintro ⟨N, o', ⟨rfl, h⟩, rfl⟩; exact ⟨rfl, N, h⟩
  · rintro ⟨rfl, N, h⟩; exact ⟨N, 1, ⟨rfl, h⟩, rfl⟩

/-- The sparse-sites filter drops a leading batch axis of size one and refuses any other. -/
theorem C42_drop_batch (s t : List ℕ) :
    dropBatchShape s = .ok t ↔ (s.length < 3 ∧ t = s) ∨ (3 ≤ s.length ∧ s = 1 :: t) := by
  unfold dropBatchShape
  by_cases h : s.length < 3
  · simp only [h, if_true, Except.ok.injEq, true_and]
    constructor
    · intro e; exact .inl e.symm
    · rintro (e | ⟨h', -⟩)
      · exact e.symm
      · omega
  · simp only [h, if_false, false_and, false_or, not_lt.1 h, true_and]
    match s with
    | [] => simp at h
    | 0 :: r => simp
    | 1 :: r => simp
    | (k + 2) :: r => simp

/-! ### Other constructors and argument checks -/

theorem dimensionSizes_eq_iff {s t : List ℕ} (ht : 2 ≤ t.length) : dimensionSizes s = t ↔ s = t := by
  simpa using dimensionSizes_eq_append (s := s) (batch := []) ht

/-- The latent exponentially generated kernel accepts exactly two square matrices of the same
size, which is its state dimension. -/
theorem C42_leg (N R : List ℕ) (d : ℕ) : legInit N R = .ok d ↔ N = [d, d] ∧ R = [d, d] := by
  simp only [legInit, bind_ok_iff, exists_unit, assertShapes_ok, List.forall_mem_cons,
    List.not_mem_nil, false_imp_iff, implies_true, and_true, Holds, true_imp_iff,
    List.map_cons, List.map_nil, evalDim, exists_eq_left, List.nil_append,
    dimensionSizes_eq_iff (t := [_, _]) (by simp)]
  constructor
  · rintro ⟨⟨σ, rfl, rfl⟩, h⟩
    have : σ "state_dim" = d := by simpa [dimFromEnd] using h
    simp [this]
  · rintro ⟨rfl, rfl⟩
    exact ⟨⟨fun _ => d, rfl, rfl⟩, by simp [dimFromEnd]⟩

/-- The multivariate Gaussian likelihood accepts any (also batched) square matrix, although its
docstring only allows `[obs_dim, obs_dim]`. -/
theorem C42_multivariate_gaussian (chol : List ℕ) (o : ℕ) :
    multivariateGaussianInit chol = .ok o ↔ ∃ batch, chol = batch ++ [o, o] := by
  simp only [multivariateGaussianInit, bind_ok_iff, exists_unit, assertShapes_ok,
    List.forall_mem_cons, List.not_mem_nil, false_imp_iff, implies_true, and_true, Holds,
    Bool.true_eq_false, true_and, List.map_cons, List.map_nil, evalDim, exists_const,
    dimensionSizes_eq_append (t := [_, _]) (by simp), pure, Except.pure, Except.ok.injEq]
  constructor
  · rintro ⟨o', h, ⟨B, hB⟩, rfl⟩; exact ⟨B, hB⟩
  · rintro ⟨B, rfl⟩; exact ⟨o, dim1_2 .., ⟨B, rfl⟩, rfl⟩

/-- The likelihoods' argument check accepts exactly means and observations that agree in their
number of data points and in the expected dimension, and square covariances of that dimension.
Neither the batch shapes nor the number of data points of the covariances is compared. -/
theorem C42_check_input_shapes (fMeans observations : List ℕ) (o : ℕ) (fCov : Option (List ℕ)) :
    checkInputShapes fMeans observations o fCov = .ok () ↔
      (∃ B B' n, observations = B ++ [n, o] ∧ fMeans = B' ++ [n, o]) ∧
      ∀ c, fCov = some c → ∃ B n, c = B ++ [n, o, o] := by
  have h : ∀ c : List ℕ, assertShapes [⟨c, true, [.sym "num_data", .lit o, .lit o]⟩] = .ok () ↔
      ∃ B n, c = B ++ [n, o, o] := fun c => by
    simp only [assertShapes_ok, List.forall_mem_cons, List.not_mem_nil, false_imp_iff,
      implies_true, and_true, Holds, Bool.true_eq_false, true_and, List.map_cons, List.map_nil,
      evalDim, dimensionSizes_eq_append (t := [_, _, _]) (by simp)]
    constructor
    · rintro ⟨σ, B, rfl⟩; exact ⟨B, _, rfl⟩
    · rintro ⟨B, n, rfl⟩; exact ⟨fun _ => n, B, rfl⟩
  have h' : assertShapes [⟨observations, true, [.sym "num_data", .lit o]⟩,
      ⟨fMeans, true, [.sym "num_data", .lit o]⟩] = .ok () ↔
      ∃ B B' n, observations = B ++ [n, o] ∧ fMeans = B' ++ [n, o] := by
    simp only [assertShapes_ok, List.forall_mem_cons, List.not_mem_nil, false_imp_iff,
      implies_true, and_true, Holds, Bool.true_eq_false, true_and, List.map_cons, List.map_nil,
      evalDim, dimensionSizes_eq_append (t := [_, _]) (by simp)]
    constructor
    · rintro ⟨σ, ⟨B, rfl⟩, ⟨B', rfl⟩⟩; exact ⟨B, B', _, rfl, rfl⟩
    · rintro ⟨B, B', n, rfl, rfl⟩; exact ⟨fun _ => n, ⟨B, rfl⟩, ⟨B', rfl⟩⟩
  simp only [checkInputShapes, bind_ok_iff, exists_unit, h']
  refine and_congr_right fun _ => ?_
  cases fCov with
  | none => simp [pure, Except.pure]
  | some c => simp [h]

/-- The constructors of the impulse and step mean functions: action times `[..., num_actions]` and
perturbations `[..., num_actions, state_dim]` with the same leading axes (or, loosely, action times
`[k]` with all leading axes `k`). -/
theorem C42_actions (actionTimes perturbations : List ℕ) :
    actionsInit actionTimes perturbations = .ok () ↔
      ∃ B k d, perturbations = B ++ [k, d] ∧ LooselyEqual actionTimes (B ++ [k]) := by
  simp only [actionsInit, bind_ok_iff, assertEqual_ok]
  constructor
  · rintro ⟨k, hk, d, hd, h⟩
    obtain ⟨B, k, d, rfl⟩ := exists_append2 (dimFromEnd_ok hk)
    refine ⟨B, k, d, rfl, ?_⟩
    rw [show B ++ [k, d] = (B ++ [k]) ++ [d] by simp, dropLast_append (by simp)] at h
    exact h
  · rintro ⟨B, k, d, rfl, h⟩
    refine ⟨k, dim2_2 .., d, dim1_2 .., ?_⟩
    rw [show B ++ [k, d] = (B ++ [k]) ++ [d] by simp, dropLast_append (by simp)]
    exact h

/-- `back_project_nats` accepts exactly the documented sizes. -/
theorem C42_back_project_nats (nat1 nat2 C : List ℕ) :
    backProjectNatsCheck nat1 nat2 C = .ok () ↔
      ∃ N D, nat1 = [N, 1] ∧ nat2 = [N, 1] ∧ C = [N, 1, D] := by
  simp only [backProjectNatsCheck, assertShapes_ok, List.forall_mem_cons,
    List.not_mem_nil, false_imp_iff, implies_true, and_true, Holds, true_imp_iff,
    List.map_cons, List.map_nil, evalDim, exists_eq_left, List.nil_append,
    dimensionSizes_eq_iff (t := [_, _]) (by simp), dimensionSizes_eq_iff (t := [_, _, _]) (by simp)]
  constructor
  · rintro ⟨σ, h⟩; exact ⟨_, _, h⟩
  · rintro ⟨N, D, rfl, rfl, rfl⟩
    exact ⟨fun s => if s = "N" then N else D, by simp⟩

/-- `batch_base_conditional` accepts exactly `Kmn : [..., M, N]`, `Kmm : [M, M]`, `Knn : [..., N]`
(a scalar counts as `[1]`), `f : [M, N]` and `q_sqrt : [M, N]` or `[N, M, M]`. -/
theorem C42_base_conditional (Kmn Kmm Knn f : List ℕ) (qSqrt : Option (List ℕ)) :
    baseConditionalCheck Kmn Kmm Knn f qSqrt = .ok () ↔
      ∃ M N, (∃ B, Kmn = B ++ [M, N]) ∧ Kmm = [M, M] ∧
        ((∃ B, Knn = B ++ [N]) ∨ (Knn = [] ∧ N = 1)) ∧ f = [M, N] ∧
        ∀ q, qSqrt = some q → q = [M, N] ∨ q = [N, M, M] := by
  have hK : ∀ N, (∃ B, dimensionSizes Knn = B ++ [N]) ↔
      ((∃ B, Knn = B ++ [N]) ∨ (Knn = [] ∧ N = 1)) := fun N => by
    simp only [dimensionSizes_eq_one]
    constructor
    · rintro ⟨B, h | ⟨h, -, h'⟩⟩
      · exact .inl ⟨B, h⟩
      · exact .inr ⟨h, h'⟩
    · rintro (⟨B, h⟩ | ⟨h, h'⟩)
      · exact ⟨B, .inl h⟩
      · exact ⟨[], .inr ⟨h, rfl, h'⟩⟩
  have hq : ∀ (q : List ℕ) (σ : String → ℕ),
      dimensionSizes q = ((if q.length = 2 then [Dim.sym "M", .sym "N"]
        else [.sym "N", .sym "M", .sym "M"]).map (evalDim σ)) ↔
      q = [σ "M", σ "N"] ∨ q = [σ "N", σ "M", σ "M"] := fun q σ => by
    split_ifs with h
    · simp only [List.map_cons, List.map_nil, evalDim, dimensionSizes_eq_iff (t := [_, _]) (by simp)]
      constructor
      · exact .inl
      · rintro (e | rfl)
        · exact e
        · simp at h
    · simp only [List.map_cons, List.map_nil, evalDim, dimensionSizes_eq_iff (t := [_, _, _]) (by simp)]
      constructor
      · exact .inr
      · rintro (rfl | e)
        · simp at h
        · exact e
  cases qSqrt with
  | none =>
    simp only [baseConditionalCheck, assertShapes_ok, List.forall_mem_cons, List.not_mem_nil,
      false_imp_iff, implies_true, and_true, Holds, true_imp_iff, Bool.true_eq_false, true_and,
      List.map_cons, List.map_nil, evalDim, exists_eq_left, List.nil_append, hK,
      dimensionSizes_eq_append (t := [_, _]) (by simp), reduceCtorEq]
    constructor
    · rintro ⟨σ, h⟩; exact ⟨_, _, h⟩
    · rintro ⟨M, N, h⟩
      exact ⟨fun s => if s = "N" then N else M, by simpa using h⟩
  | some q =>
    simp only [baseConditionalCheck, assertShapes_ok, List.cons_append, List.nil_append,
      List.forall_mem_cons, List.not_mem_nil,
      false_imp_iff, implies_true, and_true, Holds, true_imp_iff, Bool.true_eq_false, true_and,
      exists_eq_left, hq, Option.some.injEq, forall_eq']
    simp only [List.map_cons, List.map_nil, evalDim, hK,
      dimensionSizes_eq_append (t := [_, _]) (by simp),
      dimensionSizes_eq_iff (t := [_, _]) (by simp)]
    constructor
    · rintro ⟨σ, h⟩; exact ⟨_, _, h⟩
    · rintro ⟨M, N, h⟩
      exact ⟨fun s => if s = "N" then N else M, by simpa using h⟩

/-! ### Concrete cases -/

/-- A batched model is accepted; a mean of the wrong size is refused. -/
example : ssmInit [7, 2] [7, 2, 2] [7, 5, 2, 2] [7, 5, 2] [7, 5, 2, 2] = .ok () ∧
    ssmInit [7, 3] [7, 2, 2] [7, 5, 2, 2] [7, 5, 2] [7, 5, 2, 2] = .error .value ∧
    ssmInit [7, 2] [7, 2, 2] [6, 5, 2, 2] [7, 5, 2] [7, 5, 2, 2] = .error .invalidArgument :=
  ⟨rfl, rfl, rfl⟩

example : SSMShapes [7] 5 2 [7, 2] [7, 2, 2] [7, 5, 2, 2] [7, 5, 2] [7, 5, 2, 2] :=
  ⟨rfl, rfl, rfl, rfl, rfl⟩

example : blockTriInit [4, 5, 2, 2] (some [4, 4, 2, 2]) = .ok () ∧
    blockTriInit [4, 5, 2, 2] (some [4, 5, 2, 2]) = .error .invalidArgument ∧
    blockTriInit [4, 1, 2, 2] (some [4, 0, 2, 2]) = .error .invalidArgument ∧
    blockTriInit [2, 2] none = .error .index := ⟨rfl, rfl, rfl, rfl⟩

example : kalmanInit [4, 5, 2, 2] [4, 6, 1, 2] [4, 6, 1] [1, 1] = .ok () ∧
    kalmanInit [4, 5, 2, 2] [4, 6, 1, 2] [4, 5, 1] [1, 1] = .error .invalidArgument := ⟨rfl, rfl⟩

example : assertCompatibleRight [3, 5, 2, 2] [9, 3, 5, 2] = .ok () ∧
    assertCompatibleRight [3, 5, 2, 2] [9, 4, 5, 2] = .error .invalidArgument := ⟨rfl, rfl⟩

end MF
