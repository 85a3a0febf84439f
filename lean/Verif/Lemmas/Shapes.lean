import Verif.Model.Shapes
import Verif.Spec.Shapes

namespace MF.Shapes
open MF MF.Spec

/-- The size that a specification entry stands for. -/
def evalDim (σ : String → ℕ) : Dim → ℕ
  | .sym s => σ s
  | .lit n => n

def Agrees (σ : String → ℕ) (env : List (String × ℕ)) : Prop :=
  ∀ s v, env.lookup s = some v → σ s = v

theorem agrees_exists (env : List (String × ℕ)) : ∃ σ, Agrees σ env :=
  ⟨fun s => (env.lookup s).getD 0, fun s v h => by simp [h]⟩

theorem agrees_cons {σ s v} {env : List (String × ℕ)} (h : env.lookup s = none) :
    Agrees σ ((s, v) :: env) ↔ Agrees σ env ∧ σ s = v := by
  constructor
  · intro a
    refine ⟨fun t w ht => a t w ?_, a s v (by simp)⟩
    have : t ≠ s := by rintro rfl; simp [h] at ht
    have hb : (t == s) = false := by simpa using this
    rw [List.lookup_cons, hb]; exact ht
  · rintro ⟨a, e⟩ t w ht
    by_cases hts : t = s
    · subst hts; simp at ht; omega
    · have hb : (t == s) = false := by simpa using hts
      rw [List.lookup_cons, hb] at ht
      exact a t w ht

theorem matchDims_spec (l : List (Dim × ℕ)) : ∀ env,
    (∀ env', matchDims env l = .ok env' →
      ∀ σ, Agrees σ env' ↔ Agrees σ env ∧ ∀ p ∈ l, evalDim σ p.1 = p.2) ∧
    (∀ e, matchDims env l = .error e → ¬ ∃ σ, Agrees σ env ∧ ∀ p ∈ l, evalDim σ p.1 = p.2) := by
  induction l with
  | nil => intro env; simp [matchDims]
  | cons p rest ih =>
    intro env
    obtain ⟨d, v⟩ := p
    cases d with
    | lit n =>
      simp only [matchDims]
      split_ifs with h
      · subst h
        refine ⟨fun env' h' σ => ?_, fun e h' => ?_⟩
        · rw [(ih env).1 env' h' σ]; simp [evalDim]
        · have := (ih env).2 e h'; simpa [evalDim] using this
      · simp [evalDim, h]
    | sym s =>
      simp only [matchDims]
      cases hl : env.lookup s with
      | none =>
        simp only
        refine ⟨fun env' h' σ => ?_, fun e h' => ?_⟩
        · rw [(ih _).1 env' h' σ, agrees_cons hl]; simp [evalDim, and_assoc]
        · have := (ih _).2 e h'
          simp only [agrees_cons hl] at this
          simpa [evalDim, and_assoc] using this
      | some w =>
        simp only
        split_ifs with h
        · subst h
          refine ⟨fun env' h' σ => ?_, fun e h' => ?_⟩
          · rw [(ih env).1 env' h' σ]
            constructor
            · rintro ⟨a, b⟩; exact ⟨a, List.forall_mem_cons.2 ⟨a s w hl, b⟩⟩
            · rintro ⟨a, b⟩; exact ⟨a, fun p hp => b p (by simp [hp])⟩
          · rintro ⟨σ, a, b⟩
            exact (ih env).2 e h' ⟨σ, a, fun p hp => b p (by simp [hp])⟩
        · refine ⟨by simp, fun e _ => ?_⟩
          rintro ⟨σ, a, b⟩
          have h1 := a s w hl
          have h2 := b (.sym s, v) (by simp)
          simp only [evalDim] at h2
          omega

theorem matchAll_ok (cs : List Constraint) : ∀ env, matchAll env cs = .ok () ↔
    ∃ σ, Agrees σ env ∧ ∀ c ∈ cs, ∀ p ∈ c.dims.zip (takeLast c.dims.length (dimensionSizes c.shape)),
      evalDim σ p.1 = p.2 := by
  induction cs with
  | nil => intro env; simpa [matchAll] using agrees_exists env
  | cons c cs ih =>
    intro env
    simp only [matchAll, bind, Except.bind]
    cases h : matchDims env (c.dims.zip (takeLast c.dims.length (dimensionSizes c.shape))) with
    | error e =>
      have := (matchDims_spec _ env).2 e h
      constructor
      · intro h; cases h
      · rintro ⟨σ, a, b⟩; exact absurd ⟨σ, a, b c (by simp)⟩ this
    | ok env' =>
      have := (matchDims_spec _ env).1 env' h
      simp only [ih, this, List.forall_mem_cons, and_assoc]

theorem zip_eval (σ : String → ℕ) (ds : List Dim) : ∀ vs : List ℕ, ds.length = vs.length →
    ((∀ p ∈ ds.zip vs, evalDim σ p.1 = p.2) ↔ vs = ds.map (evalDim σ)) := by
  induction ds with
  | nil => intro vs h; cases vs <;> simp_all
  | cons d ds ih =>
    intro vs h
    cases vs with
    | nil => simp at h
    | cons v vs =>
      simp only [List.zip_cons_cons, List.forall_mem_cons, List.map_cons, List.cons.injEq]
      rw [ih vs (by simpa using h)]
      exact and_congr_left fun _ => eq_comm

theorem takeLast_length {k : ℕ} {s : List ℕ} (h : k ≤ s.length) : (takeLast k s).length = k := by
  simp [takeLast]; omega

theorem takeLast_append {k : ℕ} {s t : List ℕ} (h : t.length = k) : takeLast k (s ++ t) = t := by
  simp [takeLast, h]

theorem dropLast_append {k : ℕ} {s t : List ℕ} (h : t.length = k) : dropLast k (s ++ t) = s := by
  simp [dropLast, h]

theorem dropLast_takeLast (k : ℕ) (s : List ℕ) : dropLast k s ++ takeLast k s = s := by
  simp [dropLast, takeLast]

/-- A tensor satisfies a constraint under an assignment of sizes to the symbols. -/
def Holds (σ : String → ℕ) (c : Constraint) : Prop :=
  ∃ batch, (c.ellipsis = false → batch = []) ∧ dimensionSizes c.shape = batch ++ c.dims.map (evalDim σ)

theorem holds_iff (σ : String → ℕ) (c : Constraint) : Holds σ c ↔
    rankOk c = true ∧ ∀ p ∈ c.dims.zip (takeLast c.dims.length (dimensionSizes c.shape)),
      evalDim σ p.1 = p.2 := by
  constructor
  · rintro ⟨batch, hb, e⟩
    have hr : rankOk c = true := by
      unfold rankOk
      cases he : c.ellipsis
      · simp [e, hb he]
      · simp [e]
    refine ⟨hr, ?_⟩
    rw [e, takeLast_append (by simp), zip_eval _ _ _ (by simp)]
  · rintro ⟨hr, h⟩
    have hle : c.dims.length ≤ (dimensionSizes c.shape).length := by
      unfold rankOk at hr
      split_ifs at hr
      · simpa using hr
      · have := of_decide_eq_true hr; omega
    rw [zip_eval _ _ _ (takeLast_length hle).symm] at h
    refine ⟨dropLast c.dims.length (dimensionSizes c.shape), fun he => ?_, ?_⟩
    · unfold rankOk at hr
      rw [he] at hr
      have : c.dims.length = (dimensionSizes c.shape).length := by simpa using hr
      simp [dropLast, this]
    · conv_lhs => rw [← dropLast_takeLast c.dims.length (dimensionSizes c.shape)]
      rw [h]

theorem assertShapes_ok (cs : List Constraint) :
    assertShapes cs = .ok () ↔ ∃ σ, ∀ c ∈ cs, Holds σ c := by
  simp only [assertShapes, bind, Except.bind, check]
  by_cases h : cs.all rankOk = true
  · simp only [h, if_true, matchAll_ok]
    constructor
    · rintro ⟨σ, -, b⟩
      exact ⟨σ, fun c hc => (holds_iff σ c).2 ⟨List.all_eq_true.1 h c hc, b c hc⟩⟩
    · rintro ⟨σ, b⟩
      exact ⟨σ, by simp [Agrees], fun c hc => ((holds_iff σ c).1 (b c hc)).2⟩
  · simp only [h]
    constructor
    · intro h; simp at h
    · rintro ⟨σ, b⟩
      exact absurd (List.all_eq_true.2 fun c hc => ((holds_iff σ c).1 (b c hc)).1) h

theorem dimensionSizes_cons (a : ℕ) (l : List ℕ) : dimensionSizes (a :: l) = a :: l := rfl

theorem dimensionSizes_eq_append {s batch t : List ℕ} (ht : 2 ≤ t.length) :
    dimensionSizes s = batch ++ t ↔ s = batch ++ t := by
  unfold dimensionSizes
  split_ifs with h
  · subst h
    constructor
    · intro e; have := congrArg List.length e; simp at this; omega
    · intro e; have := congrArg List.length e; simp at this; omega
  · rfl

theorem dimensionSizes_eq_one {s batch : List ℕ} {d : ℕ} :
    dimensionSizes s = batch ++ [d] ↔ s = batch ++ [d] ∨ (s = [] ∧ batch = [] ∧ d = 1) := by
  unfold dimensionSizes
  split_ifs with h
  · subst h
    cases batch with
    | nil => simp only [List.nil_append, List.cons.injEq, and_true, true_and, reduceCtorEq, false_or]; exact eq_comm
    | cons a l => simp
  · simp [h]

theorem zip_all_eq (x : List ℕ) : ∀ y : List ℕ, x.length = y.length →
    (((x.zip y).all fun q => q.1 == q.2) = true ↔ x = y) := by
  induction x with
  | nil => intro y h; cases y <;> simp_all
  | cons a x ih =>
    intro y h
    cases y with
    | nil => simp at h
    | cons b y =>
      have := ih y (by simpa using h)
      simp only [List.zip_cons_cons, List.all_cons, Bool.and_eq_true, this, List.cons.injEq, beq_iff_eq]

theorem assertEqual_ok (x y : List ℕ) : assertEqual x y = .ok () ↔ LooselyEqual x y := by
  unfold assertEqual allBroadcast LooselyEqual Constant
  by_cases h : x.length = y.length
  · simp only [h, if_true, check]
    rw [← zip_all_eq x y h]
    cases hb : ((x.zip y).all fun q => q.1 == q.2)
    · have hne : x ≠ y := fun e => by
        have := (zip_all_eq x y h).2 e; rw [hb] at this; cases this
      simp only [Bool.false_eq_true, if_false, reduceCtorEq, false_or, false_iff, not_or, not_exists, not_and]
      constructor
      · rintro k rfl hk
        match y, h with
        | [b], _ => exact hne (by simpa using (hk b (by simp)).symm)
      · rintro k rfl hk
        match x, h with
        | [b], _ => exact hne (by simpa using (hk b (by simp)))
    · simp
  · have hne : x ≠ y := fun e => h (by rw [e])
    simp only [h, if_false, hne, false_or, check]
    match x, y, h with
    | [], [], h => simp at h
    | [], [b], h => simp
    | [], b :: b' :: y, h => simp
    | [a], [], h => simp
    | [a], [b], h => simp at h
    | [a], b :: b' :: y, h => 
      have key : ((b :: b' :: y).all fun c => a == c) = true ↔ ∀ v ∈ b :: b' :: y, v = a := by
        rw [List.all_eq_true]
        exact forall₂_congr fun v _ => by rw [beq_iff_eq, eq_comm]
      cases hb : ((b :: b' :: y).all fun c => a == c)
      · rw [hb] at key
        simp only [hb, Bool.false_eq_true, if_false, reduceCtorEq, false_iff, List.cons.injEq,
          and_true, and_false, false_and, exists_false, or_false, not_exists, not_and] at key ⊢
        rintro k rfl; exact key
      · have := key.1 hb
        simp only [hb, if_true, true_iff]
        exact Or.inl ⟨a, rfl, this⟩
    | a :: a' :: x, [], h => simp
    | a :: a' :: x, [b], h => simp
    | a :: a' :: x, b :: b' :: y, h => simp

end MF.Shapes
