import Verif.Lemmas.BatchedPiecewise

/-!
# Piecewise kernels on tensors: splitting, applying, gathering
-/

namespace MF
open Matrix Spec Tensor

variable {o d p m r c : ℕ} {α β : Type}

theorem inRange_ones {b : List ℕ} : InRange b (List.replicate m 1) ↔ b = List.replicate m 0 := by
  induction m generalizing b with
  | zero => cases b <;> simp [InRange]
  | succ m ih =>
    cases b with
    | nil => simp [List.replicate_succ, InRange]
    | cons a b => simp [List.replicate_succ, InRange, ih]

theorem holdsReals_iff {x : Tensor} {l : List ℝ} : HoldsReals (List.replicate m 1) x l ↔ x.shape = l.length :: List.replicate m 1 ∧
    ∀ t (h : t < l.length), x.val (t :: List.replicate m 0) = l[t] := by
  refine and_congr_right fun _ => ⟨fun h t ht => ?_, fun h b hb t => ?_⟩
  · exact h _ (inRange_ones.2 rfl) ⟨t, ht⟩
  · rw [inRange_ones.1 hb]
    exact h t t.2

/-- `x` has shape `[1, …, 1, n]` and is the list `l`. -/
def HoldsIndices (m : ℕ) (x : ZTensor) (l : List ℤ) : Prop :=
  x.shape = l.length :: List.replicate m 1 ∧ ∀ t (h : t < l.length), x.val (t :: List.replicate m 0) = l[t]

theorem holdsInts_iff {x : ZTensor} {l : List ℤ} : HoldsInts x l ↔ HoldsIndices 0 x l :=
  and_congr_right fun _ => ⟨fun h t ht => h ⟨t, ht⟩, fun h t => h t t.2⟩

theorem allIdx_ones (p m : ℕ) : allIdx (p :: List.replicate m 1) = (List.range p).map (· :: List.replicate m 0) := by
  have h : allIdx (List.replicate m 1) = [List.replicate m 0] := by
    induction m with
    | zero => rfl
    | succ m ih => simp [List.replicate_succ, allIdx, ih]
  simp [allIdx, h]

theorem rowCount_ones (p m : ℕ) : rowCount (p :: List.replicate m 1) = 1 := by
  simp [rowCount]

theorem ofFn_list {x : Tensor} {l : List ℝ} (h : HoldsReals [] x l) : (List.ofFn fun k : Fin l.length => x.val [(k : ℕ)]) = l := by
  apply List.ext_get (by simp)
  intro t h1 h2
  simpa using h.2 [] trivial ⟨t, h2⟩

theorem holdsReals_seq {x : Tensor} {l : List ℝ} : HoldsReals [] x l ↔ HoldsSeq [] (fun a _ => a) x l := by
  rw [show ([] : List ℕ) = List.replicate 0 1 from rfl, holdsReals_iff]
  refine and_congr_right fun _ => ⟨fun h i hi t ht => ?_, fun h t ht => h [] trivial t ht⟩
  have : i = [] := by simpa using inRange_length hi
  subst this
  exact h t ht

section
variable {K : TPiecewise} {k : Piecewise o d} (h : HoldsPiecewise K k) {t δ : Tensor} {times deltas : List ℝ} (inf : ℝ)
include h

theorem splitTimeIndices_holds (ht : HoldsReals (List.replicate m 1) t times) :
    ∃ i, K.splitTimeIndices inf t = .ok i ∧ HoldsIndices m i (k.splitTimeIndices inf times) := by
  have hc := h.changePoints
  have hdim : K.changePoints.dim 0 = k.changePoints.length := by rw [dim, hc.1]; rfl
  have hs : (sliceFrom 0 (K.changePoints.dim 0 - 1) K.changePoints).shape = [(k.changePoints.drop (k.changePoints.length - 1)).length] := by
    simp only [sliceFrom, hc.1, hdim, modifyAt, List.length_drop]
  have h1 : HoldsReals [] ((ones (sliceFrom 0 (K.changePoints.dim 0 - 1) K.changePoints).shape).map (inf * ·))
      ((k.changePoints.drop (k.changePoints.length - 1)).map fun _ => inf) := by
    refine ⟨by simp only [ones, Tensor.map, hs, List.length_map], fun b hb i => ?_⟩
    simp [ones, Tensor.map]
  have h2 : HoldsReals [] (((ones (sliceFrom 0 (K.changePoints.dim 0 - 1) K.changePoints).shape).map (inf * ·)).map (-·))
      ((k.changePoints.drop (k.changePoints.length - 1)).map fun _ => -inf) := by
    refine ⟨by simp only [ones, Tensor.map, hs, List.length_map], fun b hb i => ?_⟩
    simp [ones, Tensor.map]
  obtain ⟨x, hx, hx'⟩ := concat_seq (holdsReals_seq.1 hc) (holdsReals_seq.1 h1)
  obtain ⟨y, hy, hy'⟩ := concat_seq (holdsReals_seq.1 h2) hx'
  have hy2 := holdsReals_seq.2 hy'
  obtain ⟨ht1, ht2⟩ := holdsReals_iff.1 ht
  have hr : rowCount t.shape = 1 := by rw [ht1, rowCount_ones]
  simp only [List.length_nil] at hx hy
  have hsorted : searchsortedRightT y t = .ok ⟨t.shape, fun i => ((((k.changePoints.drop (k.changePoints.length - 1)).map (fun _ => -inf) ++
      (k.changePoints ++ (k.changePoints.drop (k.changePoints.length - 1)).map fun _ => inf)).countP fun c => decide (c ≤ t.val i) : ℕ) : ℤ)⟩ := by
    have hsh : y.shape = [_] := hy2.1
    have := ofFn_list hy2
    simp only [searchsortedRightT]
    rw [hsh]
    simp only [hr, if_true, this]
  refine ⟨_, by simp only [TPiecewise.splitTimeIndices, hx, hy, hsorted, Bind.bind, Except.bind]; rfl, ?_, fun s hs => ?_⟩
  · simp [Piecewise.splitTimeIndices, ht1]
  · have hs' : s < times.length := by simpa [Piecewise.splitTimeIndices] using hs
    simp only [Piecewise.splitTimeIndices, List.getElem_map, ht2 s hs', List.append_assoc]

end

/-! ### Splitting -/

theorem range_getD {α : Type*} (l : List α) (a : α) : (List.range l.length).map (l.getD · a) = l := by
  apply List.ext_get (by simp)
  intro t h1 h2
  simp [List.getD, h2]

/-- The positions with partition `j`. -/
def positions (ps : List ℤ) (j : ℕ) : List ℕ := (List.range ps.length).filter fun t => ps.getD t 0 = (j : ℤ)

theorem part_eq (data : List ℝ) (ps : List ℤ) (hl : data.length = ps.length) (j : ℕ) :
    ((data.zip ps).filter fun x => x.2 = (j : ℤ)).map Prod.fst = (positions ps j).map (data.getD · 0) := by
  have h : data.zip ps = (List.range ps.length).map fun t => (data.getD t 0, ps.getD t 0) := by
    conv_lhs => rw [← range_getD data 0, ← range_getD ps 0, hl]
    rw [List.zip_map']
  rw [h, List.filter_map, List.map_map]
  rfl

theorem positions_lt {ps : List ℤ} {j t : ℕ} (h : t ∈ positions ps j) : t < ps.length := by
  simpa using List.mem_of_mem_filter h

theorem positions_sum (ps : List ℤ) (num : ℕ) (h : ∀ q ∈ ps, 0 ≤ q ∧ q < num) :
    ((List.range num).map fun j => (positions ps j).length).sum = ps.length := by
  have h1 : ∀ j, (positions ps j).length = (List.range ps.length).countP fun t => ps.getD t 0 = (j : ℤ) := fun j =>
    (List.countP_eq_length_filter).symm
  have h2 : ∀ l : List ℕ, (∀ t ∈ l, t < ps.length) →
      ((List.range num).map fun j : ℕ => l.countP fun t => ps.getD t 0 = (j : ℤ)).sum = l.length := by
    intro l
    induction l with
    | nil => simp
    | cons t l ih =>
      intro hl
      have ht : t < ps.length := hl t List.mem_cons_self
      have hq := h ps[t] (List.getElem_mem ht)
      have e : ps.getD t 0 = ps[t] := by simp [List.getD, ht]
      simp only [List.countP_cons, e, List.sum_map_add, ih fun s hs => hl s (List.mem_cons_of_mem _ hs), List.length_cons]
      congr 1
      have : ∀ j : ℕ, (if decide (ps[t] = (j : ℤ)) = true then 1 else 0) = if j = (ps[t]).toNat then 1 else 0 := fun j => by
        have : ps[t] = (j : ℤ) ↔ j = (ps[t]).toNat := by omega
        simp [this]
      simp only [this]
      rw [← List.sum_toFinset _ List.nodup_range, List.toFinset_range, Finset.sum_ite_eq', if_pos]
      rw [Finset.mem_range]
      omega
  simp only [h1]
  simpa using h2 (List.range ps.length) (by simp)

theorem pick_holds {x : Tensor} {l : List ℝ} (hx : HoldsReals (List.replicate m 1) x l) {is : List ℕ} (his : ∀ t ∈ is, t < l.length) :
    HoldsReals [] (pick 0 x (is.map (· :: List.replicate m 0))) (is.map (l.getD · 0)) := by
  obtain ⟨h1, h2⟩ := holdsReals_iff.1 hx
  refine ⟨by simp [pick], fun b hb t => ?_⟩
  have hb' : b = [] := by simpa using inRange_length hb
  subst hb'
  have ht : (t : ℕ) < is.length := by simpa using t.2
  have := his _ (List.getElem_mem ht)
  simp only [pick, List.take_zero, List.nil_append, List.getD_cons_zero, List.get_eq_getElem, List.getElem_map]
  rw [List.getD, List.getElem?_map, List.getElem?_eq_getElem ht]
  simp only [Option.map_some, Option.getD_some]
  rw [h2 _ this]
  simp [List.getD, this]

/-- `split_input` of a tensor with shape `[1, …, 1, n]` -/
theorem splitInput_holds {K : TPiecewise} {k : Piecewise o d} (h : HoldsPiecewise K k) {x : Tensor} {i : ZTensor} {l : List ℝ} {is : List ℤ}
    (hx : HoldsReals (List.replicate m 1) x l) (hi : HoldsIndices m i is) :
    Agree (fun xs ls => List.Forall₂ (HoldsReals []) xs ls ∧ l.length = is.length ∧ (∀ q ∈ is, 0 ≤ q ∧ q < ((k.changePoints.length + 1 : ℕ) : ℤ)) ∧
      ls = (List.range (k.changePoints.length + 1)).map fun j => (positions is j).map (l.getD · 0)) (K.splitInput x i) (k.splitInput l is) := by
  obtain ⟨h1, h2⟩ := holdsReals_iff.1 hx
  have hdim : K.changePoints.dim (K.changePoints.shape.length - 1) = k.changePoints.length := by rw [dim, h.changePoints.1]; rfl
  have hk : x.shape.length - i.shape.length = 0 := by rw [h1, hi.1]; simp
  have hcond : (x.shape.drop 0 = i.shape ∧ ∀ j ∈ allIdx i.shape, 0 ≤ i.val j ∧ i.val j < ((k.changePoints.length + 1 : ℕ) : ℤ)) ↔
      l.length = is.length ∧ ∀ q ∈ is, 0 ≤ q ∧ q < ((k.changePoints.length + 1 : ℕ) : ℤ) := by
    rw [List.drop_zero, h1, hi.1, allIdx_ones]
    refine and_congr (by simp) ⟨fun hh q hq => ?_, fun hh j hj => ?_⟩
    · obtain ⟨t, ht, rfl⟩ := List.getElem_of_mem hq
      have := hh (t :: List.replicate m 0) (by simpa using ht)
      rwa [hi.2 t ht] at this
    · obtain ⟨t, ht, rfl⟩ := List.mem_map.1 hj
      have ht' : t < is.length := by simpa using ht
      rw [hi.2 t ht']
      exact hh _ (List.getElem_mem ht')
  by_cases hc : l.length = is.length ∧ ∀ q ∈ is, 0 ≤ q ∧ q < ((k.changePoints.length + 1 : ℕ) : ℤ)
  · refine .inl ⟨_, _, by simp only [TPiecewise.splitInput, dynamicPartitionT, hdim, hk, if_pos (hcond.2 hc)]; rfl,
      by rw [Piecewise.splitInput, dynamicPartition, if_pos hc], ?_, hc.1, hc.2, ?_⟩
    · rw [List.forall₂_map_left_iff, List.forall₂_map_right_iff, List.forall₂_same]
      intro j _
      rw [part_eq l is hc.1]
      have : (allIdx i.shape).filter (fun a => i.val a = (j : ℤ)) = (positions is j).map (· :: List.replicate m 0) := by
        rw [hi.1, allIdx_ones, List.filter_map]
        congr 1
        apply List.filter_congr
        intro t ht
        have ht' : t < is.length := by simpa using ht
        simp [hi.2 t ht', List.getD, ht']
      rw [this]
      exact pick_holds hx fun t ht => hc.1 ▸ positions_lt ht
    · simp only [part_eq l is hc.1]
  · exact .inr ⟨.invalidArgument, by simp only [TPiecewise.splitInput, dynamicPartitionT, hdim, hk, if_neg (mt hcond.1 hc)],
      by rw [Piecewise.splitInput, dynamicPartition, if_neg hc]⟩

end MF
