import Verif.Lemmas.BatchedPosterior
import Verif.Lemmas.Piecewise
import Verif.Spec.BatchedPiecewise

/-!
# The tensor operations of the piecewise kernels
-/

namespace MF
open Matrix Spec Tensor

variable {o d p m r c : ℕ} {α β : Type}

/-! ### Sequences along the outer axis -/

/-- `x` has shape `[n] + s` and entry `t` along the outer axis encodes `l[t]`. -/
def HoldsSeq (s : List ℕ) (e : β → List ℕ → ℝ) (x : Tensor) (l : List β) : Prop :=
  x.shape = s ++ [l.length] ∧ ∀ i, InRange i s → ∀ t (h : t < l.length), x.val (i ++ [t]) = e l[t] i

theorem removeAt_append (s : List ℕ) (n : ℕ) : removeAt s.length (s ++ [n]) = s := by
  induction s with
  | nil => rfl
  | cons a s ih => simp [removeAt, ih]

theorem modifyAt_append (f : ℕ → ℕ) (s : List ℕ) (n : ℕ) : modifyAt f s.length (s ++ [n]) = s ++ [f n] := by
  induction s with
  | nil => rfl
  | cons a s ih => simp [modifyAt, ih]

theorem insertAt_append (s : List ℕ) (n : ℕ) : insertAt n s.length s = s ++ [n] := by
  induction s with
  | nil => rfl
  | cons a s ih => simp [insertAt, ih]

theorem getD_append_last (s : List ℕ) (n : ℕ) : (s ++ [n]).getD s.length 0 = n := by simp

theorem concat_seq {s : List ℕ} {e : β → List ℕ → ℝ} {x y : Tensor} {l l' : List β} (hx : HoldsSeq s e x l) (hy : HoldsSeq s e y l') :
    ∃ z, concat s.length x y = .ok z ∧ HoldsSeq s e z (l ++ l') := by
  have h1 : s.length < x.shape.length ∧ s.length < y.shape.length ∧ removeAt s.length x.shape = removeAt s.length y.shape := by
    rw [hx.1, hy.1]; simp [removeAt_append]
  have hdx : x.dim s.length = l.length := by rw [dim, hx.1, getD_append_last]
  have hdy : y.dim s.length = l'.length := by rw [dim, hy.1, getD_append_last]
  refine ⟨_, by rw [concat, if_pos h1], ?_, fun i hi t ht => ?_⟩
  · rw [hx.1, modifyAt_append, hdy, List.length_append]
  · have hl : i.length = s.length := inRange_length hi
    rw [← hl] at hdx hdy ⊢
    dsimp only
    rw [getD_append_last, hdx, modifyAt_append]
    split_ifs with h
    · rw [hx.2 i hi t h, List.getElem_append_left h]
    · rw [List.length_append] at ht
      rw [hy.2 i hi (t - l.length) (by omega), List.getElem_append_right (by omega)]

theorem concatList_seq {s : List ℕ} {e : β → List ℕ → ℝ} {xs : List Tensor} {ls : List (List β)} (h : List.Forall₂ (HoldsSeq s e) xs ls)
    (hne : xs ≠ []) : ∃ z, concatList s.length xs = .ok z ∧ HoldsSeq s e z ls.flatten := by
  induction h with
  | nil => exact absurd rfl hne
  | @cons x l xs ls hx hxs ih =>
    cases hxs with
    | nil => exact ⟨x, rfl, by simpa using hx⟩
    | @cons x' l' xs ls hx' hxs =>
      obtain ⟨z, hz, hzh⟩ := ih (by simp)
      obtain ⟨w, hw, hwh⟩ := concat_seq hx hzh
      exact ⟨w, by simp only [concatList, hz, Bind.bind, Except.bind, hw], by simpa using hwh⟩

theorem gatherOuter_seq {s : List ℕ} {e : β → List ℕ → ℝ} {x : Tensor} {l : List β} (hx : HoldsSeq s e x l) (is : List ℤ) :
    Agree (HoldsSeq s e) (gatherOuter x is) (tfGather l is) := by
  have hk : x.shape.length - 1 = s.length := by rw [hx.1]; simp
  have hdx : x.dim s.length = l.length := by rw [dim, hx.1, getD_append_last]
  have key : (∀ i ∈ is, 0 ≤ i ∧ i < (l.length : ℤ)) → ∃ l', tfGather l is = .ok l' ∧ l'.length = is.length ∧
      ∀ t (h : t < l'.length) (h' : t < is.length), ∃ h'' : (is[t]).toNat < l.length, l'[t] = l[(is[t]).toNat] := by
    clear hk hdx hx
    induction is with
    | nil => intro _; exact ⟨[], rfl, rfl, fun t h => absurd h (by simp)⟩
    | cons i is ih =>
      intro h
      obtain ⟨l', h1, h2, h3⟩ := ih fun j hj => h j (List.mem_cons_of_mem _ hj)
      obtain ⟨h4, h5⟩ := h i List.mem_cons_self
      have h6 : i.toNat < l.length := by omega
      refine ⟨l[i.toNat] :: l', ?_, by simp [h2], fun t ht ht' => ?_⟩
      · simp only [tfGather, if_pos h4, List.getElem?_eq_getElem h6, Option.elim, h1, Bind.bind, Except.bind]
        rfl
      · cases t with
        | zero => exact ⟨h6, rfl⟩
        | succ t => exact h3 t (by simpa using ht) (by simpa using ht')
  have key2 : ¬ (∀ i ∈ is, 0 ≤ i ∧ i < (l.length : ℤ)) → tfGather l is = .error .invalidArgument := by
    clear hk hdx hx key
    induction is with
    | nil => intro h; exact absurd (by simp) h
    | cons i is ih =>
      intro h
      by_cases hi : 0 ≤ i ∧ i < (l.length : ℤ)
      · have h6 : i.toNat < l.length := by omega
        have := ih fun h' => h fun j hj => by
          rcases List.mem_cons.1 hj with rfl | hj
          exacts [hi, h' j hj]
        simp only [tfGather, if_pos hi.1, List.getElem?_eq_getElem h6, Option.elim, this, Bind.bind, Except.bind]
      · by_cases h0 : 0 ≤ i
        · have h6 : l.length ≤ i.toNat := by by_contra h'; exact hi ⟨h0, by omega⟩
          simp only [tfGather, if_pos h0, List.getElem?_eq_none h6, Option.elim, Bind.bind, Except.bind]
        · simp only [tfGather, if_neg h0, Bind.bind, Except.bind]
  by_cases h : ∀ i ∈ is, 0 ≤ i ∧ i < (l.length : ℤ)
  · obtain ⟨l', h1, h2, h3⟩ := key h
    refine .inl ⟨_, l', by simp only [gatherOuter, hk, hdx, if_pos h]; rfl, h1, ?_, fun i hi t ht => ?_⟩
    · simp only [hx.1, List.take_left', h2]
    · have hl : i.length = s.length := inRange_length hi
      have ht' : t < is.length := by omega
      obtain ⟨h4, h5⟩ := h3 t ht ht'
      have e1 : (i ++ [t]).take s.length = i := by rw [← hl, List.take_left']; rfl
      have e2 : (i ++ [t]).getD s.length 0 = t := by rw [← hl, getD_append_last]
      have e3 : is.getD t 0 = is[t] := by simp [List.getD, ht']
      simp only [e1, e2, e3]
      rw [hx.2 i hi _ h4, h5]
  · exact .inr ⟨_, by simp only [gatherOuter, hk, hdx, if_neg h], key2 h⟩

/-- `x` has shape `s` and encodes `a`. -/
def HoldsOne (s : List ℕ) (e : β → List ℕ → ℝ) (x : Tensor) (a : β) : Prop := x.shape = s ∧ ∀ i, InRange i s → x.val i = e a i

theorem packT_seq {s : List ℕ} {e : β → List ℕ → ℝ} {xs : List Tensor} {l : List β} (h : List.Forall₂ (HoldsOne s e) xs l) (hne : l ≠ []) :
    ∃ z, packT xs = .ok z ∧ HoldsSeq s e z l := by
  cases h with
  | nil => exact absurd rfl hne
  | @cons x a xs l hx hxs =>
    have hs : ∀ y ∈ xs, y.shape = x.shape := by
      intro y hy
      obtain ⟨h1, h2⟩ := List.forall₂_iff_get.1 hxs
      obtain ⟨t, rfl⟩ := List.get_of_mem hy
      rw [(h2 t t.2 (by rw [← h1]; exact t.2)).1, hx.1]
    have hlen : xs.length = l.length := hxs.length_eq
    refine ⟨_, by simp only [packT, if_pos hs]; rfl, by simp [hx.1, hlen], fun i hi t ht => ?_⟩
    have hl : i.length = s.length := inRange_length hi
    have e1 : (i ++ [t]).take s.length = i := by rw [← hl, List.take_left']; rfl
    have e2 : (i ++ [t]).getD s.length 0 = t := by rw [← hl, getD_append_last]
    have ht' : t < (x :: xs).length := by simpa [hlen] using ht
    have e3 : (x :: xs).getD t x = (x :: xs)[t] := by rw [List.getD, List.getElem?_eq_getElem ht']; rfl
    simp only [hx.1, e1, e2, e3]
    have := (List.forall₂_iff_get.1 (List.Forall₂.cons hx hxs)).2 t ht' ht
    exact this.2 i hi

/-! ### Matrices, vectors and numbers as sequences -/

/-- The entries of a matrix, the column first. -/
def encMat (A : Mat r c) : List ℕ → ℝ
  | [j, i] => if h : i < r ∧ j < c then A ⟨i, h.1⟩ ⟨j, h.2⟩ else 0
  | _ => 0

/-- The entries of a vector. -/
def encVec (v : Vec d) : List ℕ → ℝ
  | [i] => if h : i < d then v ⟨i, h⟩ else 0
  | _ => 0

theorem holdsMatrices_iff {x : Tensor} {l : List (Mat r c)} : HoldsMatrices x l ↔ HoldsSeq [c, r] encMat x l := by
  refine and_congr_right fun _ => ⟨fun h i hi t ht => ?_, fun h b hb t i j => ?_⟩
  · obtain ⟨j, i, rfl⟩ : ∃ j k, i = [j, k] := by
      have := inRange_length hi
      simpa [List.length_eq_two] using this
    obtain ⟨hj, hi, _⟩ := hi
    have := h [] trivial ⟨t, ht⟩ ⟨i, hi⟩ ⟨j, hj⟩
    simpa [encMat, hj, hi] using this
  · have hb' : b = [] := by simpa using inRange_length hb
    subst hb'
    have := h [(j : ℕ), (i : ℕ)] ⟨j.2, i.2, trivial⟩ t t.2
    simpa [encMat] using this

theorem holdsVectors_iff {x : Tensor} {l : List (Vec d)} : HoldsVectors x l ↔ HoldsSeq [d] encVec x l := by
  refine and_congr_right fun _ => ⟨fun h i hi t ht => ?_, fun h b hb t i => ?_⟩
  · obtain ⟨i, rfl⟩ : ∃ j, i = [j] := by
      have := inRange_length hi
      simpa [List.length_eq_one_iff] using this
    obtain ⟨hi, _⟩ := hi
    have := h [] trivial ⟨t, ht⟩ ⟨i, hi⟩
    simpa [encVec, hi] using this
  · have hb' : b = [] := by simpa using inRange_length hb
    subst hb'
    have := h [(i : ℕ)] ⟨i.2, trivial⟩ t t.2
    simpa [encVec] using this

theorem holdsMat_one {x : Tensor} {A : Mat r c} (h : HoldsMat [] x fun _ => A) : HoldsOne [c, r] encMat x A := by
  refine ⟨h.1, fun i hi => ?_⟩
  obtain ⟨j, i, rfl⟩ : ∃ j k, i = [j, k] := by
    have := inRange_length hi
    simpa [List.length_eq_two] using this
  obtain ⟨hj, hi, _⟩ := hi
  simpa [encMat, hj, hi] using h.2 [] trivial ⟨i, hi⟩ ⟨j, hj⟩

theorem holdsVec_one {x : Tensor} {v : Vec d} (h : HoldsVec [] x fun _ => v) : HoldsOne [d] encVec x v := by
  refine ⟨h.1, fun i hi => ?_⟩
  obtain ⟨i, rfl⟩ : ∃ j, i = [j] := by
    have := inRange_length hi
    simpa [List.length_eq_one_iff] using this
  obtain ⟨hi, _⟩ := hi
  simpa [encVec, hi] using h.2 [] trivial ⟨i, hi⟩

end MF
