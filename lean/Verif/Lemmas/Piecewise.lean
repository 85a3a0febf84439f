import Verif.Model.Piecewise
import Verif.Spec.Piecewise

/-! # Lemmas about partitioning and gathering -/

namespace MF
open Matrix Spec
variable {o d : ℕ}

section lists
variable {α β : Type*}

theorem filter_lt_succ (i : α → ℕ) (m : ℕ) {xs : List α} (h : xs.Pairwise fun a b => i a ≤ i b) :
    xs.filter (fun x => i x < m + 1) =
      xs.filter (fun x => i x < m) ++ xs.filter (fun x => i x = m) := by
  induction xs with
  | nil => rfl
  | cons x xs ih =>
    rw [List.pairwise_cons] at h
    have ih := ih h.2
    rcases lt_trichotomy (i x) m with hlt | heq | hgt
    · rw [List.filter_cons_of_pos (by simp; omega), List.filter_cons_of_pos (by simpa using hlt),
        List.filter_cons_of_neg (by simp; omega), ih, List.cons_append]
    · have h0 : xs.filter (fun x => i x < m) = [] := by
        rw [List.filter_eq_nil_iff]
        intro a ha; have := h.1 a ha; simp; omega
      rw [h0, List.nil_append] at ih
      rw [List.filter_cons_of_pos (by simp; omega), List.filter_cons_of_neg (by simp; omega),
        List.filter_cons_of_pos (by simpa using heq), ih, h0, List.nil_append]
    · have h0 : ∀ p : α → Bool, (∀ a ∈ x :: xs, p a = false) → (x :: xs).filter p = [] := by
        intro p hp; rw [List.filter_eq_nil_iff]; intro a ha; simp [hp a ha]
      have hge : ∀ a ∈ x :: xs, m < i a := by
        intro a ha
        rcases List.mem_cons.1 ha with rfl | ha
        · exact hgt
        · have := h.1 a ha; omega
      rw [h0 _ fun a ha => by have := hge a ha; simp; omega,
        h0 _ fun a ha => by have := hge a ha; simp; omega,
        h0 _ fun a ha => by have := hge a ha; simp; omega, List.append_nil]

/-- A list sorted by `i` is the concatenation of its parts. -/
theorem flatMap_range_filter (i : α → ℕ) (m : ℕ) {xs : List α}
    (h : xs.Pairwise fun a b => i a ≤ i b) :
    (List.range m).flatMap (fun j => xs.filter fun x => i x = j) = xs.filter fun x => i x < m := by
  induction m with
  | zero => simp
  | succ m ih => rw [List.range_succ, List.flatMap_append, ih, filter_lt_succ i m h]; simp

theorem zip_map_filter (xs : List α) (g : α → ℤ) (i : ℤ) :
    ((xs.zip (xs.map g)).filter fun x => x.2 = i).map Prod.fst = xs.filter fun x => g x = i := by
  induction xs with
  | nil => rfl
  | cons x xs ih =>
    rw [List.map_cons, List.zip_cons_cons]
    by_cases h : g x = i
    · rw [List.filter_cons_of_pos (by simpa using h), List.filter_cons_of_pos (by simpa using h),
        List.map_cons, ih]
    · rw [List.filter_cons_of_neg (by simpa using h), List.filter_cons_of_neg (by simpa using h), ih]

theorem zip_map_filter' (ps : List (α × β)) (g : α → ℤ) (i : ℤ) :
    (((ps.map Prod.snd).zip ((ps.map Prod.fst).map g)).filter fun x => x.2 = i).map Prod.fst =
      (ps.filter fun x => g x.1 = i).map Prod.snd := by
  induction ps with
  | nil => rfl
  | cons x xs ih =>
    rw [List.map_cons, List.map_cons, List.map_cons, List.zip_cons_cons]
    by_cases h : g x.1 = i
    · rw [List.filter_cons_of_pos (by simpa using h), List.filter_cons_of_pos (by simpa using h),
        List.map_cons, List.map_cons, ih]
    · rw [List.filter_cons_of_neg (by simpa using h), List.filter_cons_of_neg (by simpa using h), ih]

theorem filter_map_fst (ps : List (α × β)) (p : α → Bool) :
    (ps.map Prod.fst).filter p = (ps.filter fun x => p x.1).map Prod.fst := by
  rw [List.filter_map]; rfl

theorem zip_fst_snd (ps : List (α × β)) : (ps.map Prod.fst).zip (ps.map Prod.snd) = ps := by
  induction ps with
  | nil => rfl
  | cons x xs ih => simp [ih]

end lists

section gather
variable {α β : Type}

theorem tfGather_ok (xs : List α) (is : List ℤ) (f : ℤ → α)
    (h : ∀ i ∈ is, 0 ≤ i ∧ xs[i.toNat]? = some (f i)) : tfGather xs is = .ok (is.map f) := by
  induction is with
  | nil => rfl
  | cons i is ih =>
    obtain ⟨h0, h1⟩ := h i (by simp)
    rw [tfGather, if_pos h0, h1, ih fun j hj => h j (by simp [hj])]
    rfl

theorem gatherKernels_ok (K : Piecewise o d) (f : Stationary o d → β) (is : List ℤ)
    (ker : ℤ → Stationary o d) (h : ∀ i ∈ is, 0 ≤ i ∧ K.kernels[i.toNat]? = some (ker i)) :
    K.gatherKernels f is = .ok (is.map fun i => f (ker i)) := by
  have h1 : tfGather (K.kernels.map f) is.eraseDups = .ok (is.eraseDups.map fun i => f (ker i)) := by
    refine tfGather_ok _ _ _ fun i hi => ?_
    obtain ⟨h0, h1⟩ := h i (List.mem_eraseDups.1 hi)
    exact ⟨h0, by rw [List.getElem?_map, h1]; rfl⟩
  simp only [Piecewise.gatherKernels, bind, Except.bind, h1]
  have h2 : ∀ i ∈ is, (is.eraseDups.map fun i => f (ker i))[is.eraseDups.idxOf i]? = some (f (ker i)) := by
    intro i hi
    have hm : i ∈ is.eraseDups := List.mem_eraseDups.2 hi
    rw [List.getElem?_map, List.getElem?_idxOf hm]; rfl
  have key : ∀ js : List ℤ, (∀ j ∈ js, j ∈ is) →
      tfGather (is.eraseDups.map fun i => f (ker i))
        (js.map fun i => ((is.eraseDups.idxOf i : ℕ) : ℤ)) = .ok (js.map fun i => f (ker i)) := by
    intro js hjs
    induction js with
    | nil => rfl
    | cons j js ih =>
      rw [List.map_cons, tfGather, if_pos (Int.natCast_nonneg _), Int.toNat_natCast,
        h2 j (hjs j (by simp)), ih fun a ha => hjs a (by simp [ha])]
      rfl
  exact key is fun j hj => hj

theorem applyKernels_ok (K : Piecewise o d) (f : Stationary o d → α → β) (ker : ℕ → Stationary o d)
    (parts : List (List α)) (i : ℕ)
    (h : ∀ j, i ≤ j → j < i + parts.length → K.kernels[j]? = some (ker j)) :
    K.applyKernels f i parts =
      .ok ((parts.zipIdx i).flatMap fun p => p.1.map (f (ker p.2))) := by
  induction parts generalizing i with
  | nil => rfl
  | cons p ps ih =>
    rw [Piecewise.applyKernels, h i le_rfl (by simp),
      ih (i + 1) fun j h1 h2 => h j (by omega) (by rw [List.length_cons]; omega)]
    rfl

theorem zipIdx_range_map (part : ℕ → List α) (f : ℕ → α → β) (m : ℕ) :
    ((((List.range m).map part).zipIdx 0).flatMap fun p => p.1.map (f p.2)) =
      (List.range m).flatMap fun j => (part j).map (f j) := by
  have : ((List.range m).map part).zipIdx 0 = (List.range m).map fun j => (part j, j) := by
    apply List.ext_getElem
    · simp
    · intro n h1 h2; simp
  rw [this, List.flatMap_map]

end gather

end MF

namespace MF
open Matrix Spec
variable {o d m : ℕ}

theorem countP_ofFn (cp : Fin m → ℝ) (t : ℝ) :
    (List.ofFn cp).countP (fun c => decide (c ≤ t)) = (segment cp t : ℕ) := by
  classical
  have h1 : List.ofFn cp = (List.finRange m).map cp := by rw [List.ofFn_eq_map]
  rw [h1, List.countP_map, List.countP_eq_length_filter]
  show _ = (Finset.univ.filter fun j => cp j ≤ t).card
  rw [Fin.univ_def, Finset.card, Finset.filter_val, Multiset.filter_coe, Multiset.coe_card]
  rfl

theorem segment_mono (cp : Fin m → ℝ) {s t : ℝ} (h : s ≤ t) : segment cp s ≤ segment cp t := by
  classical
  show (Finset.univ.filter fun j => cp j ≤ s).card ≤ (Finset.univ.filter fun j => cp j ≤ t).card
  apply Finset.card_le_card
  intro x hx
  rw [Finset.mem_filter] at hx ⊢
  exact ⟨hx.1, hx.2.trans h⟩

namespace Piecewise

theorem splitTimeIndices_eq (ker : List (Stationary o d)) {cp : Fin m → ℝ} (hm : 0 < m) (j : ℝ)
    {inf : ℝ} {ts : List ℝ} (ht : ∀ t ∈ ts, -inf ≤ t ∧ t < inf) :
    (Piecewise.mk ker (List.ofFn cp) j).splitTimeIndices inf ts =
      ts.map fun t => (((segment cp t : ℕ)) : ℤ) := by
  unfold splitTimeIndices
  simp only
  apply List.map_congr_left
  intro t htm
  obtain ⟨h1, h2⟩ := ht t htm
  have hl : ((List.ofFn cp).drop ((List.ofFn cp).length - 1)).length = 1 := by
    rw [List.length_drop, List.length_ofFn]; omega
  rw [List.map_const', List.map_const', hl, List.countP_append, List.countP_append, countP_ofFn]
  have e1 : (List.replicate 1 (-inf)).countP (fun c => decide (c ≤ t)) = 1 := by
    simp [h1]
  have e2 : (List.replicate 1 inf).countP (fun c => decide (c ≤ t)) = 0 := by
    simp [h2]
  rw [e1, e2]; push_cast; ring

theorem dynamicPartition_eq {α : Type*} {xs : List α} {g : α → ℤ} {num : ℕ}
    (h : ∀ x ∈ xs, 0 ≤ g x ∧ g x < num) :
    dynamicPartition xs (xs.map g) num =
      .ok ((List.range num).map fun i : ℕ => xs.filter fun x => g x = (i : ℤ)) := by
  rw [dynamicPartition, if_pos]
  · congr 1
    apply List.map_congr_left
    intro i _
    exact zip_map_filter xs g i
  · refine ⟨by simp, ?_⟩
    intro p hp
    obtain ⟨x, hx, rfl⟩ := List.mem_map.1 hp
    exact h x hx

theorem dynamicPartition_eq' {α β : Type*} {ps : List (α × β)} {g : α → ℤ} {num : ℕ}
    (h : ∀ x ∈ ps, 0 ≤ g x.1 ∧ g x.1 < num) :
    dynamicPartition (ps.map Prod.snd) ((ps.map Prod.fst).map g) num =
      .ok ((List.range num).map fun i : ℕ => (ps.filter fun x => g x.1 = (i : ℤ)).map Prod.snd) := by
  rw [dynamicPartition, if_pos]
  · congr 1
    apply List.map_congr_left
    intro i _
    exact zip_map_filter' ps g i
  · refine ⟨by simp, ?_⟩
    intro p hp
    obtain ⟨x, hx, rfl⟩ := List.mem_map.1 hp
    obtain ⟨y, hy, rfl⟩ := List.mem_map.1 hx
    exact h y hy

theorem zipWith_zip_map {α β : Type*} (m : ℕ) (part : ℕ → List (α × β)) :
    List.zipWith List.zip ((List.range m).map fun i => (part i).map Prod.fst)
      ((List.range m).map fun i => (part i).map Prod.snd) = (List.range m).map part := by
  rw [List.zipWith_map]
  have : ∀ l : List ℕ, List.zipWith (fun i j => ((part i).map Prod.fst).zip ((part j).map Prod.snd)) l l
      = l.map part := by
    intro l
    induction l with
    | nil => rfl
    | cons a l ih => rw [List.zipWith_cons_cons, ih, zip_fst_snd, List.map_cons]
  exact this _

/-- Splitting by segments, applying the kernels and concatenating. -/
theorem apply_split {α β : Type} (ker : Fin (m + 1) → Stationary o d) (cps : List ℝ) (j : ℝ)
    (f : Stationary o d → α → β) (seg : α → Fin (m + 1)) {xs : List α}
    (hs : xs.Pairwise fun a b => seg a ≤ seg b) :
    (Piecewise.mk (List.ofFn ker) cps j).applyKernels f 0
      ((List.range (m + 1)).map fun i : ℕ => xs.filter fun x => ((seg x : ℕ) : ℤ) = (i : ℤ)) =
      .ok (xs.map fun x => f (ker (seg x)) x) := by
  let ker' : ℕ → Stationary o d := fun i => if h : i < m + 1 then ker ⟨i, h⟩ else ker 0
  rw [applyKernels_ok _ f ker']
  · rw [zipIdx_range_map (fun i : ℕ => xs.filter fun x => ((seg x : ℕ) : ℤ) = (i : ℤ))
      (fun i => f (ker' i))]
    congr 1
    have h1 : ∀ i : ℕ, (xs.filter fun x => ((seg x : ℕ) : ℤ) = (i : ℤ)).map (f (ker' i)) =
        (xs.filter fun x => (seg x : ℕ) = i).map fun x => f (ker (seg x)) x := by
      intro i
      have : (xs.filter fun x => ((seg x : ℕ) : ℤ) = (i : ℤ)) = xs.filter fun x => (seg x : ℕ) = i := by
        apply List.filter_congr; intro x _; simp
      rw [this]
      apply List.map_congr_left
      intro x hx
      have := (List.mem_filter.1 hx).2
      have hx' : (seg x : ℕ) = i := by simpa using this
      have : ker' i = ker (seg x) := by
        simp only [ker', ← hx']
        rw [dif_pos (seg x).2]
      rw [this]
    have e := flatMap_range_filter (fun x => (seg x : ℕ)) (m + 1) hs
    have e2 : (xs.filter fun x => (seg x : ℕ) < m + 1) = xs := by
      rw [List.filter_eq_self]; intro a _; simpa using (seg a).2
    calc ((List.range (m + 1)).flatMap fun i : ℕ =>
          (xs.filter fun x => ((seg x : ℕ) : ℤ) = (i : ℤ)).map (f (ker' i)))
        = (List.range (m + 1)).flatMap fun i =>
          (xs.filter fun x => (seg x : ℕ) = i).map fun x => f (ker (seg x)) x := by
          simp only [h1]
      _ = ((List.range (m + 1)).flatMap fun i => xs.filter fun x => (seg x : ℕ) = i).map
            fun x => f (ker (seg x)) x := by rw [List.map_flatMap]
      _ = _ := by rw [e, e2]
  · intro i _ hi
    have hi' : i < m + 1 := by simpa using hi
    rw [List.getElem?_eq_getElem (by simpa using hi'), List.getElem_ofFn]
    simp only [ker']; rw [dif_pos hi']

variable (ker : Fin (m + 1) → Stationary o d) (cp : Fin m → ℝ) (j : ℝ)

theorem sorted_segments (ps : List (ℝ × ℝ)) (hs : (ps.map Prod.fst).Pairwise (· ≤ ·)) :
    ps.Pairwise fun a b => segment cp a.1 ≤ segment cp b.1 := by
  rw [List.pairwise_map] at hs
  exact hs.imp fun h => segment_mono cp h

theorem split_apply {β : Type} (f : Stationary o d → ℝ × ℝ → β) (hm : 0 < m) {inf : ℝ}
    {ts δs : List ℝ} (hl : ts.length = δs.length) (hs : ts.Pairwise (· ≤ ·))
    (ht : ∀ t ∈ ts, -inf ≤ t ∧ t < inf) :
    (do
      let indices := (Piecewise.mk (List.ofFn ker) (List.ofFn cp) j).splitTimeIndices inf ts
      let splitTimes ← (Piecewise.mk (List.ofFn ker) (List.ofFn cp) j).splitInput ts indices
      let splitDeltas ← (Piecewise.mk (List.ofFn ker) (List.ofFn cp) j).splitInput δs indices
      (Piecewise.mk (List.ofFn ker) (List.ofFn cp) j).applyKernels f 0
        (List.zipWith List.zip splitTimes splitDeltas)) =
    .ok (List.zipWith (fun t δ => f (ker (segment cp t)) (t, δ)) ts δs) := by
  obtain ⟨ps, rfl, rfl⟩ : ∃ ps : List (ℝ × ℝ), ps.map Prod.fst = ts ∧ ps.map Prod.snd = δs :=
    ⟨ts.zip δs, by rw [List.map_fst_zip (by omega)], by rw [List.map_snd_zip (by omega)]⟩
  have hr : ∀ x ∈ ps, 0 ≤ (((segment cp x.1 : ℕ)) : ℤ) ∧
      (((segment cp x.1 : ℕ)) : ℤ) < ((m + 1 : ℕ) : ℤ) := fun x _ =>
    ⟨Int.natCast_nonneg _, by exact_mod_cast (segment cp x.1).2⟩
  rw [splitTimeIndices_eq _ hm j ht]
  simp only [splitInput, List.length_ofFn]
  rw [dynamicPartition_eq (fun x hx => by
      obtain ⟨y, hy, rfl⟩ := List.mem_map.1 hx; exact hr y hy),
    dynamicPartition_eq' hr]
  simp only [bind, Except.bind]
  have h1 : ∀ i : ℕ, ((ps.map Prod.fst).filter fun x => (((segment cp x : ℕ)) : ℤ) = (i : ℤ)) =
      (ps.filter fun x => (((segment cp x.1 : ℕ)) : ℤ) = (i : ℤ)).map Prod.fst := fun i =>
    filter_map_fst ps _
  simp only [h1]
  rw [zipWith_zip_map (m + 1) fun i : ℕ => ps.filter fun x => (((segment cp x.1 : ℕ)) : ℤ) = (i : ℤ)]
  rw [apply_split ker (List.ofFn cp) j f (fun x : ℝ × ℝ => segment cp x.1)
    (sorted_segments cp ps hs)]
  congr 1
  rw [List.zipWith_map]
  clear hl hs ht hr h1
  induction ps with
  | nil => rfl
  | cons p ps ih => rw [List.map_cons, List.zipWith_cons_cons, ih]

theorem split_apply1 {β : Type} (f : Stationary o d → ℝ → β) (hm : 0 < m) {inf : ℝ}
    {ts : List ℝ} (hs : ts.Pairwise (· ≤ ·)) (ht : ∀ t ∈ ts, -inf ≤ t ∧ t < inf) :
    (do
      let indices := (Piecewise.mk (List.ofFn ker) (List.ofFn cp) j).splitTimeIndices inf ts
      let splitTimes ← (Piecewise.mk (List.ofFn ker) (List.ofFn cp) j).splitInput ts indices
      (Piecewise.mk (List.ofFn ker) (List.ofFn cp) j).applyKernels f 0 splitTimes) =
    .ok (ts.map fun t => f (ker (segment cp t)) t) := by
  rw [splitTimeIndices_eq _ hm j ht]
  simp only [splitInput, List.length_ofFn]
  rw [dynamicPartition_eq (fun x hx =>
    ⟨Int.natCast_nonneg _, by exact_mod_cast (segment cp x).2⟩)]
  simp only [bind, Except.bind]
  rw [apply_split ker (List.ofFn cp) j f (fun x => segment cp x)]
  exact hs.imp fun h => segment_mono cp h

theorem gather_split {β : Type} (f : Stationary o d → β) (hm : 0 < m) {inf : ℝ} {ts : List ℝ}
    (ht : ∀ t ∈ ts, -inf ≤ t ∧ t < inf) :
    (Piecewise.mk (List.ofFn ker) (List.ofFn cp) j).gatherKernels f
      ((Piecewise.mk (List.ofFn ker) (List.ofFn cp) j).splitTimeIndices inf ts) =
      .ok (ts.map fun t => f (ker (segment cp t))) := by
  rw [splitTimeIndices_eq _ hm j ht,
    gatherKernels_ok _ f _ (fun i => if h : i.toNat < m + 1 then ker ⟨i.toNat, h⟩ else ker 0)]
  · rw [List.map_map]
    congr 1
    apply List.map_congr_left
    intro t _
    simp only [Function.comp_apply, Int.toNat_natCast]
    rw [dif_pos (segment cp t).2]
  · intro i hi
    obtain ⟨t, -, rfl⟩ := List.mem_map.1 hi
    refine ⟨Int.natCast_nonneg _, ?_⟩
    have h := (segment cp t).2
    rw [Int.toNat_natCast, List.getElem?_eq_getElem (by simpa using h), List.getElem_ofFn, dif_pos h]

end Piecewise
end MF
