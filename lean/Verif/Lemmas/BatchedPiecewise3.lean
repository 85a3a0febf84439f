import Verif.Lemmas.BatchedPiecewise2

/-!
# Piecewise kernels on tensors: the methods
-/

namespace MF
open Matrix Spec Tensor

variable {o d p m r c : ℕ} {α β γ : Type}

theorem seq_of_mat {z : Tensor} {A : List ℕ → Mat r c} {l : List (Mat r c)} {n : ℕ} (hn : n = l.length) (h : HoldsMat [n] z A)
    (hA : ∀ t (ht : t < l.length), A [t] = l[t]) : HoldsSeq [c, r] encMat z l := by
  subst hn
  refine holdsMatrices_iff.1 ⟨h.1, fun b hb t i j => ?_⟩
  have hb' : b = [] := by simpa using inRange_length hb
  subst hb'
  rw [h.2 [(t : ℕ)] ⟨t.2, trivial⟩ i j, hA t t.2]
  rfl

theorem seq_of_vec {z : Tensor} {A : List ℕ → Vec d} {l : List (Vec d)} {n : ℕ} (hn : n = l.length) (h : HoldsVec [n] z A)
    (hA : ∀ t (ht : t < l.length), A [t] = l[t]) : HoldsSeq [d] encVec z l := by
  subst hn
  refine holdsVectors_iff.1 ⟨h.1, fun b hb t i => ?_⟩
  have hb' : b = [] := by simpa using inRange_length hb
  subst hb'
  rw [h.2 [(t : ℕ)] ⟨t.2, trivial⟩ i, hA t t.2]
  rfl

theorem mat_of_seq {z : Tensor} {l : List (Mat r c)} (h : HoldsSeq [c, r] encMat z l) : HoldsMat [l.length] z (lift fun _ => l.get) :=
  holdsMats_iff.1 (holdsMatrices_iff.2 h)

theorem reals_real {x : Tensor} {l : List ℝ} (h : HoldsReals [] x l) : HoldsReal [l.length] x fun b => l.getD (b.headD 0) 0 := by
  refine ⟨h.1, fun b hb => ?_⟩
  obtain ⟨t, rfl⟩ : ∃ t, b = [t] := by
    have := inRange_length hb
    simpa [List.length_eq_one_iff] using this
  have := h.2 [] trivial ⟨t, hb.1⟩
  rw [this]
  simp [List.getD, hb.1]

theorem reals_map {x : Tensor} (g : α → ℝ) {l : List α} (h : HoldsReals [] x (l.map g)) :
    ∃ f : List ℕ → ℝ, HoldsReal [l.length] x f ∧ ∀ t (ht : t < l.length), f [t] = g l[t] := by
  refine ⟨_, by simpa using reals_real h, fun t ht => ?_⟩
  simp [List.getD, ht]

theorem tfGather_length {xs l : List α} {is : List ℤ} (h : tfGather xs is = .ok l) : l.length = is.length := by
  induction is generalizing l with
  | nil => cases h; rfl
  | cons i is ih =>
    rw [tfGather] at h
    split_ifs at h
    · obtain ⟨x, -, h⟩ := exBind_ok h
      obtain ⟨l', h', h⟩ := exBind_ok h
      cases h
      simp [ih h']
    · cases h

section
variable {K : TPiecewise} {k : Piecewise o d} (h : HoldsPiecewise K k)
include h

theorem kernel_lookup (i : ℕ) : (∃ K' k', K.kernels[i]? = some K' ∧ k.kernels[i]? = some k' ∧ HoldsKernel K' k') ∨
    K.kernels[i]? = none ∧ k.kernels[i]? = none := by
  obtain ⟨h1, h2⟩ := List.forall₂_iff_get.1 h.kernels
  by_cases hi : i < k.kernels.length
  · have hi' : i < K.kernels.length := by omega
    exact .inl ⟨_, _, List.getElem?_eq_getElem hi', List.getElem?_eq_getElem hi, h2 i hi' hi⟩
  · exact .inr ⟨List.getElem?_eq_none (by omega), List.getElem?_eq_none (by omega)⟩

theorem collect_holds {s : List ℕ} {e : β → List ℕ → ℝ} {F : TKernel → γ → Except Err Tensor} {f : Stationary o d → α → β}
    {R : γ → List α → Prop} (hF : ∀ K' k', HoldsKernel K' k' → ∀ a part, R a part → ∃ z, F K' a = .ok z ∧ HoldsSeq s e z (part.map (f k')))
    {as : List γ} {parts : List (List α)} (hp : List.Forall₂ R as parts) (i : ℕ) :
    Agree (fun xs l => ∃ ls, List.Forall₂ (HoldsSeq s e) xs ls ∧ l = ls.flatten ∧ l.length = (parts.map List.length).sum ∧ xs.length = parts.length)
      (K.collect F i as) (k.applyKernels f i parts) := by
  induction hp generalizing i with
  | nil => exact .inl ⟨[], [], rfl, rfl, [], .nil, rfl, rfl, rfl⟩
  | @cons a part as parts ha _ ih =>
    rcases kernel_lookup h i with ⟨K', k', h1, h2, h3⟩ | ⟨h1, h2⟩
    · obtain ⟨z, hz, hzh⟩ := hF K' k' h3 a part ha
      rcases ih (i + 1) with ⟨xs, l, hx, hl, ls, g1, g2, g3, g4⟩ | ⟨e, hx, hl⟩
      · refine .inl ⟨z :: xs, part.map (f k') ++ l, ?_, ?_, part.map (f k') :: ls, .cons hzh g1, by simp [g2], by simp [g3], by simp [g4]⟩
        · simp only [TPiecewise.collect, h1, Option.elim, hz, hx, Bind.bind, Except.bind]; rfl
        · simp only [Piecewise.applyKernels, h2, Option.elim, hl, Bind.bind, Except.bind]; rfl
      · exact .inr ⟨e, by simp only [TPiecewise.collect, h1, Option.elim, hz, hx, Bind.bind, Except.bind],
          by simp only [Piecewise.applyKernels, h2, Option.elim, hl, Bind.bind, Except.bind]⟩
    · exact .inr ⟨.index, by simp only [TPiecewise.collect, h1, Option.elim, Bind.bind, Except.bind],
          by simp only [Piecewise.applyKernels, h2, Option.elim, Bind.bind, Except.bind]⟩

variable {t δ : Tensor} {times deltas : List ℝ} (inf : ℝ)

omit h in
theorem splitTimeIndices_length : (k.splitTimeIndices inf times).length = times.length := by simp [Piecewise.splitTimeIndices]

theorem apply1_holds {s : List ℕ} {e : β → List ℕ → ℝ} {F : TKernel → Tensor → Except Err Tensor} {f : Stationary o d → ℝ → β}
    (hF : ∀ K' k', HoldsKernel K' k' → ∀ a part, HoldsReals [] a part → ∃ z, F K' a = .ok z ∧ HoldsSeq s e z (part.map (f k')))
    (ht : HoldsReals (List.replicate m 1) t times) :
    Agree (fun z l => HoldsSeq s e z l ∧ l.length = times.length)
      (do
        let indices ← K.splitTimeIndices inf t
        let a ← K.splitInput t indices
        let l ← K.collect F 0 a
        concatList s.length l)
      (do
        let a ← k.splitInput times (k.splitTimeIndices inf times)
        k.applyKernels f 0 a) := by
  obtain ⟨i, hi, hih⟩ := splitTimeIndices_holds h inf ht
  rcases splitInput_holds h ht hih with ⟨xs, ls, hx, hl, hxl, h1, h2, h3⟩ | ⟨er, hx, hl⟩
  swap
  · exact .inr ⟨er, by simp only [hi, hx, Bind.bind, Except.bind], by simp only [hl, Bind.bind, Except.bind]⟩
  rcases collect_holds h hF hxl 0 with ⟨zs, l, hz, hl', ls', g1, g2, g3, g4⟩ | ⟨er, hz, hl'⟩
  swap
  · exact .inr ⟨er, by simp only [hi, hx, hz, Bind.bind, Except.bind], by simp only [hl, hl', Bind.bind, Except.bind]⟩
  obtain ⟨w, hw, hwh⟩ := concatList_seq g1 (by
    rintro rfl
    simp [h3] at g4)
  refine .inl ⟨w, l, by simp only [hi, hx, hz, hw, Bind.bind, Except.bind], by simp only [hl, hl', Bind.bind, Except.bind], g2 ▸ hwh, ?_⟩
  rw [g3, h3, List.map_map]
  have := positions_sum _ _ h2
  rw [h1, ← this]
  congr 1
  exact List.map_congr_left fun j _ => by simp

theorem apply2_holds {s : List ℕ} {e : β → List ℕ → ℝ} {F : TKernel → Tensor × Tensor → Except Err Tensor} {f : Stationary o d → ℝ × ℝ → β}
    (hF : ∀ K' k', HoldsKernel K' k' → ∀ (a : Tensor × Tensor) (part : List (ℝ × ℝ)), HoldsReals [] a.1 (part.map Prod.fst) ∧
      HoldsReals [] a.2 (part.map Prod.snd) → ∃ z, F K' a = .ok z ∧ HoldsSeq s e z (part.map (f k')))
    (ht : HoldsReals (List.replicate m 1) t times) (hδ : HoldsReals (List.replicate m 1) δ deltas) :
    Agree (fun z l => HoldsSeq s e z l ∧ l.length = times.length)
      (do
        let indices ← K.splitTimeIndices inf t
        let a ← K.splitInput t indices
        let b ← K.splitInput δ indices
        let l ← K.collect F 0 (a.zip b)
        concatList s.length l)
      (do
        let a ← k.splitInput times (k.splitTimeIndices inf times)
        let b ← k.splitInput deltas (k.splitTimeIndices inf times)
        k.applyKernels f 0 (List.zipWith List.zip a b)) := by
  obtain ⟨i, hi, hih⟩ := splitTimeIndices_holds h inf ht
  rcases splitInput_holds h ht hih with ⟨xs, ls, hx, hl, hxl, h1, h2, h3⟩ | ⟨er, hx, hl⟩
  swap
  · exact .inr ⟨er, by simp only [hi, hx, Bind.bind, Except.bind], by simp only [hl, Bind.bind, Except.bind]⟩
  rcases splitInput_holds h hδ hih with ⟨ys, ks, hy, hk, hyk, h1', -, h3'⟩ | ⟨er, hy, hk⟩
  swap
  · exact .inr ⟨er, by simp only [hi, hx, hy, Bind.bind, Except.bind], by simp only [hl, hk, Bind.bind, Except.bind]⟩
  have hzip : List.zipWith List.zip ls ks = (List.range (k.changePoints.length + 1)).map fun j =>
      (positions (k.splitTimeIndices inf times) j).map fun q => (times.getD q 0, deltas.getD q 0) := by
    rw [h3, h3', List.zipWith_map, List.zipWith_self]
    exact List.map_congr_left fun j _ => by rw [List.zip_map']
  have hp : List.Forall₂ (fun (a : Tensor × Tensor) (part : List (ℝ × ℝ)) => HoldsReals [] a.1 (part.map Prod.fst) ∧
      HoldsReals [] a.2 (part.map Prod.snd)) (xs.zip ys) (List.zipWith List.zip ls ks) := by
    rw [hzip]
    rw [h3] at hxl
    rw [h3'] at hyk
    rw [List.forall₂_iff_get] at hxl hyk ⊢
    refine ⟨by simp at hxl hyk ⊢; omega, fun j hj hj' => ?_⟩
    have hjx : j < xs.length := by simp at hj; omega
    have hjy : j < ys.length := by simp at hj; omega
    have a1 := hxl.2 j hjx (by simpa using hj')
    have a2 := hyk.2 j hjy (by simpa using hj')
    simp only [List.get_eq_getElem, List.getElem_map, List.getElem_zip, List.map_map] at a1 a2 ⊢
    exact ⟨a1, a2⟩
  rcases collect_holds h hF hp 0 with ⟨zs, l, hz, hl', ls', g1, g2, g3, g4⟩ | ⟨er, hz, hl'⟩
  swap
  · exact .inr ⟨er, by simp only [hi, hx, hy, hz, Bind.bind, Except.bind], by simp only [hl, hk, hl', Bind.bind, Except.bind]⟩
  obtain ⟨w, hw, hwh⟩ := concatList_seq g1 (by
    rintro rfl
    rw [hzip] at g4
    simp at g4)
  refine .inl ⟨w, l, by simp only [hi, hx, hy, hz, hw, Bind.bind, Except.bind], by simp only [hl, hk, hl', Bind.bind, Except.bind], g2 ▸ hwh, ?_⟩
  rw [g3, hzip, List.map_map]
  have := positions_sum _ _ h2
  rw [h1, ← this]
  congr 1
  exact List.map_congr_left fun j _ => by simp

/-! ### The methods -/

theorem pw_stateTransitions_holds (ht : HoldsReals (List.replicate m 1) t times) (hδ : HoldsReals (List.replicate m 1) δ deltas) :
    Agree (fun z l => HoldsSeq [d, d] encMat z l ∧ l.length = times.length) (K.stateTransitions inf t δ) (k.stateTransitions inf times deltas) := by
  refine apply2_holds h inf (s := [d, d]) (F := fun k (a : Tensor × Tensor) => k.stateTransitions a.1 a.2)
    (f := fun k (a : ℝ × ℝ) => k.stateTransitions a.1 a.2) ?_ ht hδ
  rintro K' k' hk a part ⟨h1, h2⟩
  obtain ⟨f, hf, hf'⟩ := reals_map Prod.fst h1
  obtain ⟨g, hg, hg'⟩ := reals_map Prod.snd h2
  obtain ⟨z, hz, hzh⟩ := hk.stateTransitions _ _ _ _ _ (by simp) hf hg
  exact ⟨z, hz, seq_of_mat (by simp) hzh fun q hq => by
    have hq' : q < part.length := by simpa using hq
    simp [hf' q hq', hg' q hq']⟩

theorem pw_stateOffsets_holds (ht : HoldsReals (List.replicate m 1) t times) (hδ : HoldsReals (List.replicate m 1) δ deltas) :
    Agree (fun z l => HoldsSeq [d] encVec z l ∧ l.length = times.length) (K.stateOffsets inf t δ) (k.stateOffsets inf times deltas) := by
  refine apply2_holds h inf (s := [d]) (F := fun k (a : Tensor × Tensor) => k.stateOffsets a.1 a.2)
    (f := fun k (a : ℝ × ℝ) => k.stateOffsets a.1 a.2) ?_ ht hδ
  rintro K' k' hk a part ⟨h1, h2⟩
  obtain ⟨f, hf, hf'⟩ := reals_map Prod.fst h1
  obtain ⟨g, hg, hg'⟩ := reals_map Prod.snd h2
  obtain ⟨z, hz, hzh⟩ := hk.stateOffsets _ _ _ _ _ (by simp) hf hg
  exact ⟨z, hz, seq_of_vec (by simp) hzh fun q hq => by
    have hq' : q < part.length := by simpa using hq
    simp [hf' q hq', hg' q hq']⟩

theorem pw_emission_holds (ht : HoldsReals (List.replicate m 1) t times) :
    Agree (fun z l => HoldsSeq [d, o] encMat z l ∧ l.length = times.length) (K.emission inf t) (k.emissions inf times) := by
  have := apply1_holds h inf (s := [d, o]) (e := encMat) (F := fun k (a : Tensor) => k.emission a) (f := fun k (a : ℝ) => k.emission a) (by
    rintro K' k' hk a part h1
    obtain ⟨f, hf, hf'⟩ := reals_map (l := part) id (by simpa using h1)
    obtain ⟨z, hz, hzh⟩ := hk.emission _ _ _ (by simp) hf
    exact ⟨z, hz, seq_of_mat (by simp) hzh fun q hq => by
      have hq' : q < part.length := by simpa using hq
      simp [hf' q hq']⟩) ht
  have e : K.emission inf t = (do
        let indices ← K.splitTimeIndices inf t
        let a ← K.splitInput t indices
        let l ← K.collect (fun k (a : Tensor) => k.emission a) 0 a
        concatList [d, o].length l) >>= tensorEmission := by
    simp only [TPiecewise.emission, bind_assoc]
    rfl
  rcases this with ⟨z, l, h1, h2, h3, h4⟩ | ⟨er, h1, h2⟩
  · exact .inl ⟨z, l, by rw [e, h1]; exact emission_ok (by simp) (mat_of_seq h3), h2, h3, h4⟩
  · exact .inr ⟨er, by rw [e, h1]; rfl, h2⟩

theorem gather_holds {s : List ℕ} {e : β → List ℕ → ℝ} {F : TKernel → Except Err Tensor} {f : Stationary o d → β}
    (hF : ∀ K' k', HoldsKernel K' k' → ∃ z, F K' = .ok z ∧ HoldsOne s e z (f k')) (ht : HoldsReals [] t times) :
    Agree (fun z l => HoldsSeq s e z l ∧ l.length = times.length) (K.gatherKernels F inf t) (k.gatherKernels f (k.splitTimeIndices inf times)) := by
  obtain ⟨i, hi, hih⟩ := splitTimeIndices_holds (m := 0) h inf ht
  have hattr : ∃ zs, K.kernels.mapM F = .ok zs ∧ List.Forall₂ (HoldsOne s e) zs (k.kernels.map f) := by
    have := h.kernels
    clear hi hih ht
    revert this
    generalize K.kernels = as
    generalize k.kernels = bs
    intro this
    induction this with
    | nil => exact ⟨[], rfl, .nil⟩
    | cons h1 _ ih =>
      obtain ⟨zs, hz, hzh⟩ := ih
      obtain ⟨z, hz', hzh'⟩ := hF _ _ h1
      exact ⟨z :: zs, by simp only [List.mapM_cons, hz', hz, Bind.bind, Except.bind]; rfl, .cons hzh' hzh⟩
  obtain ⟨zs, hz, hzh⟩ := hattr
  obtain ⟨w, hw, hwh⟩ := packT_seq hzh (by simpa using h.nonempty)
  have hmap : (allIdx i.shape).map i.val = k.splitTimeIndices inf times := by
    rw [hih.1, show List.replicate 0 1 = ([] : List ℕ) from rfl]
    apply List.ext_get (by simp [allIdx])
    intro q h1 h2
    have := hih.2 q h2
    simpa [allIdx] using this
  have hu : uniqueT i = .ok ((k.splitTimeIndices inf times).eraseDups, (k.splitTimeIndices inf times).map fun j =>
      (((k.splitTimeIndices inf times).eraseDups.idxOf j : ℕ) : ℤ)) := by
    rw [← hmap]
    simp only [uniqueT]
    split
    · rfl
    · rename_i h'
      exact absurd hih.1 (h' _)
  have e1 : K.gatherKernels F inf t = gatherOuter w (k.splitTimeIndices inf times).eraseDups >>= fun x => gatherOuter x
      ((k.splitTimeIndices inf times).map fun j => (((k.splitTimeIndices inf times).eraseDups.idxOf j : ℕ) : ℤ)) := by
    simp only [TPiecewise.gatherKernels, hz, hi, hu, hw, Bind.bind, Except.bind]
  have e2 : k.gatherKernels f (k.splitTimeIndices inf times) = tfGather (k.kernels.map f) (k.splitTimeIndices inf times).eraseDups >>= fun x =>
      tfGather x ((k.splitTimeIndices inf times).map fun j => (((k.splitTimeIndices inf times).eraseDups.idxOf j : ℕ) : ℤ)) := rfl
  rw [e1, e2]
  rcases gatherOuter_seq hwh (k.splitTimeIndices inf times).eraseDups with ⟨x, l, h1, h2, h3⟩ | ⟨er, h1, h2⟩
  swap
  · exact .inr ⟨er, by rw [h1]; rfl, by rw [h2]; rfl⟩
  rw [h1, h2]
  rcases gatherOuter_seq h3 ((k.splitTimeIndices inf times).map fun j => (((k.splitTimeIndices inf times).eraseDups.idxOf j : ℕ) : ℤ)) with
    ⟨y, l', g1, g2, g3⟩ | ⟨er, g1, g2⟩
  · refine .inl ⟨y, l', g1, g2, g3, ?_⟩
    have := tfGather_length g2
    rw [this, List.length_map, splitTimeIndices_length]
  · exact .inr ⟨er, g1, g2⟩

end
end MF
