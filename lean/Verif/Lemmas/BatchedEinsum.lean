import Verif.Lemmas.BatchedSSM

/-!
# The `tf.einsum` calls of the code on tensors of any batch shape
-/

namespace MF
open Matrix Spec Tensor

theorem bshape_bt {s t u : List ℕ} (hs : BT s u) (ht : BT t u) :
    ∃ w, bshape s t = .ok w ∧ BT w u ∧ ((s = u ∨ t = u) → w = u) := by
  induction u generalizing s t with
  | nil =>
    cases s with
    | nil => exact ⟨t, by simp [bshape], ht, by cases t with
      | nil => exact fun _ => rfl
      | cons => exact ht.elim⟩
    | cons => exact hs.elim
  | cons c u ih =>
    cases s with
    | nil => exact ⟨t, by simp [bshape], ht, by rintro (h | rfl); cases h; rfl⟩
    | cons a s =>
      cases t with
      | nil => exact ⟨a :: s, by simp [bshape], hs, by rintro (h | h); exact h; cases h⟩
      | cons b t =>
        obtain ⟨h1, h2⟩ := hs
        obtain ⟨g1, g2⟩ := ht
        obtain ⟨w, hw, hw1, hw2⟩ := ih h2 g2
        simp only [bshape, hw, bind, Except.bind]
        by_cases hab : a = b ∨ b = 1
        · rw [if_pos hab]
          refine ⟨_, rfl, ⟨h1, hw1⟩, ?_⟩
          rintro (h | h)
          · rw [List.cons.injEq] at h
            rw [h.1, hw2 (.inl h.2)]
          · rw [List.cons.injEq] at h
            rw [hw2 (.inr h.2)]
            congr 1
            rcases hab with e | e
            · rw [e, h.1]
            · rcases h1 with e' | e'
              · exact e'
              · rw [e', ← e, h.1]
        · rw [if_neg hab]
          have ha : a = 1 := by
            rcases h1 with e | e
            · rcases g1 with e' | e'
              · exact absurd (.inl (e.trans e'.symm)) hab
              · exact absurd (.inr e') hab
            · exact e
          rw [if_pos ha]
          refine ⟨_, rfl, ⟨g1, hw1⟩, ?_⟩
          rintro (h | h)
          · rw [List.cons.injEq] at h
            rw [hw2 (.inl h.2)]
            congr 1
            rcases g1 with e | e
            · exact e
            · exact absurd (.inr e) hab
          · rw [List.cons.injEq] at h
            rw [h.1, hw2 (.inr h.2)]

variable {d m : ℕ} {u : List ℕ}

theorem einsum_ok {ins : List (List Char × Tensor)} {out con : List Char} {dims : Char → Option ℕ} {w : List ℕ}
    (h1 : labelDims (ins.map fun p => (p.1, p.2.shape)) = .ok dims) (h2 : ellipsis (ins.map fun p => (p.1, p.2.shape)) = .ok w)
    (h3 : ((ins.flatMap (·.1)).dedup).filter (fun a => a ∉ out) = con) :
    einsum ins out = .ok ⟨out.map (fun a => (dims a).getD 0) ++ w, fun i =>
      sumLabels dims con (assign out i) (einsumTerm ins (i.drop out.length))⟩ := by
  unfold einsum
  rw [h1, h2, h3]
  rfl

theorem sumLabels_cons {dims : Char → Option ℕ} {a : Char} {k : ℕ} (h : dims a = some k) (l : List Char) (env : Char → ℕ)
    (f : (Char → ℕ) → ℝ) : sumLabels dims (a :: l) env f = ∑ v : Fin k, sumLabels dims l (Function.update env a v) f := by
  simp only [sumLabels]
  rw [h]
  rfl

theorem bshape_nil (u : List ℕ) : bshape u [] = .ok u := by cases u <;> rfl

/-- `"...ji,...jk,...kl->...il"` (kalman_filter.py:91-96) -/
theorem einsum_hRh {x : Tensor} {X : List ℕ → Mat m d} (hx : HoldsMat u x X)
    {y : Tensor} {Y : List ℕ → Mat m m} (hy : B2 u y Y)
    {z : Tensor} {Z : List ℕ → Mat m d} (hz : HoldsMat u z Z) :
    ∃ w, einsum [(['i', 'j'], x), (['k', 'j'], y), (['l', 'k'], z)] ['l', 'i'] = .ok w ∧ HoldsMat u w fun b => (X b)ᵀ * Y b * Z b := by
  have hx1 := hx.1
  have hx2 := BT.refl u
  have hx3 : ∀ b, InRange b u → ∀ (i : Fin m) (j : Fin d), x.val ((j : ℕ) :: (i : ℕ) :: bidx u b) = X b i j := fun b hb i j => by
    rw [bidx_self hb]
    exact hx.2 b hb i j
  obtain ⟨sy, hy1, hy2, hy3⟩ := hy
  have hz1 := hz.1
  have hz2 := BT.refl u
  have hz3 : ∀ b, InRange b u → ∀ (i : Fin m) (j : Fin d), z.val ((j : ℕ) :: (i : ℕ) :: bidx u b) = Z b i j := fun b hb i j => by
    rw [bidx_self hb]
    exact hz.2 b hb i j
  have hl : ∃ dims, labelDims [(['i', 'j'], x.shape), (['k', 'j'], y.shape), (['l', 'k'], z.shape)] = .ok dims ∧
      dims 'i' = some d ∧ dims 'j' = some m ∧ dims 'k' = some m ∧ dims 'l' = some d := by
    refine ⟨_, by simp [hx1, hy1, hz1, labelDims, Bind.bind, Except.bind]; rfl, ?_⟩
    simp
  obtain ⟨dims, hl, ei, ej, ek, el⟩ := hl
  have he : ellipsis [(['i', 'j'], x.shape), (['k', 'j'], y.shape), (['l', 'k'], z.shape)] = .ok u := by
    simp only [hx1, hy1, hz1, ellipsis, Bind.bind, Except.bind, List.length_cons, List.length_nil, List.drop, bshape_nil]
    obtain ⟨w1, hw1, hb1, hf1⟩ := bshape_bt hy2 hz2
    rw [hf1 (.inr rfl)] at hw1 hb1
    simp only [hw1]
    obtain ⟨w2, hw2, hb2, hf2⟩ := bshape_bt hx2 hb1
    rw [hf2 (.inl rfl)] at hw2 hb2
    simp only [hw2]
  refine ⟨_, einsum_ok hl he (con := ['j', 'k']) (by simp only [List.flatMap_cons, List.flatMap_nil]; decide), ?_⟩
  refine ⟨by simp [el, ei], fun b hb i j => ?_⟩
  dsimp only
  simp only [sumLabels_cons ej, sumLabels_cons ek]
  simp [sumLabels, assign, einsumTerm, hx1, hy1, hz1, hx3 b hb, hy3 b hb, hz3 b hb]
  rw [Matrix.mul_assoc, Matrix.mul_apply]
  refine Finset.sum_congr rfl fun v _ => ?_
  rw [Matrix.mul_apply, Finset.mul_sum]
  rfl

/-- `"...ij,...ki->...kj"` (kalman_filter.py:266) -/
theorem einsum_back {x : Tensor} {X : List ℕ → Mat m d} (hx : HoldsMat u x X)
    {y : Tensor} {Y : List ℕ → Mat m m} (hy : B2 u y Y) :
    ∃ w, einsum [(['j', 'i'], x), (['i', 'k'], y)] ['j', 'k'] = .ok w ∧ HoldsMat u w fun b => Matrix.of fun k j => ∑ i, X b i j * Y b k i := by
  have hx1 := hx.1
  have hx2 := BT.refl u
  have hx3 : ∀ b, InRange b u → ∀ (i : Fin m) (j : Fin d), x.val ((j : ℕ) :: (i : ℕ) :: bidx u b) = X b i j := fun b hb i j => by
    rw [bidx_self hb]
    exact hx.2 b hb i j
  obtain ⟨sy, hy1, hy2, hy3⟩ := hy
  have hl : ∃ dims, labelDims [(['j', 'i'], x.shape), (['i', 'k'], y.shape)] = .ok dims ∧
      dims 'i' = some m ∧ dims 'j' = some d ∧ dims 'k' = some m := by
    refine ⟨_, by simp [hx1, hy1, labelDims, Bind.bind, Except.bind]; rfl, ?_⟩
    simp
  obtain ⟨dims, hl, ei, ej, ek⟩ := hl
  have he : ellipsis [(['j', 'i'], x.shape), (['i', 'k'], y.shape)] = .ok u := by
    simp only [hx1, hy1, ellipsis, Bind.bind, Except.bind, List.length_cons, List.length_nil, List.drop, bshape_nil]
    obtain ⟨w1, hw1, hb1, hf1⟩ := bshape_bt hx2 hy2
    rw [hf1 (.inl rfl)] at hw1 hb1
    simp only [hw1]
  refine ⟨_, einsum_ok hl he (con := ['i']) (by simp only [List.flatMap_cons, List.flatMap_nil]; decide), ?_⟩
  refine ⟨by simp [ej, ek], fun b hb i j => ?_⟩
  dsimp only
  rw [sumLabels_cons ei]
  simp [sumLabels, assign, einsumTerm, hx1, hy1, hx3 b hb, hy3 b hb]

/-- `"...ij,...i->...j"` (kalman_filter.py:269) -/
theorem einsum_vec {x : Tensor} {X : List ℕ → Mat m d} (hx : HoldsMat u x X)
    {y : Tensor} {Y : List ℕ → Vec m} (hy : HoldsVec u y Y) :
    ∃ w, einsum [(['j', 'i'], x), (['i'], y)] ['j'] = .ok w ∧ HoldsVec u w fun b j => ∑ i, X b i j * Y b i := by
  have hx1 := hx.1
  have hx2 := BT.refl u
  have hx3 : ∀ b, InRange b u → ∀ (i : Fin m) (j : Fin d), x.val ((j : ℕ) :: (i : ℕ) :: bidx u b) = X b i j := fun b hb i j => by
    rw [bidx_self hb]
    exact hx.2 b hb i j
  have hy1 := hy.1
  have hy2 := BT.refl u
  have hy3 : ∀ b, InRange b u → ∀ i : Fin m, y.val ((i : ℕ) :: bidx u b) = Y b i := fun b hb i => by
    rw [bidx_self hb]
    exact hy.2 b hb i
  have hl : ∃ dims, labelDims [(['j', 'i'], x.shape), (['i'], y.shape)] = .ok dims ∧
      dims 'i' = some m ∧ dims 'j' = some d := by
    refine ⟨_, by simp [hx1, hy1, labelDims, Bind.bind, Except.bind]; rfl, ?_⟩
    simp
  obtain ⟨dims, hl, ei, ej⟩ := hl
  have he : ellipsis [(['j', 'i'], x.shape), (['i'], y.shape)] = .ok u := by
    simp only [hx1, hy1, ellipsis, Bind.bind, Except.bind, List.length_cons, List.length_nil, List.drop, bshape_nil]
    obtain ⟨w1, hw1, hb1, hf1⟩ := bshape_bt hx2 hy2
    rw [hf1 (.inl rfl)] at hw1 hb1
    simp only [hw1]
  refine ⟨_, einsum_ok hl he (con := ['i']) (by simp only [List.flatMap_cons, List.flatMap_nil]; decide), ?_⟩
  refine ⟨by simp [ej], fun b hb i => ?_⟩
  dsimp only
  rw [sumLabels_cons ei]
  simp [sumLabels, assign, einsumTerm, hx1, hy1, hx3 b hb, hy3 b hb]

/-- `"...op,...p,...o->...o"` (kalman_filter.py:224) -/
theorem einsum_quad {x : Tensor} {X : List ℕ → Mat m m} (hx : B2 u x X)
    {y : Tensor} {Y : List ℕ → Vec m} (hy : HoldsVec u y Y) :
    ∃ w, einsum [(['p', 'o'], x), (['p'], y), (['o'], y)] ['o'] = .ok w ∧ HoldsVec u w fun b o => ∑ p, X b o p * Y b p * Y b o := by
  obtain ⟨sx, hx1, hx2, hx3⟩ := hx
  have hy1 := hy.1
  have hy2 := BT.refl u
  have hy3 : ∀ b, InRange b u → ∀ i : Fin m, y.val ((i : ℕ) :: bidx u b) = Y b i := fun b hb i => by
    rw [bidx_self hb]
    exact hy.2 b hb i
  have hl : ∃ dims, labelDims [(['p', 'o'], x.shape), (['p'], y.shape), (['o'], y.shape)] = .ok dims ∧
      dims 'o' = some m ∧ dims 'p' = some m := by
    refine ⟨_, by simp [hx1, hy1, labelDims, Bind.bind, Except.bind]; rfl, ?_⟩
    simp
  obtain ⟨dims, hl, eo, ep⟩ := hl
  have he : ellipsis [(['p', 'o'], x.shape), (['p'], y.shape), (['o'], y.shape)] = .ok u := by
    simp only [hx1, hy1, ellipsis, Bind.bind, Except.bind, List.length_cons, List.length_nil, List.drop, bshape_nil]
    obtain ⟨w1, hw1, hb1, hf1⟩ := bshape_bt hy2 hy2
    rw [hf1 (.inl rfl)] at hw1 hb1
    simp only [hw1]
    obtain ⟨w2, hw2, hb2, hf2⟩ := bshape_bt hx2 hb1
    rw [hf2 (.inr rfl)] at hw2 hb2
    simp only [hw2]
  refine ⟨_, einsum_ok hl he (con := ['p']) (by simp only [List.flatMap_cons, List.flatMap_nil]; decide), ?_⟩
  refine ⟨by simp [eo], fun b hb i => ?_⟩
  dsimp only
  rw [sumLabels_cons ep]
  simp [sumLabels, assign, einsumTerm, hx1, hy1, hx3 b hb, hy3 b hb]
  exact Finset.sum_congr rfl fun v _ => by ring

/-- `"...ij,...jk,...lk->...il"` (emission_model.py:147) -/
theorem einsum_full {x : Tensor} {X : List ℕ → Mat m d} (hx : B2 u x X)
    {y : Tensor} {Y : List ℕ → Mat d d} (hy : HoldsMat u y Y) :
    ∃ w, einsum [(['j', 'i'], x), (['k', 'j'], y), (['k', 'l'], x)] ['l', 'i'] = .ok w ∧ HoldsMat u w fun b => Matrix.of fun i l => ∑ j, ∑ k, X b i j * Y b j k * X b l k := by
  obtain ⟨sx, hx1, hx2, hx3⟩ := hx
  have hy1 := hy.1
  have hy2 := BT.refl u
  have hy3 : ∀ b, InRange b u → ∀ (i : Fin d) (j : Fin d), y.val ((j : ℕ) :: (i : ℕ) :: bidx u b) = Y b i j := fun b hb i j => by
    rw [bidx_self hb]
    exact hy.2 b hb i j
  have hl : ∃ dims, labelDims [(['j', 'i'], x.shape), (['k', 'j'], y.shape), (['k', 'l'], x.shape)] = .ok dims ∧
      dims 'i' = some m ∧ dims 'j' = some d ∧ dims 'k' = some d ∧ dims 'l' = some m := by
    refine ⟨_, by simp [hx1, hy1, labelDims, Bind.bind, Except.bind]; rfl, ?_⟩
    simp
  obtain ⟨dims, hl, ei, ej, ek, el⟩ := hl
  have he : ellipsis [(['j', 'i'], x.shape), (['k', 'j'], y.shape), (['k', 'l'], x.shape)] = .ok u := by
    simp only [hx1, hy1, ellipsis, Bind.bind, Except.bind, List.length_cons, List.length_nil, List.drop, bshape_nil]
    obtain ⟨w1, hw1, hb1, hf1⟩ := bshape_bt hy2 hx2
    rw [hf1 (.inl rfl)] at hw1 hb1
    simp only [hw1]
    obtain ⟨w2, hw2, hb2, hf2⟩ := bshape_bt hx2 hb1
    rw [hf2 (.inr rfl)] at hw2 hb2
    simp only [hw2]
  refine ⟨_, einsum_ok hl he (con := ['j', 'k']) (by simp only [List.flatMap_cons, List.flatMap_nil]; decide), ?_⟩
  refine ⟨by simp [el, ei], fun b hb i j => ?_⟩
  dsimp only
  simp only [sumLabels_cons ej, sumLabels_cons ek]
  simp [sumLabels, assign, einsumTerm, hx1, hy1, hx3 b hb, hy3 b hb]
  exact Finset.sum_congr rfl fun v _ => Finset.sum_congr rfl fun w _ => by ring

/-- `"...ij,...jk->...ik"` (emission_model.py:151) -/
theorem einsum_mul {x : Tensor} {X : List ℕ → Mat m d} (hx : B2 u x X)
    {y : Tensor} {Y : List ℕ → Mat d d} (hy : HoldsMat u y Y) :
    ∃ w, einsum [(['j', 'i'], x), (['k', 'j'], y)] ['k', 'i'] = .ok w ∧ HoldsMat u w fun b => X b * Y b := by
  obtain ⟨sx, hx1, hx2, hx3⟩ := hx
  have hy1 := hy.1
  have hy2 := BT.refl u
  have hy3 : ∀ b, InRange b u → ∀ (i : Fin d) (j : Fin d), y.val ((j : ℕ) :: (i : ℕ) :: bidx u b) = Y b i j := fun b hb i j => by
    rw [bidx_self hb]
    exact hy.2 b hb i j
  have hl : ∃ dims, labelDims [(['j', 'i'], x.shape), (['k', 'j'], y.shape)] = .ok dims ∧
      dims 'i' = some m ∧ dims 'j' = some d ∧ dims 'k' = some d := by
    refine ⟨_, by simp [hx1, hy1, labelDims, Bind.bind, Except.bind]; rfl, ?_⟩
    simp
  obtain ⟨dims, hl, ei, ej, ek⟩ := hl
  have he : ellipsis [(['j', 'i'], x.shape), (['k', 'j'], y.shape)] = .ok u := by
    simp only [hx1, hy1, ellipsis, Bind.bind, Except.bind, List.length_cons, List.length_nil, List.drop, bshape_nil]
    obtain ⟨w1, hw1, hb1, hf1⟩ := bshape_bt hx2 hy2
    rw [hf1 (.inr rfl)] at hw1 hb1
    simp only [hw1]
  refine ⟨_, einsum_ok hl he (con := ['j']) (by simp only [List.flatMap_cons, List.flatMap_nil]; decide), ?_⟩
  refine ⟨by simp [ek, ei], fun b hb i j => ?_⟩
  dsimp only
  rw [sumLabels_cons ej]
  simp [sumLabels, assign, einsumTerm, hx1, hy1, hx3 b hb, hy3 b hb]
  rw [Matrix.mul_apply]

/-- `"...ij,...ij->...i"` (emission_model.py:152) -/
theorem einsum_dot {x : Tensor} {X : List ℕ → Mat m d} (hx : B2 u x X)
    {y : Tensor} {Y : List ℕ → Mat m d} (hy : HoldsMat u y Y) :
    ∃ w, einsum [(['j', 'i'], x), (['j', 'i'], y)] ['i'] = .ok w ∧ HoldsVec u w fun b i => ∑ j, X b i j * Y b i j := by
  obtain ⟨sx, hx1, hx2, hx3⟩ := hx
  have hy1 := hy.1
  have hy2 := BT.refl u
  have hy3 : ∀ b, InRange b u → ∀ (i : Fin m) (j : Fin d), y.val ((j : ℕ) :: (i : ℕ) :: bidx u b) = Y b i j := fun b hb i j => by
    rw [bidx_self hb]
    exact hy.2 b hb i j
  have hl : ∃ dims, labelDims [(['j', 'i'], x.shape), (['j', 'i'], y.shape)] = .ok dims ∧
      dims 'i' = some m ∧ dims 'j' = some d := by
    refine ⟨_, by simp [hx1, hy1, labelDims, Bind.bind, Except.bind]; rfl, ?_⟩
    simp
  obtain ⟨dims, hl, ei, ej⟩ := hl
  have he : ellipsis [(['j', 'i'], x.shape), (['j', 'i'], y.shape)] = .ok u := by
    simp only [hx1, hy1, ellipsis, Bind.bind, Except.bind, List.length_cons, List.length_nil, List.drop, bshape_nil]
    obtain ⟨w1, hw1, hb1, hf1⟩ := bshape_bt hx2 hy2
    rw [hf1 (.inr rfl)] at hw1 hb1
    simp only [hw1]
  refine ⟨_, einsum_ok hl he (con := ['j']) (by simp only [List.flatMap_cons, List.flatMap_nil]; decide), ?_⟩
  refine ⟨by simp [ei], fun b hb i => ?_⟩
  dsimp only
  rw [sumLabels_cons ej]
  simp [sumLabels, assign, einsumTerm, hx1, hy1, hx3 b hb, hy3 b hb]

end MF
