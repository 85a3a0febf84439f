import Verif.Lemmas.BatchedPosterior
import Verif.Spec.BatchedSampling

/-!
# Posterior sampling on tensors, per batch element and sample
-/

namespace MF
open Tensor Spec Matrix
variable {n o d p N : ℕ} {bs u : List ℕ}

theorem argsort_holds {x : Tensor} {f : List ℕ → Fin p → ℝ} (hx : HoldsVec bs x f) :
    HoldsIdx bs x.argsort fun b => (Tuple.sort (f b) : Fin p → Fin p) := by
  obtain ⟨s, v⟩ := x
  obtain ⟨h1, h2⟩ := hx
  dsimp only at h1 h2
  subst h1
  refine ⟨rfl, fun b hb q => ?_⟩
  simp only [Tensor.argsort, List.headD_cons, Fin.eta]
  rw [show (fun k : Fin p => v ((k : ℕ) :: b)) = f b from funext fun k => h2 b hb k]
  exact dif_pos q.2

theorem sort_val (f : Fin p → Fin N) : Tuple.sort (fun k => (f k : ℕ)) = Tuple.sort f := by
  rw [Tuple.eq_sort_iff]
  have h := (Tuple.eq_sort_iff (σ := Tuple.sort (fun k => (f k : ℕ)))).1 rfl
  exact ⟨fun i j hij => h.1 hij, fun i j hij he => h.2 i j hij (congrArg Fin.val he)⟩

theorem iargsort_holds {x : ITensor} {f : List ℕ → Fin p → Fin N} (hx : HoldsIdx bs x f) :
    HoldsIdx bs x.argsort fun b => (Tuple.sort (f b) : Fin p → Fin p) := by
  obtain ⟨s, v⟩ := x
  obtain ⟨h1, h2⟩ := hx
  dsimp only at h1 h2
  subst h1
  refine ⟨rfl, fun b hb q => ?_⟩
  simp only [ITensor.argsort, List.headD_cons, Fin.eta]
  rw [show (fun k : Fin p => v ((k : ℕ) :: b)) = fun k => (f b k : ℕ) from funext fun k => h2 b hb k, sort_val]
  exact dif_pos q.2

theorem ibroadcast_holds {x : ITensor} {f : List ℕ → Fin p → Fin N} (hx : HoldsIdx bs x f) (ss : List ℕ) :
    ∃ z, x.broadcastTo (x.shape ++ ss) = .ok z ∧ HoldsIdx (bs ++ ss) z fun b => f (b.take bs.length) := by
  refine ⟨⟨x.shape ++ ss, fun i => x.val (bidx x.shape i)⟩, ?_, by simp [hx.1], fun b hb q => ?_⟩
  · simp only [ITensor.broadcastTo, bshape_left (BT.append x.shape ss), Bind.bind, Except.bind, if_true, Pure.pure, Except.pure]
  · have hr : InRange ((q : ℕ) :: b) ((p :: bs) ++ ss) := ⟨q.2, hb⟩
    simp only [hx.1, bidx_append hr, List.length_cons, List.take_succ_cons]
    exact hx.2 _ (inRange_split hb).1 q

theorem sliceTo_vecs' {k m x} {f : List ℕ → Fin (k + m) → Vec d} (hx : HoldsVecs u x f) :
    HoldsVecs u (sliceTo 1 k x) fun b t => f b (Fin.castAdd m t) := by
  refine ⟨by simp [sliceTo, hx.1, modifyAt], fun b hb t i => ?_⟩
  exact hx.2 b hb (Fin.castAdd m t) i

theorem sliceFrom_vecs' {k m x} {f : List ℕ → Fin (k + m) → Vec d} (hx : HoldsVecs u x f) :
    HoldsVecs u (sliceFrom 1 k x) fun b t => f b (Fin.natAdd k t) := by
  refine ⟨by simp [sliceFrom, hx.1, modifyAt], fun b hb t i => ?_⟩
  have := hx.2 b hb (Fin.natAdd k t) i
  simpa [sliceFrom, modifyAt, add_comm] using this

/-- A fibre of zeros in front -/
theorem sampleShape_inRange {ss : List ℕ} (hss : ∀ k ∈ ss, 0 < k) : InRange (ss.map fun _ => 0) ss := by
  induction ss with
  | nil => trivial
  | cons k ss ih => exact ⟨hss k (by simp), ih fun k hk => hss k (by simp [hk])⟩

theorem inRange_take_append {b ss : List ℕ} (hb : InRange b bs) (hss : ∀ k ∈ ss, 0 < k) :
    ∃ b', InRange b' (bs ++ ss) ∧ b'.take bs.length = b := by
  have hl : b.length = bs.length := by
    clear hss
    induction bs generalizing b with
    | nil => cases b with
      | nil => rfl
      | cons => exact hb.elim
    | cons k bs ih =>
      obtain ⟨i, b', rfl, -, h⟩ := inRange_cons_iff.1 hb
      simp [ih h]
  exact ⟨b ++ ss.map fun _ => 0, inRange_append hb (sampleShape_inRange hss), by rw [← hl, List.take_left']; rfl⟩

/-- From the batch to the batch with sample axes -/
theorem Spec.Elementwise.lift {α β : Type*} {R : β → (List ℕ → α) → Prop} {X : Except Err β} {Y : List ℕ → Except Err α} (h : Elementwise bs R X Y)
    {ss : List ℕ} (hss : ∀ k ∈ ss, 0 < k) :
    (∃ x y, X = .ok x ∧ R x y ∧ ∀ b, InRange b (bs ++ ss) → Y (b.take bs.length) = .ok (y (b.take bs.length))) ∨
      ∃ e, X = .error e ∧ ∃ b, InRange b (bs ++ ss) ∧ Y (b.take bs.length) = .error e := by
  rcases h with ⟨x, y, hx, hr, hy⟩ | ⟨e, hx, b, hb, hy⟩
  · exact .inl ⟨x, y, hx, hr, fun b hb => hy _ (inRange_split hb).1⟩
  · obtain ⟨b', h1, h2⟩ := inRange_take_append hb hss
    exact .inr ⟨e, hx, b', h1, by rw [h2]; exact hy⟩

theorem pair_concat {q x y} {f g : List ℕ → Fin q → Vec d} (hx : HoldsVecs u x f) (hy : HoldsVecs u y g) :
    ∃ z, concat 0 x y = .ok z ∧ HoldsVecs u z fun b t => pairVec (Sum.elim (f b t) (g b t)) := by
  obtain ⟨z, hz, h⟩ := concat_vec (holdsVecs_iff.1 hx) (holdsVecs_iff.1 hy)
  exact ⟨z, hz, holdsVecs_iff.2 (h.congr (forall_inRange_cons.2 fun b _ t => by simp only [lift_fin]; rfl))⟩

theorem minus_vecs' {q x y} {f g : List ℕ → Fin q → Vec d} (hx : HoldsVecs u x f) (hy : HoldsVecs u y g) :
    ∃ z, minus x y = .ok z ∧ HoldsVecs u z fun b t => f b t - g b t := by
  obtain ⟨z, hz, h⟩ := minus_vec (holdsVecs_iff.1 hx) (holdsVecs_iff.1 hy).b1
  exact ⟨z, hz, holdsVecs_iff.2 (h.congr (forall_inRange_cons.2 fun b _ t => by simp only [lift_fin]))⟩

theorem projection_holds {q m k} {P v : Tensor} {P' : List ℕ → Fin q → Mat m k} {v' : List ℕ → Fin q → Vec k} (ss : List ℕ)
    (hP : HoldsMats bs P P') (hv : HoldsVecs (bs ++ ss) v v') :
    ∃ z, matmul P (expand 0 v) = .ok z ∧ HoldsVecs (bs ++ ss) (index 0 0 z) fun b t => P' (b.take bs.length) t *ᵥ v' b t := by
  have hcol := expand_col (holdsVecs_iff.1 hv)
  obtain ⟨z, hz, hzh⟩ := matmul_one (hP.extend ss) hcol.b2 (.inr hcol.1)
  refine ⟨z, hz, holdsVecs_iff.2 ((index_col hzh 0).congr (forall_inRange_cons.2 fun b _ t => ?_))⟩
  simp only [lift_fin]
  funext i
  simp [Matrix.mul_apply, Matrix.mulVec, dotProduct]

theorem append_eq_sum {α : Type*} (f : Fin n → α) (g : Fin p → α) : Fin.append f g = Sum.elim f g ∘ finSumFinEquiv.symm := by
  funext i
  refine Fin.addCases (fun i => ?_) (fun i => ?_) i <;> simp [-Fin.natAdd_eq_addNat]

theorem sampleStateTrajectories_holds (hbs : ∀ k ∈ bs, 0 < k) (hd : 0 < d) {C : TCondProcess} {c : List ℕ → CondProcess n o d} (h : HoldsStates bs C c)
    {new : Tensor} {xs : List ℕ → Fin p → ℝ} (hx : HoldsTimes bs new xs) {ss : List ℕ} (hss : ∀ k ∈ ss, 0 < k) (e₁ e₂ : List ℕ → ℝ) :
    Elementwise (bs ++ ss) (HoldsTrajectories (bs ++ ss)) (C.sampleStateTrajectories new ss e₁ e₂) fun b =>
      (c (b.take bs.length)).sampleStateTrajectories (xs (b.take bs.length)) (fun t i => e₁ (0 :: (i : ℕ) :: (t : ℕ) :: b))
        fun t i => e₂ (0 :: (i : ℕ) :: (t : ℕ) :: b) := by
  have hk := h.kernel
  obtain ⟨hb1, -, -⟩ := ssm_dims h.q
  have hbl : C.q.batch.length = bs.length := by rw [hb1]
  have hbl' : bs.length + ss.length = (bs ++ ss).length := by simp
  obtain ⟨joint, hj, hjh⟩ := concat_vec h.times hx
  have hN : n + 1 + p = n + p + 1 := by omega
  have hjoint : HoldsVec bs joint fun b (i : Fin (n + p + 1)) => Fin.append (c b).times (xs b) (i.cast hN.symm) := by
    refine ⟨by rw [hjh.1, hN], fun b hb i => ?_⟩
    have := hjh.2 b hb (i.cast hN.symm)
    rw [Fin.val_cast] at this
    rw [this]
    beta_reduce
    rw [append_eq_sum]
  have hsort := argsort_holds hjoint
  obtain ⟨st, hst, hsth⟩ := gather_vec hjoint hsort
  rcases (stateSpaceModel_holds hbs hk hsth).lift hss with ⟨S, s, hS, hSs, hs⟩ | ⟨e, hS, b, hb, hs⟩
  swap
  · refine .inr ⟨e, ?_, b, hb, ?_⟩
    · simp only [TCondProcess.sampleStateTrajectories, hbl, hj, hst, hS, Bind.bind, Except.bind]
    · have hb' := (inRange_split hb).1
      simp only [CondProcess.sampleStateTrajectories, Function.comp_def, hs, Bind.bind, Except.bind]
  rcases sample_holds hbs hSs hd ss e₁ with ⟨X, x, hX, hXx, hx'⟩ | ⟨e, hX, b, hb, hx'⟩
  swap
  · refine .inr ⟨e, ?_, b, hb, ?_⟩
    · simp only [TCondProcess.sampleStateTrajectories, hbl, hj, hst, hS, hX, Bind.bind, Except.bind]
    · have hb' := (inRange_split hb).1
      have e1 := hs b hb
      simp only [CondProcess.sampleStateTrajectories, Function.comp_def, e1, hx', Bind.bind, Except.bind]
  obtain ⟨un, hun, hunh⟩ := ibroadcast_holds (iargsort_holds hsort) ss
  obtain ⟨js, hjs, hjsh⟩ := gather_vecs hXx hunh
  have hjs' : HoldsVecs (bs ++ ss) js fun b (i : Fin (n + 1 + p)) => x b (Tuple.sort (Tuple.sort fun i : Fin (n + p + 1) =>
      Fin.append (c (b.take bs.length)).times (xs (b.take bs.length)) (i.cast hN.symm)) (i.cast hN)) := by
    refine ⟨by rw [hjsh.1, hN], fun b hb t i => ?_⟩
    exact hjsh.2 b hb (t.cast hN) i
  rcases sample_holds hbs h.q hd ss e₂ with ⟨Z, z, hZ, hZz, hz⟩ | ⟨e, hZ, b, hb, hz⟩
  swap
  · refine .inr ⟨e, ?_, b, hb, ?_⟩
    · simp only [TCondProcess.sampleStateTrajectories, hbl, hbl', hj, hst, hS, hX, hun, hjs, hZ, Bind.bind, Except.bind]
    · have hb' := (inRange_split hb).1
      have e1 := hs b hb
      have e2 := hx' b hb
      simp only [CondProcess.sampleStateTrajectories, Function.comp_def, e1, e2, hz, Bind.bind, Except.bind]
  have hnc : C.times.dim 0 = n + 1 := by simp [dim, h.times.1]
  obtain ⟨δ, hδ, hδh⟩ := minus_vecs' (sliceTo_vecs' hjs') hZz
  have hpad : HoldsVecs (bs ++ ss) (zeros (sliceTo 1 1 δ).shape) fun _ (_ : Fin 1) => (0 : Vec d) := by
    refine ⟨by simp [zeros, sliceTo, modifyAt, hδh.1], fun _ _ _ _ => rfl⟩
  obtain ⟨tl, htl, htlh⟩ := snoc_vecs hδh hpad
  obtain ⟨aug, haug, haugh⟩ := cons_vecs hpad htlh
  obtain ⟨ix, hix, hixh⟩ := searchsorted_holds h.times hx
  obtain ⟨ib, hib, hibh⟩ := ibroadcast_holds hixh ss
  obtain ⟨um, hum, humh⟩ := gather_vecs haugh hibh.castSucc
  obtain ⟨up, hup, huph⟩ := gather_vecs haugh hibh.succ
  obtain ⟨v, hv, hvh⟩ := pair_concat humh huph
  rcases (conditionalStatisticsAux_holds approxInf hk hx h.times).lift hss with ⟨w, w', hw, ⟨hP, -, -⟩, hw'⟩ | ⟨e, hw, b, hb, hw'⟩
  swap
  · refine .inr ⟨e, ?_, b, hb, ?_⟩
    · simp only [TCondProcess.sampleStateTrajectories, hbl, hbl', hj, hst, hS, hX, hun, hjs, hZ, hnc, hδ, htl, haug, hix, hib, hum, hup, hv,
        tensorConditionalStatistics, hw, Bind.bind, Except.bind]
    · have hb' := (inRange_split hb).1
      have e1 := hs b hb
      have e2 := hx' b hb
      have e3 := hz b hb
      simp only [CondProcess.sampleStateTrajectories, Function.comp_def, e1, e2, e3, conditionalStatistics, hw', Bind.bind, Except.bind]
  obtain ⟨Pv, hPv, hPvh⟩ := projection_holds ss hP hvh
  obtain ⟨out, hout, houth⟩ := minus_vecs' (sliceFrom_vecs' hjs') hPvh
  refine .inl ⟨(out, Z), fun b => (_, z b), ?_, ⟨houth, hZz⟩, fun b hb => ?_⟩
  · simp only [TCondProcess.sampleStateTrajectories, hbl, hbl', hj, hst, hS, hX, hun, hjs, hZ, hnc, hδ, htl, haug, hix, hib, hum, hup, hv,
        tensorConditionalStatistics, hw, hPv, hout, Bind.bind, Except.bind, Pure.pure, Except.pure]
  · have hb' := (inRange_split hb).1
    have e1 := hs b hb
    have e2 := hx' b hb
    have e3 := hz b hb
    have e4 := hw' b hb
    simp only [CondProcess.sampleStateTrajectories, Function.comp_def, e1, e2, e3, conditionalStatistics, e4, Bind.bind, Except.bind,
      Pure.pure, Except.pure, pairCols_mulVec]

theorem BT.extend {s u : List ℕ} (h : BT s u) (v : List ℕ) : BT s (u ++ v) := by
  induction s generalizing u with
  | nil => trivial
  | cons a s ih =>
    cases u with
    | nil => exact h.elim
    | cons b u => exact ⟨h.1, ih h.2⟩

theorem bidx_extend {s u v b : List ℕ} (h : BT s u) (hb : InRange b (u ++ v)) : bidx s b = bidx s (b.take u.length) := by
  induction s generalizing u b with
  | nil => simp [bidx]
  | cons a s ih =>
    cases u with
    | nil => exact h.elim
    | cons k u =>
      obtain ⟨i, b', rfl, hi, hb'⟩ := inRange_cons_iff.1 hb
      simp only [bidx, ih h.2 hb', List.length_cons, List.take_succ_cons]

theorem B0.extend {u : List ℕ} {x : Tensor} {f : List ℕ → ℝ} (h : B0 u x f) (v : List ℕ) : B0 (u ++ v) x fun b => f (b.take u.length) :=
  ⟨h.1.extend v, fun b hb => by rw [bidx_extend h.1 hb]; exact h.2 _ (inRange_split hb).1⟩

/-- `sample_f` per batch element and sample -/
theorem sampleF_holds (hbs : ∀ k ∈ bs, 0 < k) (hd : 0 < d) {C : TCondProcess} {c : List ℕ → CondProcess n o d} (h : HoldsProcess bs C c)
    {new : Tensor} {xs : List ℕ → Fin p → ℝ} (hx : HoldsTimes bs new xs) {ss : List ℕ} (hss : ∀ k ∈ ss, 0 < k) (e₁ e₂ : List ℕ → ℝ) :
    Elementwise (bs ++ ss) (HoldsVecs (bs ++ ss)) (C.sampleF new ss e₁ e₂) fun b =>
      (c (b.take bs.length)).sampleF (xs (b.take bs.length)) (fun t i => e₁ (0 :: (i : ℕ) :: (t : ℕ) :: b))
        fun t i => e₂ (0 :: (i : ℕ) :: (t : ℕ) :: b) := by
  have hk := h.kernel
  obtain ⟨H, hH, hHh⟩ := emission_holds hk hx
  rcases sampleStateTrajectories_holds hbs hd h.toHoldsStates hx hss e₁ e₂ with ⟨x, y, hx', ⟨hx1, -⟩, hy⟩ | ⟨e, hx', b, hb, hy⟩
  swap
  · refine .inr ⟨e, ?_, b, hb, ?_⟩
    · simp only [TCondProcess.sampleF, TCondProcess.sampleState, hx', Bind.bind, Except.bind]
    · beta_reduce at hy
      simp only [CondProcess.sampleF, hy, Bind.bind, Except.bind]
  obtain ⟨f, hf, hfh⟩ := projectState_holds ss hHh hx1
  obtain ⟨w, hw, hwh⟩ := mean_b0 h.mean hx
  obtain ⟨z, hz, hzh⟩ := zipWith_right (· + ·) (hwh.extend ss) (holdsVec_iff.1 (holdsVecs_iff.1 hfh))
  refine .inl ⟨z, fun b q => (c (b.take bs.length)).meanFunction (xs (b.take bs.length) q) + projectStateToF (fun q => (c (b.take bs.length)).kernel.emission (xs (b.take bs.length) q)) (y b).1 q, ?_,
    holdsVecs_iff.2 (holdsVec_iff.2 (hzh.congr (forall_inRange_cons.2 fun b hb i => ?_))), fun b hb => ?_⟩
  · simp only [TCondProcess.sampleF, TCondProcess.sampleState, TKernel.projectState, TKernel.correctMeanShape, h.plain, hx', hH, hf, hw, Bind.bind, Except.bind, Pure.pure, Except.pure]
    exact hz
  · obtain ⟨t, b', rfl, ht, hb'⟩ := inRange_cons_iff.1 hb
    obtain ⟨t, rfl⟩ : ∃ t' : Fin p, (t' : ℕ) = t := ⟨⟨t, ht⟩, rfl⟩
    simp only [List.length_cons, List.take_succ_cons, lift_fin]
    rfl
  · have e1 := hy b hb
    have hb' := (inRange_split hb).1
    simp only [CondProcess.sampleF, e1, Bind.bind, Except.bind]
    rfl

end MF
