import Verif.Lemmas.BatchedStack
import Verif.Lemmas.BatchedSampling
import Verif.Lemmas.BatchedVariational
import Verif.Lemmas.Transformations

/-!
# Processes and models over a stack of kernels, on tensors of any batch shape
-/

namespace MF
open Matrix Spec Tensor

variable {n d p R : ℕ} {bs u : List ℕ}

/-! ### The kernel index as a batch index -/

theorem exists_atKernel {α : Type*} [Nonempty α] (f : List ℕ → Fin R → α) : ∃ f', AtKernel f' f :=
  ⟨fun i => match i with
    | t :: b => if h : t < R then f b ⟨t, h⟩ else Classical.arbitrary α
    | [] => Classical.arbitrary α, fun b r => by simp⟩

theorem holdsTimes_at {t : Tensor} {ts : List ℕ → Fin R → Fin n → ℝ} {ts' : List ℕ → Fin n → ℝ} (h : AtKernel ts' ts) (ht : HoldsVecs bs t ts) :
    HoldsTimes (R :: bs) t ts' :=
  ⟨ht.1, forall_inRange_cons.2 fun b hb r i => by rw [h b r]; exact ht.2 b hb r i⟩

theorem elementwise_stack {α β : Type} {P : β → (List ℕ → α) → Prop} {X : Except Err β} {Y' : List ℕ → Except Err α} {Y : List ℕ → Fin R → Except Err α}
    (h : Elementwise (R :: bs) P X Y') (hY : AtKernel Y' Y) :
    ElementwiseAny bs (fun x y => ∃ y', AtKernel y' y ∧ P x y') X fun b => seqFin (Y b) := by
  rcases h with ⟨x, y, hx, hp, hy⟩ | ⟨e, hx, i, hi, he⟩
  · exact .inl ⟨x, fun b r => y ((r : ℕ) :: b), hx, ⟨y, fun _ _ => rfl, hp⟩, fun b hb => seqFin_ok fun r => by
      rw [← hY b r]
      exact hy _ ⟨r.2, hb⟩⟩
  · refine .inr ⟨⟨e, hx⟩, ?_⟩
    cases i with
    | nil => exact hi.elim
    | cons r b =>
      refine ⟨b, hi.2, ?_⟩
      cases hs : seqFin (Y b) with
      | error e => exact ⟨e, hs⟩
      | ok g =>
        have := seqFin_ok_iff.1 hs ⟨r, hi.1⟩
        rw [← hY b ⟨r, hi.1⟩] at this
        exact absurd (he.symm.trans this) (by simp)

theorem Spec.ElementwiseAny.bind {α α' β β' : Type} {P : β → (List ℕ → α) → Prop} {P' : β' → (List ℕ → α') → Prop} {X : Except Err β} {Y : List ℕ → Except Err α}
    {f : β → Except Err β'} {g : List ℕ → α → Except Err α'} (h : ElementwiseAny bs P X Y)
    (hf : ∀ x y, P x y → ElementwiseAny bs P' (f x) fun b => g b (y b)) :
    ElementwiseAny bs P' (X >>= f) fun b => Y b >>= g b := by
  rcases h with ⟨x, y, hx, hp, hy⟩ | ⟨⟨e, hx⟩, b, hb, e', he⟩
  · rcases hf x y hp with ⟨x', y', hx', hp', hy'⟩ | ⟨⟨e, hx'⟩, b, hb, e', he⟩
    · refine .inl ⟨x', y', ?_, hp', fun b hb => ?_⟩
      · rw [hx]; exact hx'
      · dsimp only; rw [hy b hb]; exact hy' b hb
    · refine .inr ⟨⟨e, ?_⟩, b, hb, e', ?_⟩
      · rw [hx]; exact hx'
      · dsimp only; rw [hy b hb]; exact he
  · refine .inr ⟨⟨e, ?_⟩, b, hb, e', ?_⟩
    · rw [hx]; rfl
    · dsimp only; rw [he]; rfl

theorem Spec.ElementwiseAny.congr {α β : Type} {P : β → (List ℕ → α) → Prop} {X : Except Err β} {Y Y' : List ℕ → Except Err α} (h : ElementwiseAny bs P X Y)
    (hY : ∀ b, InRange b bs → Y b = Y' b) : ElementwiseAny bs P X Y' := by
  rcases h with ⟨x, y, hx, hp, hy⟩ | ⟨hx, b, hb, e', he⟩
  · exact .inl ⟨x, y, hx, hp, fun b hb => by rw [← hY b hb]; exact hy b hb⟩
  · exact .inr ⟨hx, b, hb, e', by rw [← hY b hb]; exact he⟩

theorem Spec.ElementwiseAny.ok {α β : Type} {P : β → (List ℕ → α) → Prop} {x : β} {y : List ℕ → α} (h : P x y) :
    ElementwiseAny bs P (.ok x) fun b => .ok (y b) := .inl ⟨x, y, rfl, h, fun _ _ => rfl⟩

theorem Spec.ElementwiseAny.mono {α β : Type} {P P' : β → (List ℕ → α) → Prop} {X : Except Err β} {Y : List ℕ → Except Err α} (h : ElementwiseAny bs P X Y)
    (hP : ∀ x y, P x y → P' x y) : ElementwiseAny bs P' X Y := by
  rcases h with ⟨x, y, hx, hp, hy⟩ | h
  · exact .inl ⟨x, y, hx, hP x y hp, hy⟩
  · exact .inr h

theorem pos_cons (hR : 0 < R) (hbs : ∀ k ∈ bs, 0 < k) : ∀ k ∈ R :: bs, 0 < k := by
  intro k hk
  rcases List.mem_cons.1 hk with rfl | hk
  · exact hR
  · exact hbs k hk

/-! ### The constructor -/

theorem tensorStack_holds {Ks : Fin R → TKernel} {children : Fin R → Σ d, Stationary 1 d} (h : ∀ r, HoldsKernel (Ks r) (children r).2) (jitter : ℝ) :
    SameStack (tensorStack Ks jitter) (StackKernel.init children jitter) := by
  unfold tensorStack StackKernel.init
  have h1 : ∀ r, (Ks r).outputDim = 1 := fun r => (h r).outputDim
  by_cases hR : R = 0
  · rw [if_pos hR, if_pos hR]
    exact .inr ⟨_, rfl, rfl⟩
  · rw [if_neg hR, if_neg hR, if_neg (not_not.2 fun r r' => by rw [h1, h1]), if_neg (not_not.2 h1)]
    by_cases hj : 0 ≤ jitter
    · rw [if_neg (not_not.2 hj), if_neg (not_not.2 hj)]
      exact .inl ⟨_, _, rfl, rfl, stackKernel_holds (ks := ⟨children, jitter⟩) (Nat.pos_of_ne_zero hR) h⟩
    · rw [if_pos hj, if_pos hj]
      exact .inr ⟨_, rfl, rfl⟩

/-! ### State space models -/

variable {k : StackKernel R}

theorem exists_slices (hR : 0 < R) (k : StackKernel R) : ∃ k' : List ℕ → Stationary 1 k.stateDim, AtKernel k' fun _ r => k.slice r :=
  haveI : Nonempty (Stationary 1 k.stateDim) := ⟨k.slice ⟨0, hR⟩⟩
  exists_atKernel _

theorem stackSSM_holds (hR : 0 < R) (hbs : ∀ k ∈ bs, 0 < k) {K : TKernel} (h : HoldsStackKernel K k) {t : Tensor} {ts : List ℕ → Fin R → Fin (n + 1) → ℝ}
    (ht : HoldsVecs bs t ts) : ElementwiseAny bs (HoldsStackSSM bs) (K.stateSpaceModel t) fun b => k.stateSpaceModel (ts b) := by
  obtain ⟨k', hk⟩ := exists_slices hR k
  obtain ⟨ts', hts⟩ := exists_atKernel ts
  exact elementwise_stack (Y := fun b r => (k.slice r).stateSpaceModel (ts b r))
    (stateSpaceModel_holds (pos_cons hR hbs) (h.2 bs k' hk) (holdsTimes_at hts ht)) fun b r => by
      dsimp only
      rw [show k' (r :: b) = k.slice r from hk b r, hts b r]

/-! ### Posterior processes -/

/-- The process of kernel `r`, as a process without batch axes. -/
def StackProcess.at (c : StackProcess n k) (r : Fin R) : CondProcess n 1 k.stateDim := ⟨c.q r, k.slice r, c.times r, fun t _ => c.meanFunction r t⟩

theorem stackStates (hR : 0 < R) {C : TCondProcess} {c : List ℕ → StackProcess n k} (h : HoldsStackProcess bs C c) :
    ∃ c' : List ℕ → CondProcess n 1 k.stateDim, AtKernel c' (fun b r => (c b).at r) ∧ HoldsStates (R :: bs) C c' := by
  obtain ⟨s', hs, hS⟩ := h.q
  obtain ⟨k', hk⟩ := exists_slices hR k
  obtain ⟨ts', hts⟩ := exists_atKernel fun b => (c b).times
  obtain ⟨m', hm⟩ := exists_atKernel fun b r => fun (t : ℝ) (_ : Fin 1) => (c b).meanFunction r t
  exact ⟨fun i => ⟨s' i, k' i, ts' i, m' i⟩, fun b r => by
    dsimp only [StackProcess.at]
    rw [hs b r, show k' (r :: b) = k.slice r from hk b r, hts b r, hm b r], hS, h.kernel.2 bs k' hk, holdsTimes_at hts h.times⟩

/-- `predict_state` per batch element -/
theorem stackPredictState_holds (hR : 0 < R) (hbs : ∀ k ∈ bs, 0 < k) {C : TCondProcess} {c : List ℕ → StackProcess n k} (h : HoldsStackProcess bs C c)
    {new : Tensor} {ss : List ℕ → Fin R → Fin (p + 1) → ℝ} (hs : HoldsVecs bs new ss) :
    ElementwiseAny bs (HoldsStackPred bs) (C.predictState new) fun b => (c b).predictState (ss b) := by
  obtain ⟨c', hc, hC⟩ := stackStates hR h
  obtain ⟨ss', hss⟩ := exists_atKernel ss
  exact elementwise_stack (Y := fun b r => ((c b).at r).predictState (ss b r))
    (predictState_holds (pos_cons hR hbs) hC (holdsTimes_at hss hs)) fun b r => by
      dsimp only
      rw [show c' (r :: b) = (c b).at r from hc b r, hss b r]

/-! ### The stack emission model -/

theorem rows_b0 {r c : ℕ} {x : Tensor} {A : List ℕ → Mat 1 c} (hx : HoldsMat u x A) (r : ℕ) :
    B0 (c :: r :: u) x (lift (lift fun b (_ : Fin r) => (fun j => A b 0 j : Vec c))) := by
  refine ⟨by rw [hx.1]; exact ⟨.inl rfl, .inr rfl, BT.refl _⟩, forall_inRange_cons.2 (forall_inRange_cons.2 fun b hb i j => ?_)⟩
  rw [lift_fin, lift_fin, hx.1, bidx, bidx, bidx_self hb, if_pos rfl, show (if c = 1 then 0 else (j : ℕ)) = j by
    have := j.2
    split_ifs <;> omega]
  exact hx.2 b hb 0 j

theorem cols_b0 {r c : ℕ} {x : Tensor} {A : List ℕ → Mat r 1} (hx : HoldsMat u x A) (c : ℕ) :
    B0 (c :: r :: u) x (lift (lift fun b i => (fun _ => A b i 0 : Vec c))) := by
  refine ⟨by rw [hx.1]; exact ⟨.inr rfl, .inl rfl, BT.refl _⟩, forall_inRange_cons.2 (forall_inRange_cons.2 fun b hb i j => ?_)⟩
  rw [lift_fin, lift_fin, hx.1, bidx, bidx, bidx_self hb, if_pos rfl, show (if r = 1 then 0 else (i : ℕ)) = i by
    have := i.2
    split_ifs <;> omega]
  exact hx.2 b hb i 0

theorem times_rows {r c : ℕ} {x y : Tensor} {A : List ℕ → Mat 1 c} {B : List ℕ → Mat r c} (hx : HoldsMat u x A) (hy : HoldsMat u y B) :
    ∃ z, times x y = .ok z ∧ HoldsMat u z fun b => Matrix.of fun i j => A b 0 j * B b i j := by
  obtain ⟨z, hz, h⟩ := zipWith_right (· * ·) (rows_b0 (r := r) hx r) (holdsVec_iff.1 (holdsMat_iff.1 hy))
  refine ⟨z, hz, holdsMat_iff.2 (holdsVec_iff.2 (h.congr (forall_inRange_cons.2 (forall_inRange_cons.2 fun b _ i j => ?_))))⟩
  simp only [lift_fin, Matrix.of_apply]

theorem times_cols {r c : ℕ} {x y : Tensor} {B : List ℕ → Mat r c} {A : List ℕ → Mat r 1} (hx : HoldsMat u x B) (hy : HoldsMat u y A) :
    ∃ z, times x y = .ok z ∧ HoldsMat u z fun b => Matrix.of fun i j => B b i j * A b i 0 := by
  obtain ⟨z, hz, h⟩ := zipWith_left (· * ·) (holdsVec_iff.1 (holdsMat_iff.1 hx)) (cols_b0 (c := c) hy c)
  refine ⟨z, hz, holdsMat_iff.2 (holdsVec_iff.2 (h.congr (forall_inRange_cons.2 (forall_inRange_cons.2 fun b _ i j => ?_))))⟩
  simp only [lift_fin, Matrix.of_apply]

/-- Moving the kernel index to the last axis -/
theorem matT_kernels {x : Tensor} {f' : List ℕ → Fin p → ℝ} {f : List ℕ → Fin R → Fin p → ℝ} (hf : AtKernel f' f) (hx : HoldsVec (R :: u) x f') :
    HoldsVecs u x.matT fun b q r => f b r q := by
  refine ⟨by simp [matT, hx.1], fun b hb q r => ?_⟩
  rw [show x.matT.val ((r : ℕ) :: (q : ℕ) :: b) = x.val ((q : ℕ) :: (r : ℕ) :: b) from rfl, hx.2 ((r : ℕ) :: b) ⟨r.2, hb⟩ q, hf b r]

theorem take_atKernel {α : Type*} {f' : List ℕ → α} {f : List ℕ → Fin R → α} (hf : AtKernel f' f) :
    AtKernel (fun i => f' (i.take (bs.length + 1))) fun b r => f (b.take bs.length) r := fun b r => by
  dsimp only
  rw [List.take_succ_cons, hf]

theorem stackProjectState_holds {H x : Tensor} {H' : List ℕ → Fin p → Mat 1 d} {Hs : List ℕ → Fin R → Fin p → Mat 1 d}
    {f' : List ℕ → Fin p → Vec d} {f : List ℕ → Fin R → Fin p → Vec d} (ss : List ℕ) (hHs : AtKernel H' Hs) (hfs : AtKernel f' f)
    (hH : HoldsMats (R :: bs) H H') (hx : HoldsVecs (R :: bs ++ ss) x f') :
    ∃ z, tensorStackProjectState H x = .ok z ∧ HoldsVecs (bs ++ ss) z fun b => stackProjectStateToF (Hs (b.take bs.length)) (f b) := by
  have hc : Shapes.projectStateCheck H.tfShape x.tfShape = .ok () := by
    rw [tfShape3 hH.1, tfShape2 hx.1]
    exact (C42_project_state ..).2 ⟨_, rfl⟩
  have hcol := expand_col (holdsVecs_iff.1 hx)
  obtain ⟨a, ha, hah⟩ := matmul_one (hH.extend ss) hcol.b2 (.inr hcol.1)
  have h1 := index_vec (index_col hah 0) 0
  refine ⟨matT (index 0 0 (index 0 0 a)), by simp only [tensorStackProjectState, hc, ha, Bind.bind, Except.bind]; rfl, ?_⟩
  refine matT_kernels (u := bs ++ ss) (f' := fun i q => (H' (i.take (bs.length + 1)) q * replicateCol Unit (f' i q)) 0 ())
    (f := fun b r q => (Hs (b.take bs.length) r q * replicateCol Unit (f b r q)) 0 ()) (fun b r => ?_)
    (holdsVec_iff.2 (h1.congr (forall_inRange_cons.2 fun b _ t => ?_)))
  · dsimp only
    rw [List.take_succ_cons, hHs, hfs]
  · simp only [lift_fin, Matrix.mul_apply, Matrix.of_apply, Matrix.replicateCol_apply, List.length_cons]

theorem stackProjectCov_holds {H x : Tensor} {H' : List ℕ → Fin p → Mat 1 d} {Hs : List ℕ → Fin R → Fin p → Mat 1 d}
    {f' : List ℕ → Fin p → Mat d d} {f : List ℕ → Fin R → Fin p → Mat d d} (hHs : AtKernel H' Hs) (hfs : AtKernel f' f)
    (hH : HoldsMats (R :: bs) H H') (hx : HoldsMats (R :: bs) x f') :
    (∃ z, tensorStackProjectCovariance H x false = .ok z ∧ HoldsVecs bs z fun b => stackProjectStateCovarianceToFDiag (Hs b) (f b)) ∧
    ∃ z, tensorStackProjectCovariance H x true = .ok z ∧ HoldsMats bs z fun b => stackProjectStateCovarianceToFFull (Hs b) (f b) := by
  have hc : Shapes.assertEqual x.tfShape ((H.shape.drop 3).reverse ++ [H.dim 2, H.dim 0, H.dim 0]) = .ok () := by
    rw [tfShape3 hx.1]
    simp only [dim, hH.1, List.drop_succ_cons, List.drop_zero, List.getD_cons_succ, List.getD_cons_zero]
    exact assertEqual_self _
  obtain ⟨a, ha, hah⟩ := times_rows (holdsMats_iff.1 hH) (holdsMats_iff.1 hx)
  obtain ⟨e, he, heh⟩ := times_cols hah (matT_mat (holdsMats_iff.1 hH))
  have h1 := sum1_vec (sum1_mat heh)
  have h2 : HoldsVecs bs (matT (sum1 (sum1 e))) fun b => stackProjectStateCovarianceToFDiag (Hs b) (f b) := by
    refine matT_kernels (u := bs) (f' := fun i q => ∑ k, ∑ j, H' i q 0 j * f' i q k j * (H' i q)ᵀ k 0)
      (f := fun b r q => ∑ k, ∑ j, Hs b r q 0 j * f b r q k j * (Hs b r q)ᵀ k 0) (fun b r => ?_)
      (holdsVec_iff.2 (h1.congr (forall_inRange_cons.2 fun b _ t => ?_)))
    · dsimp only
      rw [hHs, hfs]
    · simp only [lift_fin, Matrix.of_apply]
  have h3 : HoldsMats bs (diag (matT (sum1 (sum1 e)))) fun b => stackProjectStateCovarianceToFFull (Hs b) (f b) :=
    holdsMats_iff.2 ((diag_vec (holdsVecs_iff.1 h2)).congr (forall_inRange_cons.2 fun b _ q => by simp only [lift_fin]; rfl))
  constructor
  · exact ⟨_, by simp only [tensorStackProjectCovariance, hc, ha, he, Bind.bind, Except.bind, Bool.false_eq_true, if_false]; rfl, h2⟩
  · exact ⟨_, by simp only [tensorStackProjectCovariance, hc, ha, he, Bind.bind, Except.bind, if_true]; rfl, h3⟩

/-! ### Predictions -/

theorem stackMean_holds {K : TKernel} (h : HoldsStackKernel K k) {M : Tensor → Except Err Tensor} {m : List ℕ → Fin R → ℝ → ℝ} (hM : HoldsStackMean bs M m)
    {new : Tensor} {xs : List ℕ → Fin R → Fin p → ℝ} (hx : HoldsVecs bs new xs) :
    ∃ y w, M new = .ok y ∧ K.correctMeanShape y = .ok w ∧ HoldsVecs bs w fun b q r => m b r (xs b r q) := by
  obtain ⟨m', hm, hMo⟩ := hM
  obtain ⟨xs', hxs⟩ := exists_atKernel xs
  obtain ⟨y, j, hy, hj, hs, hv⟩ := hMo p new xs' (holdsTimes_at hxs hx)
  obtain rfl : j = 1 := by rcases hj with h | h <;> exact h
  refine ⟨y, matT (index 0 0 y), hy, by simp [TKernel.correctMeanShape, h.1, dim, hs], ?_⟩
  refine matT_kernels (u := bs) (f' := fun i q => m' i (xs' i q) 0) (f := fun b r q => m b r (xs b r q)) (fun b r => ?_) ⟨?_, fun b hb q => ?_⟩
  · dsimp only
    rw [hm, hxs]
  · simp [index, hs, removeAt]
  · simpa [index, insertAt] using hv b hb q 0

theorem stackEmission_at (hR : 0 < R) {K : TKernel} (h : HoldsStackKernel K k) {new : Tensor} {xs : List ℕ → Fin R → Fin p → ℝ} (hx : HoldsVecs bs new xs) :
    ∃ H H', K.emission new = .ok H ∧ AtKernel H' (fun b r q => (k.slice r).emission (xs b r q)) ∧ HoldsMats (R :: bs) H H' := by
  obtain ⟨k', hk⟩ := exists_slices hR k
  obtain ⟨xs', hxs⟩ := exists_atKernel xs
  obtain ⟨H, hH, hHh⟩ := emission_holds (h.2 bs k' hk) (holdsTimes_at hxs hx)
  refine ⟨H, _, hH, fun b r => ?_, hHh⟩
  dsimp only
  rw [show k' (r :: b) = k.slice r from hk b r, hxs b r]

theorem stackPredictF_holds (hR : 0 < R) (hbs : ∀ k ∈ bs, 0 < k) {C : TCondProcess} {c : List ℕ → StackProcess n k} (h : HoldsStackProcess bs C c)
    {new : Tensor} {xs : List ℕ → Fin R → Fin (p + 1) → ℝ} (hx : HoldsVecs bs new xs) :
    ElementwiseAny bs (HoldsPred bs) (C.predictF new true) (fun b => (c b).predictF (xs b)) ∧
      ElementwiseAny bs (HoldsPredDiag bs) (C.predictF new false) fun b => (c b).predictFDiag (xs b) := by
  obtain ⟨H, H', hH, hHs, hHh⟩ := stackEmission_at hR h.kernel hx
  obtain ⟨w, w', hw, hw', hwh⟩ := stackMean_holds h.kernel h.mean hx
  rcases stackPredictState_holds hR hbs h hx with ⟨x, y, hx', ⟨y', hy', hx1, hx2⟩, hy⟩ | ⟨⟨e, hx'⟩, b, hb, e', hy⟩
  swap
  · constructor
    · refine .inr ⟨⟨e, ?_⟩, b, hb, e', ?_⟩
      · simp only [TCondProcess.predictF, hH, hx', Bind.bind, Except.bind]
      · simp only [StackProcess.predictF, hy, Bind.bind, Except.bind]
    · refine .inr ⟨⟨e, ?_⟩, b, hb, e', ?_⟩
      · simp only [TCondProcess.predictF, hH, hx', Bind.bind, Except.bind]
      · simp only [StackProcess.predictFDiag, hy, Bind.bind, Except.bind]
  obtain ⟨f, hf, hfh⟩ := stackProjectState_holds (f' := fun i q => (y' i q).1) (f := fun b r q => (y b r q).1) [] hHs
    (fun b r => by dsimp only; rw [hy' b r]) hHh (by simpa using hx1)
  obtain ⟨⟨v, hv, hvh⟩, V, hV, hVh⟩ := stackProjectCov_holds (f' := fun i q => (y' i q).2) (f := fun b r q => (y b r q).2) hHs
    (fun b r => by dsimp only; rw [hy' b r]) hHh hx2
  rw [List.append_nil] at hfh
  have hfh' := hfh.congr (g := fun b => stackProjectStateToF (fun r q => (k.slice r).emission (xs b r q)) fun r q => (y b r q).1) fun b hb => by
    rw [List.take_of_length_le (inRange_length hb).le]
  obtain ⟨z, hz, hzh⟩ := plus_b0 (holdsVecs_iff.1 hfh') (holdsVec_iff.1 (holdsVecs_iff.1 hwh)).b0
  have hz1 : HoldsVecs bs z fun b q => stackProjectStateToF (fun r q => (k.slice r).emission (xs b r q)) (fun r q => (y b r q).1) q +
      fun r => (c b).meanFunction r (xs b r q) := holdsVecs_iff.2 (hzh.congr (forall_inRange_cons.2 fun b _ q => by simp only [lift_fin]))
  have hn := h.kernel.1
  constructor
  · refine .inl ⟨(z, V), fun b q => (_, _), ?_, ⟨hz1, hVh⟩, fun b hb => ?_⟩
    · simp only [TCondProcess.predictF, TKernel.projectState, TKernel.projectCovariance, hn, hH, hx', hf, hV, hw, hw', hz, Bind.bind, Except.bind]
      rfl
    · simp only [StackProcess.predictF, hy b hb, Bind.bind, Except.bind]
      rfl
  · refine .inl ⟨(z, v), fun b q => (_, _), ?_, ⟨hz1, hvh⟩, fun b hb => ?_⟩
    · simp only [TCondProcess.predictF, TKernel.projectState, TKernel.projectCovariance, hn, hH, hx', hf, hv, hw, hw', hz, Bind.bind, Except.bind]
      rfl
    · simp only [StackProcess.predictFDiag, hy b hb, Bind.bind, Except.bind]
      rfl

end MF
