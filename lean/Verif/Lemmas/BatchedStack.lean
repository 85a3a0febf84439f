import Verif.Lemmas.BatchedSampling
import Verif.Lemmas.BatchedVariational
import Verif.Lemmas.Transformations
import Verif.Spec.BatchedStack

/-!
# Stacks of kernels on tensors of any batch shape
-/

namespace MF
open Matrix Spec Tensor

variable {d n p R : ℕ} {u bs : List ℕ}

/-! ### `tf.stack`, padding and slicing -/

theorem index_times {t : Tensor} {f : List ℕ → Fin n → ℝ} (ht : HoldsTimes (R :: bs) t f) (r : Fin R) :
    HoldsTimes bs (index 1 r t) fun b => f ((r : ℕ) :: b) := by
  refine ⟨by simp [index, ht.1, removeAt], fun b hb q => ?_⟩
  simpa [index, insertAt] using ht.2 ((r : ℕ) :: b) ⟨r.2, hb⟩ q

theorem stack_mats {r c : ℕ} (hR : 0 < R) {xs : Fin R → Tensor} {A : List ℕ → Fin n → Mat r c}
    (h : ∀ k : Fin R, HoldsMats bs (xs k) fun b => A ((k : ℕ) :: b)) : ∃ z, stackT 3 xs = .ok z ∧ HoldsMats (R :: bs) z A := by
  refine ⟨_, by rw [stackT, dif_pos hR, if_pos ⟨fun k => by rw [(h k).1, (h ⟨0, hR⟩).1], by rw [(h ⟨0, hR⟩).1]; simp⟩], ?_, ?_⟩
  · simp [(h ⟨0, hR⟩).1, insertAt]
  · refine forall_inRange_cons.2 fun b hb k t i j => ?_
    simpa [removeAt] using (h k).2 b hb t i j

theorem stack_vecs (hR : 0 < R) {xs : Fin R → Tensor} {f : List ℕ → Fin n → Vec d}
    (h : ∀ k : Fin R, HoldsVecs bs (xs k) fun b => f ((k : ℕ) :: b)) : ∃ z, stackT 2 xs = .ok z ∧ HoldsVecs (R :: bs) z f := by
  refine ⟨_, by rw [stackT, dif_pos hR, if_pos ⟨fun k => by rw [(h k).1, (h ⟨0, hR⟩).1], by rw [(h ⟨0, hR⟩).1]; simp⟩], ?_, ?_⟩
  · simp [(h ⟨0, hR⟩).1, insertAt]
  · refine forall_inRange_cons.2 fun b hb k t i => ?_
    simpa [removeAt] using (h k).2 b hb t i

theorem stack_mat {r c : ℕ} (hR : 0 < R) {xs : Fin R → Tensor} {A : List ℕ → Mat r c}
    (h : ∀ k : Fin R, HoldsMat bs (xs k) fun b => A ((k : ℕ) :: b)) : ∃ z, stackT 2 xs = .ok z ∧ HoldsMat (R :: bs) z A := by
  refine ⟨_, by rw [stackT, dif_pos hR, if_pos ⟨fun k => by rw [(h k).1, (h ⟨0, hR⟩).1], by rw [(h ⟨0, hR⟩).1]; simp⟩], ?_, ?_⟩
  · simp [(h ⟨0, hR⟩).1, insertAt]
  · refine forall_inRange_cons.2 fun b hb k i j => ?_
    simpa [removeAt] using (h k).2 b hb i j

theorem augmentSquare_mat {x : Tensor} {A : List ℕ → Mat d d} (hx : HoldsMat u x A) (extra : ℕ) (fz : Bool) :
    ∃ z, tensorAugmentSquare x extra fz = .ok z ∧ HoldsMat u z fun b => augmentSquareMatrix (A b) extra fz := by
  have hd : x.shape.drop 2 = u := by rw [hx.1]; rfl
  have he := smul_mat (if fz then (0 : ℝ) else 1) (eye_mat extra u)
  obtain ⟨z, hz, hzh⟩ := blockDiag2_mat hx he.b2
  exact ⟨z, by rw [tensorAugmentSquare, hd]; exact hz, hzh⟩

theorem augmentMatrix_mat {r : ℕ} {x : Tensor} {A : List ℕ → Mat r d} (hx : HoldsMat u x A) (extra : ℕ) :
    ∃ z, tensorAugmentMatrix x extra = .ok z ∧ HoldsMat u z fun b => augmentMatrix (A b) extra := by
  have hd : x.shape.drop 1 = r :: u := by rw [hx.1]; rfl
  obtain ⟨z, hz, hzh⟩ := concat_cols hx (zeros_mat r extra u)
  exact ⟨z, by rw [tensorAugmentMatrix, hd]; exact hz, hzh⟩

theorem augmentMatrix_vec {x : Tensor} {f : List ℕ → Vec d} (hx : HoldsVec u x f) (extra : ℕ) :
    ∃ z, tensorAugmentMatrix x extra = .ok z ∧ HoldsVec u z fun b => augmentVec (f b) extra := by
  have hd : x.shape.drop 1 = u := by rw [hx.1]; rfl
  obtain ⟨z, hz, hzh⟩ := concat_vec hx (⟨rfl, fun _ _ _ => rfl⟩ : HoldsVec u (zeros (extra :: u)) fun _ => (0 : Vec extra))
  exact ⟨z, by rw [tensorAugmentMatrix, hd]; exact hz, hzh⟩

/-! ### The methods, child by child -/

section child
variable {K : TKernel} {k : Stationary 1 d} (h : HoldsKernel K k) {extra D : ℕ} (e : d + extra = D) (jitter : ℝ)
include h

theorem child_transitions {t δ : Tensor} {f g : List ℕ → Fin n → ℝ} (ht : HoldsTimes bs t f) (hδ : HoldsTimes bs δ g) :
    ∃ z, (do let a ← K.stateTransitions t δ; tensorAugmentSquare a extra true) = .ok z ∧
      HoldsMats bs z fun b i => (e ▸ stackSlice k extra jitter : Stationary 1 D).stateTransitions (f b i) (g b i) := by
  subst e
  obtain ⟨a, ha, hah⟩ := h.stateTransitions (n :: bs) _ _ _ _ (by simp) (holdsVec_iff.1 ht) (holdsVec_iff.1 hδ)
  obtain ⟨z, hz, hzh⟩ := augmentSquare_mat hah extra true
  refine ⟨z, by simp only [ha, Bind.bind, Except.bind, hz], holdsMats_iff.2 (hzh.congr (forall_inRange_cons.2 fun b _ t => ?_))⟩
  simp only [lift_fin]
  rfl

theorem child_offsets {t δ : Tensor} {f g : List ℕ → Fin n → ℝ} (ht : HoldsTimes bs t f) (hδ : HoldsTimes bs δ g) :
    ∃ z, (do let a ← K.stateOffsets t δ; tensorAugmentMatrix a extra) = .ok z ∧
      HoldsVecs bs z fun b i => (e ▸ stackSlice k extra jitter : Stationary 1 D).stateOffsets (f b i) (g b i) := by
  subst e
  obtain ⟨a, ha, hah⟩ := h.stateOffsets (n :: bs) _ _ _ _ (by simp) (holdsVec_iff.1 ht) (holdsVec_iff.1 hδ)
  obtain ⟨z, hz, hzh⟩ := augmentMatrix_vec hah extra
  refine ⟨z, by simp only [ha, Bind.bind, Except.bind, hz], holdsVecs_iff.2 (hzh.congr (forall_inRange_cons.2 fun b _ t => ?_))⟩
  simp only [lift_fin]
  rfl

theorem child_emission {t : Tensor} {f : List ℕ → Fin n → ℝ} (ht : HoldsTimes bs t f) :
    ∃ z, (do let a ← K.emission t; tensorAugmentMatrix a extra) = .ok z ∧
      HoldsMats bs z fun b i => (e ▸ stackSlice k extra jitter : Stationary 1 D).emission (f b i) := by
  subst e
  obtain ⟨a, ha, hah⟩ := h.emission (n :: bs) _ _ (by simp) (holdsVec_iff.1 ht)
  obtain ⟨z, hz, hzh⟩ := augmentMatrix_mat hah extra
  refine ⟨z, by simp only [ha, Bind.bind, Except.bind, hz], holdsMats_iff.2 (hzh.congr (forall_inRange_cons.2 fun b _ t => ?_))⟩
  simp only [lift_fin]
  rfl

theorem child_Pinf : ∃ z, (do let a ← K.Pinf; tensorAugmentSquare a extra) = .ok z ∧
    HoldsMat [] z fun _ => (e ▸ stackSlice k extra jitter : Stationary 1 D).Pinf := by
  subst e
  obtain ⟨a, ha, hah⟩ := h.Pinf
  obtain ⟨z, hz, hzh⟩ := augmentSquare_mat hah extra false
  exact ⟨z, by simp only [ha, Bind.bind, Except.bind, hz], hzh⟩

theorem child_feedback : ∃ z, (do let a ← K.feedback; tensorAugmentSquare a extra) = .ok z ∧
    HoldsMat [] z fun _ => (e ▸ stackSlice k extra jitter : Stationary 1 D).feedback := by
  subst e
  obtain ⟨a, ha, hah⟩ := h.feedback
  obtain ⟨z, hz, hzh⟩ := augmentSquare_mat hah extra false
  exact ⟨z, by simp only [ha, Bind.bind, Except.bind, hz], hzh⟩

end child

theorem slice_inherited {k : Stationary 1 d} {extra D : ℕ} (e : d + extra = D) (jitter : ℝ) :
    let s : Stationary 1 D := e ▸ stackSlice k extra jitter
    s.initialMean = 0 ∧ s.initialCovariance = s.Pinf + jitterMatrix D jitter ∧
      ∀ t δ, s.transitionNoise t δ = s.Pinf - s.stateTransitions t δ * s.Pinf * (s.stateTransitions t δ)ᵀ + jitterMatrix D jitter := by
  subst e
  exact ⟨rfl, rfl, fun _ _ => rfl⟩

/-! ### The stack -/

section stack
variable {Ks : Fin R → TKernel} {ks : StackKernel R} (h : ∀ r, HoldsKernel (Ks r) (ks.children r).2)
include h

theorem stackStateDim_eq : stackStateDim Ks = ks.stateDim := by
  unfold stackStateDim StackKernel.stateDim
  exact congrArg _ (funext fun r => (h r).stateDim)

theorem slice_dim (r : Fin R) : (ks.children r).1 + (stackStateDim Ks - (Ks r).stateDim) = ks.stateDim := by
  rw [stackStateDim_eq h, (h r).stateDim]
  exact Nat.add_sub_cancel' (ks.le_stateDim r)

theorem slice_eq (r : Fin R) : (slice_dim h r ▸ stackSlice (ks.children r).2 (stackStateDim Ks - (Ks r).stateDim) ks.jitter : Stationary 1 ks.stateDim) =
    ks.slice r := by
  unfold StackKernel.slice
  have : ∀ e₁ e₂ : ℕ, e₁ = e₂ → ∀ (h₁ : (ks.children r).1 + e₁ = ks.stateDim) (h₂ : (ks.children r).1 + e₂ = ks.stateDim),
      (h₁ ▸ stackSlice (ks.children r).2 e₁ ks.jitter : Stationary 1 ks.stateDim) = h₂ ▸ stackSlice (ks.children r).2 e₂ ks.jitter := by
    rintro _ _ rfl h₁ h₂
    rfl
  exact this _ _ (by rw [stackStateDim_eq h, (h r).stateDim]) _ _

theorem checkBatch_ok (bs : List ℕ) : checkBatchShape (some R) (R :: bs) = .ok () := by simp [checkBatchShape]

variable (hR : 0 < R) {k' : List ℕ → Stationary 1 ks.stateDim} (hk : AtKernel k' fun _ r => ks.slice r)
include hR hk

theorem stackTransitions_holds {t δ : Tensor} {f g : List ℕ → Fin n → ℝ} (ht : HoldsTimes (R :: bs) t f) (hδ : HoldsTimes (R :: bs) δ g) :
    ∃ z, stackTransitions Ks t δ = .ok z ∧ HoldsMats (R :: bs) z fun b i => (k' b).stateTransitions (f b i) (g b i) := by
  choose xs hx hxh using fun r => child_transitions (h r) (slice_dim h r) ks.jitter (index_times ht r) (index_times hδ r)
  obtain ⟨z, hz, hzh⟩ := stack_mats hR (A := fun b i => (k' b).stateTransitions (f b i) (g b i)) (xs := xs) fun r => (hxh r).congr fun b _ => by
    rw [slice_eq h r, hk b r]
  have hd : δ.shape.drop 1 = R :: bs := by rw [hδ.1]; rfl
  have hd2 : δ.shape.drop 2 = bs := by rw [hδ.1]; rfl
  have hd0 : δ.dim 0 = n := by simp [dim, hδ.1]
  have he : Shapes.assertEqual z.tfShape (bs.reverse ++ [R, n, stackStateDim Ks, stackStateDim Ks]) = .ok () := by
    rw [tfShape_eq hzh.1, stackStateDim_eq h]
    simp [assertEqual_self]
  refine ⟨z, ?_, hzh⟩
  simp only [stackTransitions, hd, checkBatch_ok h, seqFin_ok hx]
  simp only [hd, checkBatch_ok h, hz, hd2, hd0, he, Bind.bind, Except.bind]
  rfl

theorem stackOffsets_holds {t δ : Tensor} {f g : List ℕ → Fin n → ℝ} (ht : HoldsTimes (R :: bs) t f) (hδ : HoldsTimes (R :: bs) δ g) :
    ∃ z, stackOffsets Ks t δ = .ok z ∧ HoldsVecs (R :: bs) z fun b i => (k' b).stateOffsets (f b i) (g b i) := by
  choose xs hx hxh using fun r => child_offsets (h r) (slice_dim h r) ks.jitter (index_times ht r) (index_times hδ r)
  obtain ⟨z, hz, hzh⟩ := stack_vecs hR (f := fun b i => (k' b).stateOffsets (f b i) (g b i)) (xs := xs) fun r => (hxh r).congr fun b _ => by
    rw [slice_eq h r, hk b r]
  have hd : δ.shape.drop 1 = R :: bs := by rw [hδ.1]; rfl
  have hd2 : δ.shape.drop 2 = bs := by rw [hδ.1]; rfl
  have hd0 : δ.dim 0 = n := by simp [dim, hδ.1]
  have he : Shapes.assertEqual z.tfShape (bs.reverse ++ [R, n, stackStateDim Ks]) = .ok () := by
    rw [tfShape_eq hzh.1, stackStateDim_eq h]
    simp [assertEqual_self]
  refine ⟨z, ?_, hzh⟩
  simp only [stackOffsets, hd, checkBatch_ok h, seqFin_ok hx]
  simp only [hd, checkBatch_ok h, hz, hd2, hd0, he, Bind.bind, Except.bind]
  rfl

theorem stackEmission_holds {t : Tensor} {f : List ℕ → Fin n → ℝ} (ht : HoldsTimes (R :: bs) t f) :
    ∃ z, stackEmission Ks t = .ok z ∧ HoldsMats (R :: bs) z fun b i => (k' b).emission (f b i) := by
  choose xs hx hxh using fun r => child_emission (h r) (slice_dim h r) ks.jitter (index_times ht r)
  obtain ⟨z, hz, hzh⟩ := stack_mats hR (A := fun b i => (k' b).emission (f b i)) (xs := xs) fun r => (hxh r).congr fun b _ => by
    rw [slice_eq h r, hk b r]
  have hd : t.shape.drop 1 = R :: bs := by rw [ht.1]; rfl
  have he : Shapes.stackEmissionInit z.tfShape = .ok () := by
    rw [tfShape_eq hzh.1]
    simp [Shapes.stackEmissionInit, Shapes.emissionInit, Shapes.dimFromEnd, Shapes.check, Bind.bind, Except.bind]
  refine ⟨z, ?_, hzh⟩
  simp only [stackEmission, hd, checkBatch_ok h, seqFin_ok hx]
  simp only [hd, checkBatch_ok h, hz, he, Bind.bind, Except.bind]
  rfl

/-- The steady state covariances broadcast over the batch and the data. -/
theorem stackPinf_holds (n : ℕ) (bs : List ℕ) : ∃ z, stackPinf Ks = .ok z ∧ B2 (n :: R :: bs) z fun b => (k' b.tail).Pinf := by
  choose xs hx hxh using fun r => child_Pinf (h r) (slice_dim h r) ks.jitter
  obtain ⟨z, hz, hzh⟩ := stack_mat (bs := []) hR (A := fun b => (k' b).Pinf) (xs := xs) fun r => (hxh r).congr fun b _ => by
    rw [slice_eq h r, hk b r]
  have hzh' := expand_mat hzh
  have he : Shapes.assertEqual (expand 2 z).tfShape [R, 1, stackStateDim Ks, stackStateDim Ks] = .ok () := by
    rw [tfShape_eq hzh'.1, stackStateDim_eq h]
    simp [assertEqual_self]
  refine ⟨expand 2 z, ?_, [1, R], hzh'.1, ⟨.inr rfl, .inl rfl, trivial⟩, forall_inRange_cons.2 (forall_inRange_cons.2 fun b hb r q i j => ?_)⟩
  · simp only [stackPinf, seqFin_ok hx]
    simp only [hz, he, Bind.bind, Except.bind]
    rfl
  · have e1 : bidx [1, R] ((q : ℕ) :: (r : ℕ) :: b) = [0, (r : ℕ)] := by
      simp only [bidx, if_true, List.cons.injEq, true_and, and_true]
      split_ifs <;> omega
    beta_reduce
    rw [e1, List.tail_cons, hk b r, ← hk [] r]
    exact hzh'.2 [(r : ℕ)] ⟨r.2, trivial⟩ 0 i j

end stack

theorem stackKernel_holds (hR : 0 < R) {Ks : Fin R → TKernel} {ks : StackKernel R} (h : ∀ r, HoldsKernel (Ks r) (ks.children r).2) :
    HoldsStackKernel (stackTKernel Ks ks.jitter) ks := by
  refine ⟨rfl, fun bs k' hk => ⟨?_, fun t f ht => ?_, fun n t δ f g ht hδ => ?_, fun n t δ f g ht hδ => stackOffsets_holds h hR hk ht hδ,
    fun n t f ht => stackEmission_holds h hR hk ht⟩⟩
  · obtain ⟨z, hz, hzh⟩ := broadcastTo_vec (zeros_vec ks.stateDim) (R :: bs)
    refine ⟨z, ?_, hzh.congr ?_⟩
    · simp only [stackTKernel, checkBatch_ok h, stackStateDim_eq h, tensorInitialMean, Bind.bind, Except.bind]
      exact hz
    · refine forall_inRange_cons.2 fun b _ r => ?_
      rw [show k' ((r : ℕ) :: b) = ks.slice r from hk b r, ← slice_eq h r]
      exact (slice_inherited (slice_dim h r) ks.jitter).1.symm
  · obtain ⟨P, hP, hPh⟩ := stackPinf_holds h hR hk 1 bs
    obtain ⟨z, hz, hzh⟩ := times_mat' hPh (ones_mat ks.stateDim ks.stateDim (1 :: R :: bs))
    have hi : HoldsMat (R :: bs) (index 2 0 z) fun b => (k' b).Pinf := by
      have hm : HoldsMats (n := 1) (R :: bs) z fun b _ => (k' b).Pinf := holdsMats_iff.2 (hzh.congr (forall_inRange_cons.2 fun b _ t => by
        rw [lift_fin]
        ext i j
        simp))
      exact index_mats hm 0
    obtain ⟨w, hw, hwh⟩ := plus_mat hi ((jitterMatrix_mat ks.stateDim ks.jitter).const (R :: bs))
    have h1 : ¬ t.dim 0 ≠ 1 := by simp [dim, ht.1]
    refine ⟨w, ?_, hwh.congr (forall_inRange_cons.2 fun b _ r => ?_)⟩
    · rw [TKernel.initialCovariance, if_neg h1, ht.1]
      simp only [stackTKernel, List.drop_succ_cons, List.drop_zero, checkBatch_ok h, hP, stackStateDim_eq h, hz, hw, Bind.bind, Except.bind, Pure.pure, Except.pure]
    · rw [show k' ((r : ℕ) :: b) = ks.slice r from hk b r, ← slice_eq h r, (slice_inherited (slice_dim h r) ks.jitter).2.1]
  · obtain ⟨a, ha, hah⟩ := stackTransitions_holds h hR hk ht hδ
    obtain ⟨P, hP, hPh⟩ := stackPinf_holds h hR hk n bs
    have ham := holdsMats_iff.1 hah
    obtain ⟨x, hx, hxh⟩ := matmul_left ham hPh
    obtain ⟨y, hy, hyh⟩ := matmul_mat hxh (matT_mat ham)
    obtain ⟨z, hz, hzh⟩ := minus_mat' hPh hyh
    obtain ⟨w, hw, hwh⟩ := plus_mat hzh ((jitterMatrix_mat ks.stateDim ks.jitter).const (n :: R :: bs))
    refine ⟨a, w, ?_, hah, holdsMats_iff.2 (hwh.congr (forall_inRange_cons.2 (forall_inRange_cons.2 fun b hb r i => ?_)))⟩
    · simp only [stackTKernel, tensorTransitionStatistics, stackStateDim_eq h, ha, hP, hx, hy, hz, hw, Bind.bind, Except.bind]
      rfl
    · simp only [lift_fin, List.tail_cons]
      rw [show k' ((r : ℕ) :: b) = ks.slice r from hk b r, ← slice_eq h r, (slice_inherited (slice_dim h r) ks.jitter).2.2]

/-- The entries of a padded square matrix. -/
theorem augmentSquare_entry {d e : ℕ} (M : Mat d d) (i j : Fin (d + e)) : augmentSquareMatrix M e false i j =
    if h : (i : ℕ) < d ∧ (j : ℕ) < d then M ⟨i, h.1⟩ ⟨j, h.2⟩ else if (i : ℕ) = j then 1 else 0 := by
  unfold augmentSquareMatrix
  rw [submatrix_apply]
  refine Fin.addCases (fun a => ?_) (fun a => ?_) i <;> refine Fin.addCases (fun b => ?_) (fun b => ?_) j
  · rw [finSumFinEquiv_symm_apply_castAdd, finSumFinEquiv_symm_apply_castAdd, fromBlocks_apply₁₁, dif_pos ⟨a.2, b.2⟩]
    rfl
  · rw [finSumFinEquiv_symm_apply_castAdd, finSumFinEquiv_symm_apply_natAdd, fromBlocks_apply₁₂, dif_neg (by simp), if_neg (by simp; omega)]
    rfl
  · rw [finSumFinEquiv_symm_apply_castAdd, finSumFinEquiv_symm_apply_natAdd, fromBlocks_apply₂₁, dif_neg (by simp), if_neg (by simp; omega)]
    rfl
  · rw [finSumFinEquiv_symm_apply_natAdd, finSumFinEquiv_symm_apply_natAdd, fromBlocks_apply₂₂, dif_neg (by simp)]
    by_cases h : a = b
    · subst h; simp
    · have h' : ¬ (a : ℕ) = b := fun e => h (Fin.ext e)
      rw [if_neg (by simpa using h')]
      simp [h, h']

theorem slice_consts {d e D : ℕ} (k : Stationary 1 d) (he : d + e = D) (jitter : ℝ) (i j : Fin D) :
    (he ▸ stackSlice k e jitter : Stationary 1 D).feedback i j =
      (if h : (i : ℕ) < d ∧ (j : ℕ) < d then k.feedback ⟨i, h.1⟩ ⟨j, h.2⟩ else if (i : ℕ) = j then 1 else 0) ∧
    (he ▸ stackSlice k e jitter : Stationary 1 D).Pinf i j =
      if h : (i : ℕ) < d ∧ (j : ℕ) < d then k.Pinf ⟨i, h.1⟩ ⟨j, h.2⟩ else if (i : ℕ) = j then 1 else 0 := by
  subst he
  exact ⟨augmentSquare_entry _ i j, augmentSquare_entry _ i j⟩

/-- The tensors of constants of a stack. -/
theorem stackConstants_holds (hR : 0 < R) {Ks : Fin R → TKernel} {ks : StackKernel R} (h : ∀ r, HoldsKernel (Ks r) (ks.children r).2) :
    ∃ F P, stackFeedback Ks = .ok F ∧ stackPinf Ks = .ok P ∧ F.shape = [ks.stateDim, ks.stateDim, R] ∧ P.shape = [ks.stateDim, ks.stateDim, 1, R] ∧
      ∀ (r : Fin R) (i j : Fin ks.stateDim), F.val [(j : ℕ), (i : ℕ), (r : ℕ)] = (ks.slice r).feedback i j ∧
        P.val [(j : ℕ), (i : ℕ), 0, (r : ℕ)] = (ks.slice r).Pinf i j := by
  obtain ⟨k', hk⟩ : ∃ k' : List ℕ → Stationary 1 ks.stateDim, AtKernel k' fun _ r => ks.slice r :=
    ⟨fun b => if hb : b.headD 0 < R then ks.slice ⟨b.headD 0, hb⟩ else ks.slice ⟨0, hR⟩, fun b r => by
      beta_reduce; rw [dif_pos (show ((r : ℕ) :: b).headD 0 < R from r.2)]; rfl⟩
  choose fs hf hfh using fun r => child_feedback (h r) (slice_dim h r) ks.jitter
  choose xs hx hxh using fun r => child_Pinf (h r) (slice_dim h r) ks.jitter
  obtain ⟨F, hF, hFh⟩ := stack_mat (bs := []) hR (A := fun b => (k' b).feedback) (xs := fs) fun r => (hfh r).congr fun b _ => by
    rw [slice_eq h r, hk b r]
  obtain ⟨z, hz, hzh⟩ := stack_mat (bs := []) hR (A := fun b => (k' b).Pinf) (xs := xs) fun r => (hxh r).congr fun b _ => by
    rw [slice_eq h r, hk b r]
  have hzh' := expand_mat hzh
  have he : Shapes.assertEqual (expand 2 z).tfShape [R, 1, stackStateDim Ks, stackStateDim Ks] = .ok () := by
    rw [tfShape_eq hzh'.1, stackStateDim_eq h]
    simp [assertEqual_self]
  have he' : Shapes.assertEqual F.tfShape [R, stackStateDim Ks, stackStateDim Ks] = .ok () := by
    rw [tfShape_eq hFh.1, stackStateDim_eq h]
    simp [assertEqual_self]
  refine ⟨F, expand 2 z, ?_, ?_, hFh.1, hzh'.1, fun r i j => ⟨?_, ?_⟩⟩
  · simp only [stackFeedback, seqFin_ok hf]
    simp only [hF, he', Bind.bind, Except.bind]
    rfl
  · simp only [stackPinf, seqFin_ok hx]
    simp only [hz, he, Bind.bind, Except.bind]
    rfl
  · have := hFh.2 [(r : ℕ)] ⟨r.2, trivial⟩ i j
    beta_reduce at this
    rw [this, hk [] r]
  · have := hzh'.2 [(r : ℕ)] ⟨r.2, trivial⟩ 0 i j
    beta_reduce at this
    rw [show k' [(r : ℕ)] = ks.slice r from hk [] r] at this
    exact this

end MF
