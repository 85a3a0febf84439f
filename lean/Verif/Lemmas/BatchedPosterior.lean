import Verif.Lemmas.BatchedCombos

/-!
# State space models of kernels, conditionals, posterior processes and GP regression on tensors of any batch shape
-/

namespace MF
open Matrix Spec Tensor

variable {n o d p : ℕ} {u bs : List ℕ}

/-! ### `state_space_model` -/

theorem sliceDrop_vec {x} {f : List ℕ → Vec (n + 1)} (hx : HoldsVec u x f) : HoldsVec u (sliceDrop 0 1 x) fun b (k : Fin n) => f b k.castSucc := by
  refine ⟨by simp [sliceDrop, hx.1, modifyAt], fun b hb t => ?_⟩
  exact hx.2 b hb t.castSucc

theorem sliceFrom_vec {x} {f : List ℕ → Vec (n + 1)} (hx : HoldsVec u x f) : HoldsVec u (sliceFrom 0 1 x) fun b (k : Fin n) => f b k.succ := by
  refine ⟨by simp [sliceFrom, hx.1, modifyAt], fun b hb t => ?_⟩
  exact hx.2 b hb t.succ

theorem sliceTo_vec {x} {f : List ℕ → Vec (n + 1)} (hx : HoldsVec u x f) : HoldsVec u (sliceTo 0 1 x) fun b (_ : Fin 1) => f b 0 := by
  refine ⟨by simp [sliceTo, hx.1, modifyAt], fun b hb t => ?_⟩
  have := hx.2 b hb 0
  rw [Subsingleton.elim t 0]
  simpa [sliceTo] using this

theorem toDelta_holds {t : Tensor} {ts : List ℕ → Fin (n + 1) → ℝ} (ht : HoldsTimes bs t ts) :
    Elementwise bs (fun δ (δ' : List ℕ → Fin n → ℝ) => HoldsVec bs δ δ') (tensorToDeltaTime t) fun b => toDeltaTime (ts b) := by
  obtain ⟨z, hz, hzh⟩ := minus_vec (sliceFrom_vec ht) (sliceDrop_vec ht).b1
  have key : (∀ i, InRange i z.shape → 0 ≤ z.val i) ↔ ∀ b, InRange b bs → ∀ k : Fin n, 0 ≤ ts b k.succ - ts b k.castSucc := by
    rw [hzh.1, forall_inRange_cons]
    exact forall₂_congr fun b hb => forall_congr' fun k => by rw [hzh.2 b hb]; rfl
  by_cases h : ∀ i, InRange i z.shape → 0 ≤ z.val i
  · refine .inl ⟨z, fun b k => ts b k.succ - ts b k.castSucc, ?_, hzh, fun b hb => ?_⟩
    · simp only [tensorToDeltaTime, hz, Bind.bind, Except.bind, if_pos h]
      rfl
    · exact if_pos (key.1 h b hb)
  · refine .inr ⟨.invalidArgument, ?_, ?_⟩
    · simp only [tensorToDeltaTime, hz, Bind.bind, Except.bind, if_neg h]
    · rw [key] at h
      push Not at h
      obtain ⟨b, hb, k, hk⟩ := h
      exact ⟨b, hb, if_neg fun h => absurd (h k) (not_le.2 hk)⟩

theorem toDelta_error {ts : Fin (n + 1) → ℝ} {e : Err} (h : toDeltaTime ts = .error e) (k : Stationary o d) : k.stateSpaceModel ts = .error e := by
  simp only [Stationary.stateSpaceModel, h, Bind.bind, Except.bind]

theorem kernelInitialCov_holds {K : TKernel} {k : Stationary o d} (h : HoldsKernel K k) {t : Tensor} {f : List ℕ → Vec 1} (ht : HoldsVec bs t f) :
    ∃ P, K.initialCovariance t = .ok P ∧ HoldsMat bs P fun _ => k.initialCovariance := by
  have h1 : ¬ t.dim 0 ≠ 1 := by simp [dim, ht.1]
  obtain ⟨P, hP, hPh⟩ := h.Pinf
  obtain ⟨z, hz, hzh⟩ := times_mat' (hPh.const (1 :: bs)) (ones_mat d d (1 :: bs))
  have hi : HoldsMat bs (index 2 0 z) fun _ => k.Pinf := by
    have hm : HoldsMats (n := 1) bs z fun _ _ => k.Pinf := holdsMats_iff.2 (hzh.congr (forall_inRange_cons.2 fun b _ t => by
      rw [lift_fin]
      ext i j
      simp))
    exact index_mats hm 0
  obtain ⟨w, hw, hwh⟩ := plus_mat hi ((jitterMatrix_mat d k.jitter).const bs)
  refine ⟨w, ?_, hwh⟩
  rw [TKernel.initialCovariance, if_neg h1, hP, h.stateDim, h.jitter, h.numKernels, ht.1]
  simp only [checkBatchShape, hz, hw, Bind.bind, Except.bind, Pure.pure, Except.pure]

/-- An ordinary kernel is the same kernel at every batch index. -/
theorem Spec.HoldsKernel.on {K : TKernel} {k : Stationary o d} (h : HoldsKernel K k) (bs : List ℕ) : HoldsKernelOn bs K fun _ => k where
  initialMean := h.initialMean bs
  initialCovariance _ _ ht := kernelInitialCov_holds h ht
  transitionStatistics n t δ f g ht hδ := by
    obtain ⟨A, Q, hAQ, hA, hQ⟩ := h.transitionStatistics (n :: bs) _ _ _ _ (by simp) (holdsVec_iff.1 ht) (holdsVec_iff.1 hδ)
    exact ⟨A, Q, hAQ, holdsMats_iff.2 (hA.congr (forall_inRange_cons.2 fun b _ t => by simp only [lift_fin])),
      holdsMats_iff.2 (hQ.congr (forall_inRange_cons.2 fun b _ t => by simp only [lift_fin]))⟩
  stateOffsets n t δ f g ht hδ := by
    obtain ⟨c, hc, hch⟩ := h.stateOffsets (n :: bs) _ _ _ _ (by simp) (holdsVec_iff.1 ht) (holdsVec_iff.1 hδ)
    exact ⟨c, hc, holdsVecs_iff.2 (hch.congr (forall_inRange_cons.2 fun b _ t => by simp only [lift_fin]))⟩
  emission n t f ht := by
    obtain ⟨H, hH, hHh⟩ := h.emission (n :: bs) t _ (by simp) (holdsVec_iff.1 ht)
    exact ⟨H, hH, holdsMats_iff.2 (hHh.congr (forall_inRange_cons.2 fun b _ q => by simp only [lift_fin]))⟩

theorem Spec.HoldsKernelOn.congr {K : TKernel} {k k' : List ℕ → Stationary o d} (h : HoldsKernelOn bs K k) (hk : ∀ b, InRange b bs → k b = k' b) :
    HoldsKernelOn bs K k' where
  initialMean := by
    obtain ⟨m, h1, h2⟩ := h.initialMean
    exact ⟨m, h1, h2.congr fun b hb => by rw [hk b hb]⟩
  initialCovariance t f ht := by
    obtain ⟨m, h1, h2⟩ := h.initialCovariance t f ht
    exact ⟨m, h1, h2.congr fun b hb => by rw [hk b hb]⟩
  transitionStatistics n t δ f g ht hδ := by
    obtain ⟨A, Q, h1, h2, h3⟩ := h.transitionStatistics n t δ f g ht hδ
    exact ⟨A, Q, h1, h2.congr fun b hb => by rw [hk b hb], h3.congr fun b hb => by rw [hk b hb]⟩
  stateOffsets n t δ f g ht hδ := by
    obtain ⟨m, h1, h2⟩ := h.stateOffsets n t δ f g ht hδ
    exact ⟨m, h1, h2.congr fun b hb => by rw [hk b hb]⟩
  emission n t f ht := by
    obtain ⟨m, h1, h2⟩ := h.emission n t f ht
    exact ⟨m, h1, h2.congr fun b hb => by rw [hk b hb]⟩

theorem kernel_plain {K : TKernel} {k : List ℕ → Stationary o d} (h : ∃ k', HoldsKernel K k' ∧ ∀ b, InRange b bs → k b = k') : K.numKernels = none :=
  h.elim fun _ h => h.1.numKernels

theorem kernelOn_of {K : TKernel} {k : List ℕ → Stationary o d} (h : ∃ k', HoldsKernel K k' ∧ ∀ b, InRange b bs → k b = k') :
    HoldsKernelOn bs K k := by
  obtain ⟨k', h1, h2⟩ := h
  exact (h1.on bs).congr fun b hb => (h2 b hb).symm

theorem Spec.HoldsMean.on {M : Tensor → Except Err Tensor} {m : ℝ → Vec o} (h : HoldsMean M m) (bs : List ℕ) : HoldsMeanOn bs M fun _ => m :=
  fun n t f ht => by
    obtain ⟨y, k, h1, h2, h3, h4⟩ := h (n :: bs) t _ (by simp) (holdsVec_iff.1 ht)
    refine ⟨y, k, h1, h2, h3, fun b hb q i => ?_⟩
    rw [h4 ((q : ℕ) :: b) ⟨q.2, hb⟩ i, lift_fin]

theorem meanOn_of {M : Tensor → Except Err Tensor} {m : List ℕ → ℝ → Vec o} (h : ∃ m', HoldsMean M m' ∧ ∀ b, InRange b bs → m b = m') :
    HoldsMeanOn bs M m := by
  obtain ⟨m', h1, h2⟩ := h
  intro n t f ht
  obtain ⟨y, k, h3, h4, h5, h6⟩ := h1.on bs n t f ht
  exact ⟨y, k, h3, h4, h5, fun b hb q i => by rw [h6 b hb q i, h2 b hb]⟩

/-- `state_space_model` per batch element. -/
theorem stateSpaceModel_holds (hbs : ∀ k ∈ bs, 0 < k) {K : TKernel} {k : List ℕ → Stationary o d} (h : HoldsKernelOn bs K k) {t : Tensor}
    {ts : List ℕ → Fin (n + 1) → ℝ} (ht : HoldsTimes bs t ts) :
    Elementwise bs (HoldsSSM bs) (K.stateSpaceModel t) fun b => (k b).stateSpaceModel (ts b) := by
  rcases toDelta_holds ht with ⟨δ, δ', hδ, hδh, hδ'⟩ | ⟨e, hδ, b, hb, he⟩
  swap
  · refine .inr ⟨e, ?_, b, hb, toDelta_error he (k b)⟩
    simp only [TKernel.stateSpaceModel, TKernel.transitionStatisticsFromTimePoints, hδ, Bind.bind, Except.bind]
  beta_reduce at hδ'
  have hs := sliceDrop_vec ht
  obtain ⟨A, Q, hAQ, hA, hQ⟩ := h.transitionStatistics _ _ _ _ _ hs hδh
  obtain ⟨m0, hm0, hm⟩ := h.initialMean
  obtain ⟨P0, hP0, hP⟩ := h.initialCovariance _ _ (sliceTo_vec ht)
  obtain ⟨c, hc, hch⟩ := h.stateOffsets _ _ _ _ _ hs hδh
  have e : K.stateSpaceModel t = tensorSSMFromCovariances m0 P0 A c Q := by
    have hb : t.shape.drop 1 = bs := by rw [ht.1]; rfl
    simp only [TKernel.stateSpaceModel, TKernel.transitionStatisticsFromTimePoints, hδ, hAQ, hb, hm0, hP0, hc, Bind.bind, Except.bind]
  rw [e]
  refine (fromCovariances_holds (n := n) hbs hm hP hA hch hQ).congr fun b hb => ?_
  simp only [Stationary.stateSpaceModel, hδ' b hb, Bind.bind, Except.bind]

/-! ### Conditional statistics -/

instance : Zero (CondStats d) := ⟨⟨0, 0, 0⟩⟩

/-- The three outputs of `_conditional_statistics_from_transitions` -/
def HoldsCond (u : List ℕ) (x : Tensor × Tensor × Tensor) (y : List ℕ → CondStats d) : Prop :=
  HoldsMat u x.1 (fun b => (y b).D) ∧ HoldsMat u x.2.1 (fun b => (y b).E) ∧ HoldsMat u x.2.2 fun b => (y b).T

theorem onlyInvalid_condStats (A Q A' Q' : Mat d d) : OnlyInvalid (condStatsFromTransitions A Q A' Q') :=
  onlyInvalid_bind (onlyInvalid_cholesky _) fun _ => onlyInvalid_ok _

theorem triSolve_mat {c : ℕ} {x y} {L : List ℕ → Mat d d} {B : List ℕ → Mat d c} (hx : HoldsMat u x L) (hy : HoldsMat u y B) (adj : Bool) :
    ∃ z, triSolveT x y adj = .ok z ∧ HoldsMat u z fun b => triSolve (L b) (B b) adj :=
  solveWith_one (fun C R => triSolve C R adj) hx.b2 hy.b2 (.inl hx.1)

theorem condStats_holds {A Q A' Q' : Tensor} {a q a' q' : List ℕ → Mat d d} (hA : HoldsMat u A a) (hQ : HoldsMat u Q q) (hA' : HoldsMat u A' a')
    (hQ' : HoldsMat u Q' q') : Elementwise u (HoldsCond u) (tensorCondStatsFromTransitions A Q A' Q') fun b =>
      condStatsFromTransitions (a b) (q b) (a' b) (q' b) := by
  obtain ⟨x1, h1, g1⟩ := matmul_mat hA' hQ
  obtain ⟨x2, h2, g2⟩ := matmul_mat hA' (matT_mat g1)
  obtain ⟨x3, h3, g3⟩ := plus_mat hQ' g2.b2
  rcases cholesky_mat g3 with ⟨L, l, hL, hLh, hl⟩ | ⟨e, hL, b, hb, hl⟩
  swap
  · refine .inr ⟨e, ?_, b, hb, ?_⟩
    · simp only [tensorCondStatsFromTransitions, h1, h2, h3, hL, Bind.bind, Except.bind]
    · beta_reduce at hl
      simp only [condStatsFromTransitions, hl, Bind.bind, Except.bind]
  beta_reduce at hl
  obtain ⟨V, hV, gV⟩ := triSolve_mat hLh g1 false
  obtain ⟨W, hW, gW⟩ := triSolve_mat hLh gV true
  have gE := matT_mat gW
  obtain ⟨x4, h4, g4⟩ := matmul_mat gE hA'
  obtain ⟨x5, h5, g5⟩ := matmul_mat g4 hA
  obtain ⟨D, hD, gD⟩ := minus_mat hA g5.b2
  obtain ⟨x6, h6, g6⟩ := matmul_mat (matT_mat gV) gV
  obtain ⟨T, hT, gT⟩ := minus_mat hQ g6.b2
  refine .inl ⟨(D, W.matT, T), fun b => ⟨_, _, _⟩, ?_, ⟨gD, gE, gT⟩, fun b hb => ?_⟩
  · simp only [tensorCondStatsFromTransitions, h1, h2, h3, hL, hV, hW, h4, h5, hD, h6, hT, Bind.bind, Except.bind]
    rfl
  · simp only [condStatsFromTransitions, hl b hb, Bind.bind, Except.bind]
    rfl

/-! ### Gathering -/

/-- Integers, one per batch index and new time point. -/
def HoldsIdx {N : ℕ} (bs : List ℕ) (x : ITensor) (f : List ℕ → Fin p → Fin N) : Prop :=
  x.shape = p :: bs ∧ ∀ b, InRange b bs → ∀ q : Fin p, x.val ((q : ℕ) :: b) = f b q

theorem searchsorted_holds {t s : Tensor} {ts : List ℕ → Fin n → ℝ} {ss : List ℕ → Fin p → ℝ} (ht : HoldsVec bs t ts) (hs : HoldsVec bs s ss) :
    ∃ i, searchsortedT t s = .ok i ∧ HoldsIdx bs i fun b q => searchsortedLeft (ts b) (ss b q) := by
  refine ⟨_, by simp only [searchsortedT, ht.1, hs.1, if_true]; rfl, rfl, fun b hb q => ?_⟩
  dsimp only
  rw [hs.2 b hb, show (fun k : Fin n => t.val ((k : ℕ) :: b)) = ts b from funext fun k => ht.2 b hb k]

theorem gather_shape {N : ℕ} {x : Tensor} {i : ITensor} {a : List ℕ} {f : List ℕ → Fin p → Fin N} (hx : x.shape = a ++ N :: bs) (hi : HoldsIdx bs i f) :
    ∃ z, gather bs.length x i = .ok z ∧ z.shape = a ++ p :: bs ∧
      ∀ (b c : List ℕ), InRange b bs → c.length = a.length → ∀ q : Fin p, z.val (c ++ (q : ℕ) :: b) = x.val (c ++ (f b q : ℕ) :: b) := by
  have hk : x.shape.length - 1 - bs.length = a.length := by
    rw [hx]
    simp
  have hd : x.shape.drop a.length = N :: bs := by rw [hx]; simp
  have hc : bs = bs ∧ bs.length = bs.length ∧ ∀ j, InRange j (p :: bs) → i.val j < N := ⟨rfl, rfl, forall_inRange_cons.2 fun b hb q => by
    rw [hi.2 b hb]
    exact (f b q).2⟩
  refine ⟨_, by simp only [gather, hk, hd, hi.1, if_pos hc]; rfl, ?_, fun b c hb hcl q => ?_⟩
  · rw [hx]
    simp
  · dsimp only
    rw [← hcl]
    simp [hi.2 b hb q]

theorem gather_vec {N : ℕ} {x : Tensor} {i : ITensor} {v : List ℕ → Vec N} {f : List ℕ → Fin p → Fin N} (hx : HoldsVec bs x v) (hi : HoldsIdx bs i f) :
    ∃ z, gather bs.length x i = .ok z ∧ HoldsVec bs z fun b q => v b (f b q) := by
  obtain ⟨z, hz, hs, hv⟩ := gather_shape (a := []) hx.1 hi
  exact ⟨z, hz, hs, fun b hb q => (hv b [] hb rfl q).trans (hx.2 b hb _)⟩

theorem gather_vecs {N : ℕ} {x : Tensor} {i : ITensor} {v : List ℕ → Fin N → Vec d} {f : List ℕ → Fin p → Fin N} (hx : HoldsVecs bs x v) (hi : HoldsIdx bs i f) :
    ∃ z, gather bs.length x i = .ok z ∧ HoldsVecs bs z fun b q => v b (f b q) := by
  obtain ⟨z, hz, hs, hv⟩ := gather_shape (a := [d]) hx.1 hi
  exact ⟨z, hz, hs, fun b hb q j => (hv b [(j : ℕ)] hb rfl q).trans (hx.2 b hb _ j)⟩

theorem gather_mats {N r c : ℕ} {x : Tensor} {i : ITensor} {v : List ℕ → Fin N → Mat r c} {f : List ℕ → Fin p → Fin N} (hx : HoldsMats bs x v) (hi : HoldsIdx bs i f) :
    ∃ z, gather bs.length x i = .ok z ∧ HoldsMats bs z fun b q => v b (f b q) := by
  obtain ⟨z, hz, hs, hv⟩ := gather_shape (a := [c, r]) hx.1 hi
  exact ⟨z, hz, hs, fun b hb q j k => (hv b [(k : ℕ), (j : ℕ)] hb rfl q).trans (hx.2 b hb _ j k)⟩

theorem Fin.snoc_eq_sum {α : Type*} (f : Fin n → α) (a : α) :
    (Fin.snoc (α := fun _ => α) f a : Fin (n + 1) → α) = Sum.elim f (fun _ : Fin 1 => a) ∘ finSumFinEquiv.symm := by
  funext i
  refine Fin.addCases (fun i => ?_) (fun i => ?_) i
  · simp only [Function.comp, finSumFinEquiv_symm_apply_castAdd, Sum.elim_inl]
    exact Fin.snoc_castSucc (α := fun _ => α) a f i
  · simp only [Function.comp, finSumFinEquiv_symm_apply_natAdd, Sum.elim_inr]
    rw [Subsingleton.elim i 0]
    exact Fin.snoc_last (α := fun _ => α) a f

theorem snoc_vec {x y} {f : List ℕ → Vec n} {g : List ℕ → Vec 1} (hx : HoldsVec u x f) (hy : HoldsVec u y g) :
    ∃ z, concat 0 x y = .ok z ∧ HoldsVec u z fun b => (Fin.snoc (α := fun _ => ℝ) (f b) (g b 0) : Fin (n + 1) → ℝ) := by
  obtain ⟨z, hz, hzh⟩ := concat_vec hx hy
  refine ⟨z, hz, hzh.congr fun b _ => ?_⟩
  rw [Fin.snoc_eq_sum, show (fun _ : Fin 1 => g b 0) = g b from funext fun i => by rw [Subsingleton.elim i 0]]

theorem augmented_holds (inf : ℝ) {t : Tensor} {ts : List ℕ → Fin (n + 1) → ℝ} (ht : HoldsTimes bs t ts) :
    ∃ tail z, concat 0 t ((ones (sliceFrom 0 (t.dim 0 - 1) t).shape).map (inf * ·)) = .ok tail ∧
      concat 0 (((ones (sliceFrom 0 (t.dim 0 - 1) t).shape).map (inf * ·)).map (-·)) tail = .ok z ∧
      HoldsVec bs z fun b => augmentedTimes inf (ts b) := by
  have hi : HoldsVec (d := 1) bs ((ones (sliceFrom 0 (t.dim 0 - 1) t).shape).map (inf * ·)) fun _ _ => inf := by
    refine ⟨?_, fun b _ _ => by simp [Tensor.map, ones]⟩
    simp [Tensor.map, ones, sliceFrom, dim, ht.1, modifyAt]
  obtain ⟨tail, h1, g1⟩ := snoc_vec ht hi
  obtain ⟨z, h2, g2⟩ := cons_vec (map_vec (-·) hi) g1
  exact ⟨tail, z, h1, h2, g2⟩

theorem HoldsIdx.succ {N : ℕ} {i : ITensor} {f : List ℕ → Fin p → Fin N} (h : HoldsIdx bs i f) : HoldsIdx bs (i.add 1) fun b q => (f b q).succ :=
  ⟨h.1, fun b hb q => by simp [ITensor.add, h.2 b hb q]⟩

theorem HoldsIdx.castSucc {N : ℕ} {i : ITensor} {f : List ℕ → Fin p → Fin N} (h : HoldsIdx bs i f) : HoldsIdx bs i fun b q => (f b q).castSucc :=
  ⟨h.1, fun b hb q => by simp [h.2 b hb q]⟩

/-- The outputs of `_conditional_statistics` per batch element -/
def HoldsCondAux (bs : List ℕ) (x : Tensor × Tensor × ITensor)
    (y : List ℕ → (Fin p → Matrix (Fin d) (Fin d ⊕ Fin d) ℝ) × (Fin p → Mat d d) × (Fin p → Fin (n + 2))) : Prop :=
  HoldsMats bs x.1 (fun b q => pairCols ((y b).1 q)) ∧ HoldsMats bs x.2.1 (fun b => (y b).2.1) ∧ HoldsIdx bs x.2.2 fun b => (y b).2.2

theorem conditionalStatisticsAux_holds (inf : ℝ) {K : TKernel} {k : List ℕ → Stationary o d} (h : HoldsKernelOn bs K k) {new t : Tensor}
    {ss : List ℕ → Fin p → ℝ} {ts : List ℕ → Fin (n + 1) → ℝ} (hs : HoldsTimes bs new ss) (ht : HoldsTimes bs t ts) :
    Elementwise bs (HoldsCondAux bs) (tensorConditionalStatisticsAux inf new t K) fun b => conditionalStatisticsAux inf (ss b) (ts b) (k b).trans := by
  obtain ⟨i, hi, hih⟩ := searchsorted_holds ht hs
  obtain ⟨tail, aug, h1, h2, haug⟩ := augmented_holds inf ht
  obtain ⟨pl, hpl, hplh⟩ := gather_vec haug hih.succ
  obtain ⟨mi, hmi, hmih⟩ := gather_vec haug hih.castSucc
  obtain ⟨dmt, hdmt, hdmth⟩ := minus_vec hs hmih.b1
  obtain ⟨dtp, hdtp, hdtph⟩ := minus_vec hplh hs.b1
  obtain ⟨A, Q, hAQ, hA, hQ⟩ := h.transitionStatistics _ _ _ _ _ hmih hdmth
  obtain ⟨A', Q', hAQ', hA', hQ'⟩ := h.transitionStatistics _ _ _ _ _ hs hdtph
  have hl : (new.shape.drop 1).length = bs.length := by rw [hs.1]; rfl
  have hst := (condStats_holds (holdsMats_iff.1 hA) (holdsMats_iff.1 hQ) (holdsMats_iff.1 hA') (holdsMats_iff.1 hQ')).seq
    (Y := fun b q => condStatsFromTransitions
      ((k b).trans (augmentedTimes inf (ts b) (searchsortedLeft (ts b) (ss b q)).castSucc)
        (ss b q - augmentedTimes inf (ts b) (searchsortedLeft (ts b) (ss b q)).castSucc)).1
      ((k b).trans (augmentedTimes inf (ts b) (searchsortedLeft (ts b) (ss b q)).castSucc)
        (ss b q - augmentedTimes inf (ts b) (searchsortedLeft (ts b) (ss b q)).castSucc)).2
      ((k b).trans (ss b q) (augmentedTimes inf (ts b) (searchsortedLeft (ts b) (ss b q)).succ - ss b q)).1
      ((k b).trans (ss b q) (augmentedTimes inf (ts b) (searchsortedLeft (ts b) (ss b q)).succ - ss b q)).2)
    (fun b _ q => by simp only [lift_fin]; rfl) (fun b q => onlyInvalid_condStats _ _ _ _)
    (fun x y y' hx hy => ⟨hx.1.congr fun b hb => by rw [hy b hb], hx.2.1.congr fun b hb => by rw [hy b hb], hx.2.2.congr fun b hb => by rw [hy b hb]⟩)
  rcases hst with ⟨x, y, hx, ⟨hD, hE, hT⟩, hy⟩ | ⟨e, hx, b, hb, hy⟩
  swap
  · refine .inr ⟨e, ?_, b, hb, ?_⟩
    · simp only [tensorConditionalStatisticsAux, hl, hi, h1, h2, hpl, hmi, hdmt, hdtp, hAQ, hAQ', hx, Bind.bind, Except.bind]
    · beta_reduce at hy
      simp only [conditionalStatisticsAux, hy, Bind.bind, Except.bind]
  beta_reduce at hy
  obtain ⟨P, hP, hPh⟩ := concat_cols hD hE
  refine .inl ⟨(P, x.2.2, i), fun b => (fun q => fromCols (y b q).D (y b q).E, fun q => (y b q).T, fun q => searchsortedLeft (ts b) (ss b q)), ?_,
    ⟨?_, ?_, hih⟩, fun b hb => ?_⟩
  · simp only [tensorConditionalStatisticsAux, hl, hi, h1, h2, hpl, hmi, hdmt, hdtp, hAQ, hAQ', hx, hP, Bind.bind, Except.bind]
    rfl
  · exact holdsMats_iff.2 (hPh.congr (forall_inRange_cons.2 fun b _ t => by simp only [lift_fin]; rfl))
  · exact holdsMats_iff.2 (hT.congr (forall_inRange_cons.2 fun b _ t => by simp only [lift_fin]))
  · simp only [conditionalStatisticsAux, hy b hb, Bind.bind, Except.bind]
    rfl

/-! ### Prediction -/

theorem matVec_holds {m : ℕ} {x y : Tensor} {A : List ℕ → Mat m d} {v : List ℕ → Vec d} (hx : HoldsMat u x A) (hy : HoldsVec u y v) :
    ∃ z, matmul x (expand 0 y) = .ok z ∧ HoldsVec u (index 0 0 z) fun b => A b *ᵥ v b := by
  obtain ⟨z, hz, hzh⟩ := matmul_mat hx (expand_col hy)
  refine ⟨z, hz, (index_col hzh 0).congr fun b _ => ?_⟩
  funext i
  simp only [Matrix.mul_apply, Matrix.of_apply, Matrix.mulVec, dotProduct]

theorem pairCols_mulVec {m : ℕ} (P : Matrix (Fin m) (Fin d ⊕ Fin d) ℝ) (v : Fin d ⊕ Fin d → ℝ) : pairCols P *ᵥ pairVec v = P *ᵥ v := by
  funext i
  simp only [Matrix.mulVec, dotProduct, pairCols, pairVec, Matrix.submatrix_apply, Function.comp, id]
  exact Equiv.sum_comp finSumFinEquiv.symm fun j => P i j * v j

theorem pairCols_conj {m : ℕ} (P : Matrix (Fin m) (Fin d ⊕ Fin d) ℝ) (S : Matrix (Fin d ⊕ Fin d) (Fin d ⊕ Fin d) ℝ) :
    pairCols P * pairMat S * (pairCols P)ᵀ = P * S * Pᵀ := by
  simp only [pairCols, pairMat, Matrix.transpose_submatrix, Matrix.submatrix_mul_equiv, Matrix.submatrix_id_id]

theorem basePredict_holds {P T a S : Tensor} {P' : List ℕ → Fin p → Matrix (Fin d) (Fin d ⊕ Fin d) ℝ} {T' : List ℕ → Fin p → Mat d d}
    {a' : List ℕ → Fin p → Fin d ⊕ Fin d → ℝ} {S' : List ℕ → Fin p → Matrix (Fin d ⊕ Fin d) (Fin d ⊕ Fin d) ℝ}
    (hP : HoldsMats bs P fun b q => pairCols (P' b q)) (hT : HoldsMats bs T T') (ha : HoldsVecs bs a fun b q => pairVec (a' b q))
    (hS : HoldsMats bs S fun b q => pairMat (S' b q)) :
    ∃ z, tensorBaseConditionalPredict P T a (some S) = .ok z ∧
      HoldsPred bs z fun b q => baseConditionalPredict (P' b q) (T' b q) (a' b q) (some (S' b q)) := by
  have hP1 := holdsMats_iff.1 hP
  obtain ⟨z, hz, hzh⟩ := matVec_holds hP1 (holdsVecs_iff.1 ha)
  obtain ⟨x, hx, hxh⟩ := matmul_mat hP1 (holdsMats_iff.1 hS)
  obtain ⟨y, hy, hyh⟩ := matmul_mat hxh (matT_mat hP1)
  obtain ⟨w, hw, hwh⟩ := plus_mat (holdsMats_iff.1 hT) hyh.b2
  refine ⟨_, by simp only [tensorBaseConditionalPredict, hz, hx, hy, hw, Bind.bind, Except.bind]; rfl, ?_, ?_⟩
  · exact holdsVecs_iff.2 (hzh.congr (forall_inRange_cons.2 fun b _ q => by simp only [lift_fin, pairCols_mulVec]; rfl))
  · exact holdsMats_iff.2 (hwh.congr (forall_inRange_cons.2 fun b _ q => by simp only [lift_fin, pairCols_conj]; rfl))

theorem basePredict_none_holds {P T a : Tensor} {P' : List ℕ → Fin p → Matrix (Fin d) (Fin d ⊕ Fin d) ℝ} {T' : List ℕ → Fin p → Mat d d}
    {a' : List ℕ → Fin p → Fin d ⊕ Fin d → ℝ}
    (hP : HoldsMats bs P fun b q => pairCols (P' b q)) (hT : HoldsMats bs T T') (ha : HoldsVecs bs a fun b q => pairVec (a' b q)) :
    ∃ z, tensorBaseConditionalPredict P T a none = .ok z ∧ HoldsPred bs z fun b q => baseConditionalPredict (P' b q) (T' b q) (a' b q) none := by
  have hP1 := holdsMats_iff.1 hP
  obtain ⟨z, hz, hzh⟩ := matVec_holds hP1 (holdsVecs_iff.1 ha)
  refine ⟨_, by simp only [tensorBaseConditionalPredict, hz, Bind.bind, Except.bind]; rfl, ?_, hT⟩
  exact holdsVecs_iff.2 (hzh.congr (forall_inRange_cons.2 fun b _ q => by simp only [lift_fin, pairCols_mulVec]; rfl))

theorem conditionalPredict_holds (inf : ℝ) {K : TKernel} {k : List ℕ → Stationary o d} (h : HoldsKernelOn bs K k) {new t M S : Tensor}
    {ss : List ℕ → Fin p → ℝ} {ts : List ℕ → Fin (n + 1) → ℝ} (hs : HoldsTimes bs new ss) (ht : HoldsTimes bs t ts)
    {M' : List ℕ → Fin (n + 2) → Fin d ⊕ Fin d → ℝ} {S' : List ℕ → Fin (n + 2) → Matrix (Fin d ⊕ Fin d) (Fin d ⊕ Fin d) ℝ}
    (hM : HoldsVecs bs M fun b q => pairVec (M' b q)) (hS : HoldsMats bs S fun b q => pairMat (S' b q)) :
    Elementwise bs (HoldsPred bs) (tensorConditionalPredict inf new t K M (some S)) fun b =>
      conditionalPredict inf (ss b) (ts b) (k b).trans (M' b) (some (S' b)) := by
  have hl : (new.shape.drop 1).length = bs.length := by rw [hs.1]; rfl
  rcases conditionalStatisticsAux_holds inf h hs ht with ⟨x, y, hx, ⟨hP, hT, hi⟩, hy⟩ | ⟨e, hx, b, hb, hy⟩
  swap
  · refine .inr ⟨e, ?_, b, hb, ?_⟩
    · simp only [tensorConditionalPredict, hx, Bind.bind, Except.bind]
    · beta_reduce at hy
      simp only [conditionalPredict, hy, Bind.bind, Except.bind]
  beta_reduce at hy
  obtain ⟨m, hm, hmh⟩ := gather_vecs hM hi
  obtain ⟨c, hc, hch⟩ := gather_mats hS hi
  obtain ⟨z, hz, hzh⟩ := basePredict_holds hP hT hmh hch
  refine .inl ⟨z, _, ?_, hzh, fun b hb => ?_⟩
  · simp only [tensorConditionalPredict, hx, hl, hm, hc, Bind.bind, Except.bind, Pure.pure, Except.pure]
    exact hz
  · simp only [conditionalPredict, hy b hb, Bind.bind, Except.bind]
    rfl

theorem conditionalPredict_none_holds (inf : ℝ) {K : TKernel} {k : List ℕ → Stationary o d} (h : HoldsKernelOn bs K k) {new t M : Tensor}
    {ss : List ℕ → Fin p → ℝ} {ts : List ℕ → Fin (n + 1) → ℝ} (hs : HoldsTimes bs new ss) (ht : HoldsTimes bs t ts)
    {M' : List ℕ → Fin (n + 2) → Fin d ⊕ Fin d → ℝ} (hM : HoldsVecs bs M fun b q => pairVec (M' b q)) :
    Elementwise bs (HoldsPred bs) (tensorConditionalPredict inf new t K M none) fun b =>
      conditionalPredict inf (ss b) (ts b) (k b).trans (M' b) none := by
  have hl : (new.shape.drop 1).length = bs.length := by rw [hs.1]; rfl
  rcases conditionalStatisticsAux_holds inf h hs ht with ⟨x, y, hx, ⟨hP, hT, hi⟩, hy⟩ | ⟨e, hx, b, hb, hy⟩
  swap
  · refine .inr ⟨e, ?_, b, hb, ?_⟩
    · simp only [tensorConditionalPredict, hx, Bind.bind, Except.bind]
    · beta_reduce at hy
      simp only [conditionalPredict, hy, Bind.bind, Except.bind]
  beta_reduce at hy
  obtain ⟨m, hm, hmh⟩ := gather_vecs hM hi
  obtain ⟨z, hz, hzh⟩ := basePredict_none_holds hP hT hmh
  refine .inl ⟨z, _, ?_, hzh, fun b hb => ?_⟩
  · simp only [tensorConditionalPredict, hx, hl, hm, Bind.bind, Except.bind, Pure.pure, Except.pure]
    exact hz
  · simp only [conditionalPredict, hy b hb, Bind.bind, Except.bind]
    rfl

/-! ### Pairwise marginals -/

theorem snoc_vecs {x y} {f : List ℕ → Fin n → Vec d} {g : List ℕ → Fin 1 → Vec d} (hx : HoldsVecs u x f) (hy : HoldsVecs u y g) :
    ∃ z, concat 1 x y = .ok z ∧ HoldsVecs u z fun b => (Fin.snoc (α := fun _ => Vec d) (f b) (g b 0)) := by
  refine ⟨_, if_pos (by rw [hx.1, hy.1]; exact ⟨by simp, by simp, rfl⟩), ?_, fun b hb t i => ?_⟩
  · simp [modifyAt, dim, hx.1, hy.1]
  · simp only [dim, hx.1, List.getD_cons_succ, List.getD_cons_zero, modifyAt]
    refine Fin.lastCases ?_ (fun k => ?_) t
    · rw [if_neg (by simp), Fin.snoc_last]
      simpa using hy.2 b hb 0 i
    · rw [if_pos (by simp), Fin.snoc_castSucc]
      exact hx.2 b hb k i

theorem zeros_mats (n r c : ℕ) (u : List ℕ) : HoldsMats u (zeros (c :: r :: n :: u)) fun _ (_ : Fin n) => (0 : Mat r c) :=
  ⟨rfl, fun _ _ _ _ _ => rfl⟩

theorem pairMat_fromBlocks (A B C D : Mat d d) :
    (fromRows ((fromCols A B).submatrix id finSumFinEquiv.symm) ((fromCols C D).submatrix id finSumFinEquiv.symm)).submatrix finSumFinEquiv.symm id =
      pairMat (fromBlocks A B C D) := by
  ext i j
  refine Fin.addCases (fun i => ?_) (fun i => ?_) i <;> refine Fin.addCases (fun j => ?_) (fun j => ?_) j <;>
    simp [pairMat, -Fin.natAdd_eq_addNat]

theorem pairwiseMarginals_holds (hbs : ∀ k ∈ bs, 0 < k) {S : TSSM} {s : List ℕ → SSM n d} (h : HoldsSSM bs S s) {m P : Tensor}
    {m' : List ℕ → Vec d} {P' : List ℕ → Mat d d} (hm : HoldsVec bs m m') (hP : HoldsMat bs P P') :
    Elementwise bs (HoldsPairs bs) (tensorPairwiseMarginals S m P) fun b => pairwiseMarginals (s b) (m' b) (P' b) := by
  rcases marginals_holds hbs h with ⟨x, y, hx, ⟨hxm, -⟩, hy⟩ | ⟨e, hx, b, hb, hy⟩
  swap
  · refine .inr ⟨e, ?_, b, hb, ?_⟩
    · simp only [tensorPairwiseMarginals, hx, Bind.bind, Except.bind]
    · beta_reduce at hy
      simp only [pairwiseMarginals, hy, Bind.bind, Except.bind]
  beta_reduce at hy
  rcases covarianceBlocks_holds hbs h with ⟨c, k, hc, ⟨hc1, hc2⟩, hk⟩ | ⟨e, hc, b, hb, hk⟩
  swap
  · refine .inr ⟨e, ?_, b, hb, ?_⟩
    · simp only [tensorPairwiseMarginals, hx, hc, Bind.bind, Except.bind]
    · beta_reduce at hk
      simp only [pairwiseMarginals, hy b hb, hk, Bind.bind, Except.bind]
  beta_reduce at hk
  have hm0 := expand_vec hm
  obtain ⟨mt, hmt, gmt⟩ := snoc_vecs hxm hm0
  obtain ⟨em, hem, gem⟩ := cons_vecs hm0 gmt
  obtain ⟨jm, hjm, gjm⟩ := concat_vec (holdsVecs_iff.1 (sliceDrop_vecs gem)) (holdsVecs_iff.1 (sliceFrom_vecs gem))
  have hP0 := expand_mat hP
  obtain ⟨ct, hct, gct⟩ := snoc_mats hc1 hP0
  obtain ⟨ec, hec, gec⟩ := cons_mats hP0 gct
  have hz : HoldsMats bs (zeros (expand 2 P).shape) fun _ (_ : Fin 1) => (0 : Mat d d) := by
    rw [hP0.1]
    exact zeros_mats 1 d d bs
  obtain ⟨st, hst, gst⟩ := snoc_mats hc2 hz
  obtain ⟨es, hes, ges⟩ := cons_mats hz gst
  obtain ⟨j0, hj0, gj0⟩ := concat_cols (holdsMats_iff.1 (sliceDrop_mats gec)) (matT_mat (holdsMats_iff.1 ges))
  obtain ⟨j1, hj1, gj1⟩ := concat_cols (holdsMats_iff.1 ges) (holdsMats_iff.1 (sliceFrom_mats gec))
  obtain ⟨jc, hjc, gjc⟩ := concat_rows gj0 gj1
  obtain ⟨hb1, hb2, hb3⟩ := ssm_dims h
  have e1 : Shapes.assertEqual jm.tfShape (bs.reverse ++ [n + 2, 2 * d]) = .ok () := by
    rw [tfShape_eq gjm.1, show (d + d) = 2 * d by ring]
    simp [assertEqual_self]
  have e2 : Shapes.assertEqual jc.tfShape (bs.reverse ++ [n + 2, 2 * d] ++ [2 * d]) = .ok () := by
    rw [tfShape_eq gjc.1, show (d + d) = 2 * d by ring]
    simp [assertEqual_self]
  refine .inl ⟨(jm, jc), fun b =>
    (fun q => Sum.elim ((Fin.cons (m' b) (Fin.snoc (α := fun _ => Vec d) (y b).1 (m' b)) : Fin (n + 3) → Vec d) q.castSucc)
        ((Fin.cons (m' b) (Fin.snoc (α := fun _ => Vec d) (y b).1 (m' b)) : Fin (n + 3) → Vec d) q.succ),
      fun q => fromBlocks ((Fin.cons (P' b) (Fin.snoc (α := fun _ => Mat d d) (k b).1 (P' b)) : Fin (n + 3) → Mat d d) q.castSucc)
        ((Fin.cons 0 (Fin.snoc (α := fun _ => Mat d d) (k b).2 0) : Fin (n + 2) → Mat d d) q)ᵀ
        ((Fin.cons 0 (Fin.snoc (α := fun _ => Mat d d) (k b).2 0) : Fin (n + 2) → Mat d d) q)
        ((Fin.cons (P' b) (Fin.snoc (α := fun _ => Mat d d) (k b).1 (P' b)) : Fin (n + 3) → Mat d d) q.succ)), ?_, ⟨?_, ?_⟩, fun b hb => ?_⟩
  rotate_left 3
  · simp only [pairwiseMarginals, hy b hb, hk b hb, Bind.bind, Except.bind]
    rfl
  · simp only [tensorPairwiseMarginals, hx, hc, hmt, hem, hjm, hct, hec, hst, hes, hj0, hj1, hjc, hb1, hb2, hb3, e1, e2, Bind.bind, Except.bind]
    rfl
  · exact holdsVecs_iff.2 (gjm.congr (forall_inRange_cons.2 fun b _ q => by simp only [lift_fin]; rfl))
  · exact holdsMats_iff.2 (gjc.congr (forall_inRange_cons.2 fun b _ q => by simp only [lift_fin, pairMat_fromBlocks]))

/-! ### The posterior process -/

/-- `predict_state` per batch element -/
theorem predictState_holds (hbs : ∀ k ∈ bs, 0 < k) {C : TCondProcess} {c : List ℕ → CondProcess n o d} (h : HoldsStates bs C c) {new : Tensor}
    {ss : List ℕ → Fin (p + 1) → ℝ} (hs : HoldsTimes bs new ss) :
    Elementwise bs (HoldsPred bs) (C.predictState new) fun b => (c b).predictState (ss b) := by
  have hk := h.kernel
  obtain ⟨hb1, -, -⟩ := ssm_dims h.q
  obtain ⟨m0, hm0, hm⟩ := hk.initialMean
  obtain ⟨P0, hP0, hP⟩ := hk.initialCovariance _ _ (sliceTo_vec hs)
  rcases pairwiseMarginals_holds hbs h.q hm hP with ⟨x, y, hx, ⟨hx1, hx2⟩, hy⟩ | ⟨e, hx, b, hb, hy⟩
  swap
  · refine .inr ⟨e, ?_, b, hb, ?_⟩
    · simp only [TCondProcess.predictState, hb1, hm0, hP0, hx, Bind.bind, Except.bind]
    · beta_reduce at hy
      simp only [CondProcess.predictState, hy, Bind.bind, Except.bind]
  beta_reduce at hy
  have e : C.predictState new = tensorConditionalPredict approxInf new C.times C.kernel x.1 (some x.2) := by
    simp only [TCondProcess.predictState, hb1, hm0, hP0, hx, Bind.bind, Except.bind]
  rw [e]
  refine (conditionalPredict_holds approxInf hk hs h.times (M' := fun b => (y b).1) (S' := fun b => (y b).2) hx1 hx2).congr fun b hb => ?_
  simp only [CondProcess.predictState, hy b hb, Bind.bind, Except.bind]

/-- A mean function broadcasts against the outputs. -/
theorem mean_b0 {M : Tensor → Except Err Tensor} {m : List ℕ → ℝ → Vec o} (hM : HoldsMeanOn bs M m) {t : Tensor} {f : List ℕ → Fin n → ℝ}
    (ht : HoldsTimes bs t f) : ∃ y, M t = .ok y ∧ B0 (o :: n :: bs) y (lift (lift fun b q => m b (f b q))) := by
  obtain ⟨y, k, hy, hk, hs, hv⟩ := hM n t f ht
  refine ⟨y, hy, by rw [hs]; exact ⟨hk, BT.refl _⟩, forall_inRange_cons.2 (forall_inRange_cons.2 fun b hb q i => ?_)⟩
  rw [lift_fin, lift_fin, hs]
  have hqb : InRange ((q : ℕ) :: b) (n :: bs) := ⟨q.2, hb⟩
  rw [bidx, bidx_self hqb]
  exact hv b hb q i

theorem plus_b0 {x y : Tensor} {f g : List ℕ → Vec d} (hx : HoldsVec u x f) (hy : B0 (d :: u) y (lift g)) :
    ∃ z, plus x y = .ok z ∧ HoldsVec u z fun b => f b + g b := by
  obtain ⟨z, hz, h⟩ := zipWith_left (· + ·) (holdsVec_iff.1 hx) hy
  exact ⟨z, hz, holdsVec_iff.2 (h.congr (forall_inRange_cons.2 fun b _ t => by simp only [lift_fin]; rfl))⟩

theorem minus_b0 {x y : Tensor} {f g : List ℕ → Vec d} (hx : HoldsVec u x f) (hy : B0 (d :: u) y (lift g)) :
    ∃ z, minus x y = .ok z ∧ HoldsVec u z fun b => f b - g b := by
  obtain ⟨z, hz, h⟩ := zipWith_left (· - ·) (holdsVec_iff.1 hx) hy
  exact ⟨z, hz, holdsVec_iff.2 (h.congr (forall_inRange_cons.2 fun b _ t => by simp only [lift_fin]; rfl))⟩

theorem zeroMean_holds (o k : ℕ) (hk : k = o ∨ k = 1) : HoldsMean (o := o) (tensorZeroMean k) fun _ => 0 :=
  fun u t f _ ht => ⟨_, k, rfl, hk, by rw [← ht.1]; rfl, fun b _ i => rfl⟩

theorem linearMean_holds (a : ℝ) (o k : ℕ) (hk : k = o ∨ k = 1) : HoldsMean (o := o) (tensorLinearMean a k) fun s _ => a * s := by
  intro u t f _ ht
  have he := map_real (a * ·) ht
  have hs : ((expand 0 t).map (a * ·)).shape = 1 :: u := by simp [Tensor.map, expand, insertAt, ht.1]
  have hb : bshape (1 :: u) (k :: u) = .ok (k :: u) := bshape_left ⟨.inr rfl, BT.refl u⟩
  refine ⟨⟨k :: u, fun i => ((expand 0 t).map (a * ·)).val (bidx (1 :: u) i)⟩, k, ?_, hk, rfl, fun b hb' i => ?_⟩
  · rw [tensorLinearMean, broadcastTo, ht.1, hs, hb]
    simp only [Bind.bind, Except.bind, if_true]
    rfl
  · simp only [bidx, bidx_self hb', if_true, Tensor.map, expand, removeAt]
    rw [ht.2 b hb']

theorem emission_holds {K : TKernel} {k : List ℕ → Stationary o d} (h : HoldsKernelOn bs K k) {t : Tensor} {ts : List ℕ → Fin n → ℝ}
    (ht : HoldsTimes bs t ts) : ∃ H, K.emission t = .ok H ∧ HoldsMats bs H fun b i => (k b).emission (ts b i) := h.emission n t ts ht

/-- `predict_f` with `full_output_cov=True` per batch element -/
theorem predictF_holds (hbs : ∀ k ∈ bs, 0 < k) {C : TCondProcess} {c : List ℕ → CondProcess n o d} (h : HoldsProcess bs C c) {new : Tensor}
    {ss : List ℕ → Fin (p + 1) → ℝ} (hs : HoldsTimes bs new ss) :
    Elementwise bs (HoldsPred bs) (C.predictF new true) fun b => (c b).predictF (ss b) := by
  obtain ⟨H, hH, hHh⟩ := emission_holds h.kernel hs
  rcases predictState_holds hbs h.toHoldsStates hs with ⟨x, y, hx, ⟨hx1, hx2⟩, hy⟩ | ⟨e, hx, b, hb, hy⟩
  swap
  · refine .inr ⟨e, ?_, b, hb, ?_⟩
    · simp only [TCondProcess.predictF, hH, hx, Bind.bind, Except.bind]
    · beta_reduce at hy
      simp only [CondProcess.predictF, hy, Bind.bind, Except.bind]
  beta_reduce at hy
  obtain ⟨f, hf, hfh⟩ := projectState_holds (bs := bs) [] hHh (f := fun b q => (y b q).1) (by simpa using hx1)
  obtain ⟨v, hv, hvh⟩ := projectCovFull_holds (bs := bs) [] hHh (f := fun b q => (y b q).2) (by simpa using hx2)
  obtain ⟨w, hw, hwh⟩ := mean_b0 h.mean hs
  rw [List.append_nil] at hfh hvh
  obtain ⟨z, hz, hzh⟩ := plus_b0 (holdsVecs_iff.1 hfh) hwh
  refine .inl ⟨(z, v), fun b q => (projectStateToF (fun q => (c b).kernel.emission (ss b q)) (fun q => (y b q).1) q + (c b).meanFunction (ss b q),
    projectStateCovarianceToFFull (fun q => (c b).kernel.emission (ss b q)) (fun q => (y b q).2) q), ?_, ⟨?_, ?_⟩, fun b hb => ?_⟩
  · simp only [TCondProcess.predictF, TKernel.projectState, TKernel.projectCovariance, TKernel.correctMeanShape, h.plain, hH, hx, hf, hv, hw, hz, Bind.bind, Except.bind]
    rfl
  · refine holdsVecs_iff.2 (hzh.congr (forall_inRange_cons.2 fun b hb q => ?_))
    simp only [lift_fin]
    rw [List.take_of_length_le (inRange_length hb).le]
  · exact hvh.congr fun b hb => by rw [List.take_of_length_le (inRange_length hb).le]
  · simp only [CondProcess.predictF, hy b hb, Bind.bind, Except.bind]
    rfl

/-- `predict_f` with `full_output_cov=False` per batch element -/
theorem predictFDiag_holds (hbs : ∀ k ∈ bs, 0 < k) {C : TCondProcess} {c : List ℕ → CondProcess n o d} (h : HoldsProcess bs C c) {new : Tensor}
    {ss : List ℕ → Fin (p + 1) → ℝ} (hs : HoldsTimes bs new ss) :
    Elementwise bs (HoldsPredDiag bs) (C.predictF new false) fun b => (c b).predictFDiag (ss b) := by
  obtain ⟨H, hH, hHh⟩ := emission_holds h.kernel hs
  rcases predictState_holds hbs h.toHoldsStates hs with ⟨x, y, hx, ⟨hx1, hx2⟩, hy⟩ | ⟨e, hx, b, hb, hy⟩
  swap
  · refine .inr ⟨e, ?_, b, hb, ?_⟩
    · simp only [TCondProcess.predictF, hH, hx, Bind.bind, Except.bind]
    · beta_reduce at hy
      simp only [CondProcess.predictFDiag, hy, Bind.bind, Except.bind]
  beta_reduce at hy
  obtain ⟨f, hf, hfh⟩ := projectState_holds (bs := bs) [] hHh (f := fun b q => (y b q).1) (by simpa using hx1)
  obtain ⟨v, hv, hvh⟩ := projectCovDiag_holds (bs := bs) [] hHh (f := fun b q => (y b q).2) (by simpa using hx2)
  obtain ⟨w, hw, hwh⟩ := mean_b0 h.mean hs
  rw [List.append_nil] at hfh hvh
  obtain ⟨z, hz, hzh⟩ := plus_b0 (holdsVecs_iff.1 hfh) hwh
  refine .inl ⟨(z, v), fun b q => (projectStateToF (fun q => (c b).kernel.emission (ss b q)) (fun q => (y b q).1) q + (c b).meanFunction (ss b q),
    projectStateCovarianceToFDiag (fun q => (c b).kernel.emission (ss b q)) (fun q => (y b q).2) q), ?_, ⟨?_, ?_⟩, fun b hb => ?_⟩
  · simp only [TCondProcess.predictF, TKernel.projectState, TKernel.projectCovariance, TKernel.correctMeanShape, h.plain, hH, hx, hf, hv, hw, hz, Bind.bind, Except.bind]
    rfl
  · refine holdsVecs_iff.2 (hzh.congr (forall_inRange_cons.2 fun b hb q => ?_))
    simp only [lift_fin]
    rw [List.take_of_length_le (inRange_length hb).le]
  · exact hvh.congr fun b hb => by rw [List.take_of_length_le (inRange_length hb).le]
  · simp only [CondProcess.predictFDiag, hy b hb, Bind.bind, Except.bind]
    rfl

/-! ### GP regression -/

theorem gprKalman_holds (hbs : ∀ k ∈ bs, 0 < k) {G : TGPR} {g : List ℕ → GPR n o d} (h : HoldsGPR bs G g) :
    Elementwise bs (HoldsKF bs) G.kalman fun b => (g b).kalman := by
  obtain ⟨R, hR, hRc⟩ := h.chol
  have hk := kernelOn_of h.kernel
  obtain ⟨w, hw, hwh⟩ := mean_b0 h.mean h.times
  obtain ⟨r, hr, hrh⟩ := minus_b0 (holdsVecs_iff.1 h.observations) hwh
  obtain ⟨H, hH, hHh⟩ := emission_holds hk h.times
  rcases stateSpaceModel_holds hbs hk h.times with ⟨S, s, hS, hSh, hs⟩ | ⟨e, hS, b, hb, hs⟩
  swap
  · refine .inr ⟨e, ?_, b, hb, ?_⟩
    · simp only [TGPR.kalman, hw, hr, hS, Bind.bind, Except.bind]
    · beta_reduce at hs
      simp only [GPR.kalman, hs, Bind.bind, Except.bind]
  beta_reduce at hs
  have hrv : HoldsVecs bs r fun b i => (g b).observations i - (g b).meanFunction ((g b).times i) :=
    holdsVecs_iff.2 (hrh.congr (forall_inRange_cons.2 fun b _ q => by simp only [lift_fin]))
  obtain ⟨F, hF, hFh⟩ := kalmanFilter_holds hSh hHh hrv hR hbs
  refine .inl ⟨F, _, ?_, hFh, fun b hb => ?_⟩
  · simp only [TGPR.kalman, hw, hr, hS, hH, hF, Bind.bind, Except.bind]
  · simp only [GPR.kalman, hRc b hb, hs b hb, Bind.bind, Except.bind]
    rfl

theorem gprLogLikelihood_holds (hbs : ∀ k ∈ bs, 0 < k) {G : TGPR} {g : List ℕ → GPR n o d} (h : HoldsGPR bs G g) :
    Elementwise bs (fun v L => v = sumShape bs L) G.logLikelihood fun b => (g b).logLikelihood :=
  (gprKalman_holds hbs h).bind (g := fun _ (k : KF n d o) => k.logLikelihood) fun _ _ hF => logLikelihood_holds hbs hF

theorem gprPosterior_holds (hbs : ∀ k ∈ bs, 0 < k) {G : TGPR} {g : List ℕ → GPR n o d} (h : HoldsGPR bs G g) :
    Elementwise bs (HoldsProcess bs) G.posterior fun b => (g b).posterior := by
  refine (gprKalman_holds hbs h).bind (g := fun b (k : KF n d o) => do
    let s ← k.posteriorSSM
    return (⟨s, (g b).kernel, (g b).times, (g b).meanFunction⟩ : CondProcess n o d)) fun F f hF => ?_
  refine (posteriorSSM_holds hbs hF).bind (g := fun b (s : SSM n d) =>
    Except.ok (⟨s, (g b).kernel, (g b).times, (g b).meanFunction⟩ : CondProcess n o d)) fun S s hS => ?_
  exact .pure ⟨⟨hS, kernelOn_of h.kernel, h.times⟩, kernel_plain h.kernel, h.mean⟩

end MF
