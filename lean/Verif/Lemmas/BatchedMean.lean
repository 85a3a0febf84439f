import Verif.Lemmas.BatchedTransform
import Verif.Lemmas.BatchedCombos
import Verif.Lemmas.MeanFunction
import Verif.Spec.BatchedMean

/-! # Lemmas: the impulse and step mean functions on tensors of any batch shape -/

namespace MF
open Matrix MF.Tensor MF.Spec

variable {n o d p : ℕ} {bs u : List ℕ}

theorem transitions_times {K : TKernel} {k : Stationary o d} (h : HoldsKernel K k) {t δ : Tensor} {f g : List ℕ → Fin n → ℝ}
    (ht : HoldsTimes bs t f) (hδ : HoldsTimes bs δ g) :
    ∃ A, K.stateTransitions t δ = .ok A ∧ HoldsMats bs A fun b i => k.stateTransitions (f b i) (g b i) := by
  obtain ⟨A, hA, hAh⟩ := h.stateTransitions (n :: bs) t δ _ _ (by simp) (holdsVec_iff.1 ht) (holdsVec_iff.1 hδ)
  refine ⟨A, hA, holdsMats_iff.2 (hAh.congr (forall_inRange_cons.2 fun b hb i => ?_))⟩
  simp only [lift_fin]

theorem emission_times {K : TKernel} {k : Stationary o d} (h : HoldsKernel K k) {t : Tensor} {f : List ℕ → Fin n → ℝ}
    (ht : HoldsTimes bs t f) : ∃ H, K.emission t = .ok H ∧ HoldsMats bs H fun b i => k.emission (f b i) := by
  obtain ⟨A, hA, hAh⟩ := h.emission (n :: bs) t _ (by simp) (holdsVec_iff.1 ht)
  refine ⟨A, hA, holdsMats_iff.2 (hAh.congr (forall_inRange_cons.2 fun b hb i => ?_))⟩
  simp only [lift_fin]

theorem sliceTo_vecs {x} {f : List ℕ → Fin (n + 1) → Vec d} (hx : HoldsVecs u x f) : (sliceTo 1 1 x).shape = d :: 1 :: u := by
  simp [sliceTo, hx.1, modifyAt]

theorem zeros_vecs (n d : ℕ) (u : List ℕ) : HoldsVecs u (zeros (d :: n :: u)) fun _ (_ : Fin n) => (0 : Vec d) := ⟨rfl, fun _ _ _ _ => rfl⟩

/-- A mean function object holds its actions: `ts b` and `us b` for the batch element `b`, where its kernel has the transitions of `k b`. -/
structure HoldsActions (bs : List ℕ) (m : TActionMean) (k : List ℕ → Stationary o d) (shift : ℝ) (ts : List ℕ → Fin (n + 1) → ℝ)
    (us : List ℕ → Fin (n + 1) → Vec d) : Prop where
  times : HoldsTimes bs m.times ts
  pert : HoldsVecs bs m.perturbations us
  trans : ∀ (r : ℕ) (t δ : Tensor) (f g : List ℕ → Fin r → ℝ), HoldsTimes bs t f → HoldsTimes bs δ g →
    ∃ A, m.kernel.stateTransitions t δ = .ok A ∧ HoldsMats bs A fun b i => (k b).stateTransitions (f b i) (g b i)
  extended : HoldsVec bs m.extended fun b => (Fin.cons (ts b 0 - shift) (ts b) : Fin (n + 2) → ℝ)

theorem actionInit_holds {t w : Tensor} {K : TKernel} {k : List ℕ → Stationary o d} {ts : List ℕ → Fin (n + 1) → ℝ}
    {us : List ℕ → Fin (n + 1) → Vec d} (shift : ℝ)
    (hK : ∀ (r : ℕ) (t δ : Tensor) (f g : List ℕ → Fin r → ℝ), HoldsTimes bs t f → HoldsTimes bs δ g →
      ∃ A, K.stateTransitions t δ = .ok A ∧ HoldsMats bs A fun b i => (k b).stateTransitions (f b i) (g b i))
    (ht : HoldsTimes bs t ts) (hw : HoldsVecs bs w us) :
    ∃ m, TActionMean.init shift t w K = .ok m ∧ m.kernel = K ∧ HoldsActions bs m k shift ts us := by
  obtain ⟨z, hz, hzh⟩ := cons_vec (map_vec (· - shift) (sliceTo_vec ht)) ht
  refine ⟨⟨t, w, K, z⟩, ?_, rfl, ht, hw, hK, hzh⟩
  have e : t.tfShape = (w.shape.drop 1).reverse := by
    rw [tfShape_eq ht.1, hw.1]; rfl
  simp only [TActionMean.init, e, assertEqual_self, hz, Bind.bind, Except.bind]
  rfl

variable {m : TActionMean} {k : List ℕ → Stationary o d} {shift : ℝ} {ts : List ℕ → Fin (n + 1) → ℝ} {us : List ℕ → Fin (n + 1) → Vec d}

theorem actionDims (h : HoldsActions bs m k shift ts us) : m.stateDim = d ∧ m.numActions = n + 1 ∧ m.batch = bs := by
  simp [TActionMean.stateDim, TActionMean.numActions, TActionMean.batch, dim, h.pert.1]

theorem tensorActionSolve_holds (hbs : ∀ k ∈ bs, 0 < k) (h : HoldsActions bs m k shift ts us) {x : Tensor} {r : List ℕ → Fin (n + 1) → Vec d}
    (hx : HoldsVecs bs x r) :
    Elementwise bs (HoldsVecs bs) (m.actionSolve x) fun b => actionSolve (k b) (ts b) (r b) := by
  obtain ⟨hd, hn, hb⟩ := actionDims h
  have fin : ∀ {S : Option Tensor} {S' : List ℕ → Option (Fin n → Mat d d)},
      ((S = none ∧ ∀ b, InRange b bs → S' b = none) ∨
        ∃ (t : Tensor) (f : List ℕ → Fin n → Mat d d), S = some t ∧ HoldsMats bs t f ∧ ∀ b, InRange b bs → S' b = some (f b)) →
      Elementwise bs (HoldsVecs bs) (do
        let M ← TBTD.init false (eye d ((n + 1) :: bs)) S
        let z ← M.solve x
        concat 1 (zeros (sliceTo 1 1 x).shape) z) fun b => do
          let M ← BTD.init false (fun _ => 1) (S' b)
          return (Fin.cons 0 (M.solve (r b)) : Fin (n + 2) → Vec d) := by
    intro S S' hS
    refine Elementwise.bind (R' := HoldsVecs bs) (g := fun b M => pure (Fin.cons 0 (M.solve (r b)) : Fin (n + 2) → Vec d))
      (init_holds hbs false (eye_mats d (n + 1) bs) hS) fun M M' hM => ?_
    obtain ⟨z, hz, hzh⟩ := solve_holds' hM hx false
    obtain ⟨c, hc, hch⟩ := cons_vecs (zeros_vecs 1 d bs) hzh
    refine .inl ⟨c, _, ?_, hch, fun b _ => rfl⟩
    simp only [hz, sliceTo_vecs hx, hc, Bind.bind, Except.bind]
  unfold TActionMean.actionSolve actionSolve
  rw [hd, hn, hb]
  by_cases h1 : n + 1 = 1
  · simp only [if_pos h1, pure_bind]
    exact fin (.inl ⟨rfl, fun _ _ => rfl⟩)
  · simp only [if_neg h1]
    rcases toDelta_holds h.times with ⟨δ, δ', hδ, hδh, hy⟩ | ⟨e, he, b, hb', hy⟩
    · obtain ⟨A, hA, hAh⟩ := h.trans _ _ _ _ _ (sliceDrop_vec h.times) hδh
      simp only [hδ, hA, Bind.bind, Except.bind, Pure.pure, Except.pure]
      refine (fin (.inr ⟨_, fun b t => -(k b).stateTransitions (ts b t.castSucc) (δ' b t), rfl, neg_mats hAh, fun b _ => rfl⟩)).congr fun b hb' => ?_
      beta_reduce at hy
      simp only [hy b hb', Bind.bind, Except.bind, Pure.pure, Except.pure]
    · refine .inr ⟨e, ?_, b, hb', ?_⟩
      · simp only [he, Bind.bind, Except.bind]
      · beta_reduce at hy
        simp only [hy, Bind.bind, Except.bind]

theorem matVecs_holds {q r : ℕ} {x y : Tensor} {A : List ℕ → Fin q → Mat r d} {v : List ℕ → Fin q → Vec d} (hx : HoldsMats u x A)
    (hy : HoldsVecs u y v) : ∃ z, matmul x (expand 0 y) = .ok z ∧ HoldsVecs u (index 0 0 z) fun b t => A b t *ᵥ v b t := by
  obtain ⟨z, hz, hzh⟩ := matVec_holds (holdsMats_iff.1 hx) (holdsVecs_iff.1 hy)
  exact ⟨z, hz, holdsVecs_iff.2 (hzh.congr (forall_inRange_cons.2 fun b hb t => by simp only [lift_fin]))⟩

/-- The lookup of the last action before a query. -/
theorem lookup_holds (h : HoldsActions bs m k shift ts us) {s : Tensor} {ss : List ℕ → Fin p → ℝ} (hs : HoldsTimes bs s ss) :
    s.shape.length - 1 = bs.length ∧ ∃ i a δ, searchsortedT (sliceFrom 0 1 m.extended) s = .ok i ∧
      HoldsIdx bs i (fun b q => searchsortedLeft (ts b) (ss b q)) ∧ gather bs.length m.extended i = .ok a ∧ minus s a = .ok δ ∧
      HoldsTimes bs δ fun b q => ss b q - (Fin.cons (ts b 0 - shift) (ts b) : Fin (n + 2) → ℝ) (searchsortedLeft (ts b) (ss b q)) := by
  refine ⟨by rw [hs.1]; simp, ?_⟩
  have hsl : HoldsVec bs (sliceFrom 0 1 m.extended) ts := (sliceFrom_vec h.extended).congr fun b _ => by simp
  obtain ⟨i, hi, hih⟩ := searchsorted_holds hsl hs
  obtain ⟨a, ha, hah⟩ := gather_vec h.extended hih
  obtain ⟨δ, hδ, hδh⟩ := minus_vec hs hah.b1
  exact ⟨i, a, δ, hi, hih, ha, hδ, hδh⟩

theorem project_holds {K : TKernel} {k : Stationary o d} (h : HoldsKernel K k) {s x : Tensor} {ss : List ℕ → Fin p → ℝ} {f : List ℕ → Fin p → Vec d}
    (hs : HoldsTimes bs s ss) (hx : HoldsVecs bs x f) :
    ∃ H y, K.emission s = .ok H ∧ K.projectState H x = .ok y ∧
      HoldsVecs bs y fun b => projectStateToF (fun i => k.emission (ss b i)) (f b) := by
  obtain ⟨H, hH, hHh⟩ := emission_times h hs
  obtain ⟨y, hy, hyh⟩ := projectState_holds (bs := bs) [] hHh (f := f) (by simpa using hx)
  rw [List.append_nil] at hyh
  refine ⟨H, y, hH, ?_, hyh.congr fun b hb => by rw [List.take_of_length_le (inRange_length hb).le]⟩
  simp only [TKernel.projectState, h.numKernels, hy]

/-- The states behind `impulseMean`. -/
noncomputable def impulseStates (K : Stationary o d) (ts : Fin (n + 1) → ℝ) (u : Fin (n + 1) → Vec d) (s : Fin p → ℝ) :
    Except Err (Fin p → Vec d) := do
  let a ← actionSolve K ts u
  return fun i => K.stateTransitions (s i) (s i - (Fin.cons (ts 0 - 1e-6) ts : Fin (n + 2) → ℝ) (searchsortedLeft ts (s i))) *ᵥ
    a (searchsortedLeft ts (s i))

theorem impulseState_holds (hbs : ∀ k ∈ bs, 0 < k) (h : HoldsActions bs m k 1e-6 ts us)
    (hT : IgnoresTimes m.kernel) {s : Tensor} {ss : List ℕ → Fin p → ℝ}
    (hs : HoldsTimes bs s ss) :
    Elementwise bs (HoldsVecs bs) (m.impulseState s) fun b => impulseStates (k b) (ts b) (us b) (ss b) := by
  obtain ⟨hl, i, a, δ, hi, hih, ha, hδ, hδh⟩ := lookup_holds h hs
  obtain ⟨A, hA, hAh⟩ := h.trans _ _ _ _ _ hs hδh
  rw [hT _ (sliceDrop 0 1 s)] at hA
  rcases tensorActionSolve_holds hbs h h.pert with ⟨x, y, hx, hr, hy⟩ | ⟨e, hx, b, hb, hy⟩
  · obtain ⟨a', ha', hah'⟩ := gather_vecs hr hih
    obtain ⟨z, hz, hzh⟩ := matVecs_holds hAh hah'
    refine .inl ⟨_, _, ?_, hzh, fun b hb => ?_⟩
    · simp only [TActionMean.impulseState, hl, hi, ha, hδ, hx, ha', hA, hz, Bind.bind, Except.bind, Pure.pure, Except.pure]
    · beta_reduce at hy
      simp only [impulseStates, hy b hb, Bind.bind, Except.bind]
      rfl
  · refine .inr ⟨e, ?_, b, hb, ?_⟩
    · simp only [TActionMean.impulseState, hl, hi, ha, hδ, hx, Bind.bind, Except.bind]
    · beta_reduce at hy
      simp only [impulseStates, hy, Bind.bind, Except.bind]

theorem impulseMean_eq (K : Stationary o d) (ts : Fin (n + 1) → ℝ) (u : Fin (n + 1) → Vec d) (s : Fin p → ℝ) : impulseMean K ts u s = (do
    let x ← impulseStates K ts u s
    return projectStateToF (fun i => K.emission (s i)) x) := by
  unfold impulseMean impulseStates
  simp only [bind_assoc, pure_bind]

/-- `ImpulseMeanFunction.__call__` per batch element, for a kernel that ignores the transition times. -/
theorem impulse_holds (hbs : ∀ k ∈ bs, 0 < k) {k : Stationary o d} (h : HoldsActions bs m (fun _ => k) 1e-6 ts us) (hK : HoldsKernel m.kernel k)
    (hT : IgnoresTimes m.kernel) {s : Tensor} {ss : List ℕ → Fin p → ℝ}
    (hs : HoldsTimes bs s ss) : Elementwise bs (HoldsVecs bs) (m.impulse s) fun b => impulseMean k (ts b) (us b) (ss b) := by
  simp only [impulseMean_eq]
  rcases impulseState_holds hbs h hT hs with ⟨x, y, hx, hr, hy⟩ | ⟨e, hx, b, hb, hy⟩
  · obtain ⟨H, w, hH, hw, hwh⟩ := project_holds hK hs hr
    refine .inl ⟨w, _, ?_, hwh, fun b hb => ?_⟩
    · simp only [TActionMean.impulse, hx, hH, hw, Bind.bind, Except.bind]
    · beta_reduce at hy
      simp only [hy b hb, Bind.bind, Except.bind]
      rfl
  · refine .inr ⟨e, ?_, b, hb, ?_⟩
    · simp only [TActionMean.impulse, hx, Bind.bind, Except.bind]
    · beta_reduce at hy
      simp only [hy, Bind.bind, Except.bind]

theorem broadcastTo_mats {x : Tensor} {F : Mat d d} (hx : HoldsMat [] x fun _ => F) (r : ℕ) (u : List ℕ) :
    ∃ z, broadcastTo (d :: d :: r :: u) x = .ok z ∧ HoldsMats u z fun _ (_ : Fin r) => F := by
  have hb : BT x.shape (d :: d :: r :: u) := by rw [hx.1]; exact ⟨.inl rfl, .inl rfl, trivial⟩
  refine ⟨⟨d :: d :: r :: u, fun i => x.val (bidx x.shape i)⟩, by simp only [broadcastTo, bshape_left hb, Bind.bind, Except.bind, if_true]; rfl,
    rfl, fun b hb' t i j => ?_⟩
  dsimp only
  rw [hx.1, bidx_cons_fin, bidx_cons_fin]
  exact hx.2 [] trivial i j

/-- The levels of a step mean function, for one feedback matrix per action. -/
noncomputable def stepLevels (F : Fin (n + 1) → Mat d d) (u : Fin (n + 1) → Vec d) : Except Err (Fin (n + 2) → Vec d) := do
  let solved ← seqFin fun k => tfSolve (F k) (replicateCol (Fin 1) (u k))
  return Fin.cons 0 fun k => -(solved k).col 0

/-- The states behind `stepMean`, for one feedback matrix per action. -/
noncomputable def stepStates (F : Fin (n + 1) → Mat d d) (K : Stationary o d) (ts : Fin (n + 1) → ℝ) (u : Fin (n + 1) → Vec d) (s : Fin p → ℝ) :
    Except Err (Fin p → Vec d) := do
  let a ← stepLevels F u
  let b ← actionSolve K ts fun k => a k.castSucc - a k.succ
  return fun i => a (searchsortedLeft ts (s i)) +
    K.stateTransitions (s i) (s i - (Fin.cons (ts 0) ts : Fin (n + 2) → ℝ) (searchsortedLeft ts (s i))) *ᵥ b (searchsortedLeft ts (s i))

theorem stepMean_eq (K : Stationary o d) (ts : Fin (n + 1) → ℝ) (u : Fin (n + 1) → Vec d) (s : Fin p → ℝ) : stepMean K ts u s = (do
    let x ← stepStates (fun _ => K.feedback) K ts u s
    return projectStateToF (fun i => K.emission (s i)) x) := by
  unfold stepMean stepStates stepA stepLevels
  simp only [bind_assoc, pure_bind]

theorem stepA_holds (h : HoldsActions bs m k shift ts us) {F F' : Tensor} {Fs : List ℕ → Fin (n + 1) → Mat d d} (hF : m.kernel.feedback = .ok F)
    (hF' : broadcastTo (d :: d :: (n + 1) :: bs) F = .ok F') (hFh' : HoldsMats bs F' Fs) :
    Elementwise bs (HoldsVecs bs) m.stepA fun b => stepLevels (Fs b) (us b) := by
  obtain ⟨hd, hn, hb⟩ := actionDims h
  have hc : HoldsMats bs (expand 0 m.perturbations) fun b t => replicateCol (Fin 1) (us b t) :=
    holdsMats_iff.2 ((expand_col (holdsVecs_iff.1 h.pert)).congr (forall_inRange_cons.2 fun b hb t => by
      ext i j
      simp only [lift_fin, Matrix.of_apply, replicateCol_apply]))
  rcases solveT_mats hFh' hc with ⟨x, y, hx, hr, hy⟩ | ⟨e, hx, b, hb', hy⟩
  · have hix : HoldsVecs bs (index 0 0 x) fun b t => (y b t).col 0 :=
      holdsVecs_iff.2 ((index_col (holdsMats_iff.1 hr) 0).congr (forall_inRange_cons.2 fun b hb t => by
        simp only [lift_fin]; rfl))
    have hneg : HoldsVecs bs ((index 0 0 x).map (-·)) fun b t => -(y b t).col 0 :=
      ⟨hix.1, fun b hb t i => by simp only [Tensor.map]; rw [hix.2 b hb t i]; rfl⟩
    obtain ⟨z, hz, hzh⟩ := cons_vecs (zeros_vecs 1 d bs) hneg
    refine .inl ⟨z, _, ?_, hzh, fun b hb => ?_⟩
    · simp only [TActionMean.stepA, hF, hd, hn, hb, hF', hx, sliceTo_vecs hix, hz, Bind.bind, Except.bind]
    · beta_reduce at hy
      simp only [stepLevels, hy b hb, Bind.bind, Except.bind]
      rfl
  · refine .inr ⟨e, ?_, b, hb', ?_⟩
    · simp only [TActionMean.stepA, hF, hd, hn, hb, hF', hx, Bind.bind, Except.bind]
    · beta_reduce at hy
      simp only [stepLevels, hy, Bind.bind, Except.bind]

theorem stepState_holds (hbs : ∀ k ∈ bs, 0 < k) (h : HoldsActions bs m k 0 ts us) {F F' : Tensor} {Fs : List ℕ → Fin (n + 1) → Mat d d}
    (hF : m.kernel.feedback = .ok F) (hF' : broadcastTo (d :: d :: (n + 1) :: bs) F = .ok F') (hFh' : HoldsMats bs F' Fs) {s : Tensor}
    {ss : List ℕ → Fin p → ℝ} (hs : HoldsTimes bs s ss) :
    Elementwise bs (HoldsVecs bs) (m.stepState s) fun b => stepStates (Fs b) (k b) (ts b) (us b) (ss b) := by
  obtain ⟨hl, i, a, δ, hi, hih, ha, hδ, hδh⟩ := lookup_holds h hs
  obtain ⟨A, hA, hAh⟩ := h.trans _ _ _ _ _ hs hδh
  rcases stepA_holds h hF hF' hFh' with ⟨x, y, hx, hr, hy⟩ | ⟨e, hx, b, hb, hy⟩
  swap
  · refine .inr ⟨e, ?_, b, hb, ?_⟩
    · simp only [TActionMean.stepState, hl, hi, ha, hδ, hx, Bind.bind, Except.bind]
    · beta_reduce at hy
      simp only [stepStates, hy, Bind.bind, Except.bind]
  beta_reduce at hy
  obtain ⟨a', ha', hah'⟩ := gather_vecs hr hih
  obtain ⟨df, hdf, hdfh⟩ := minus_vecs (sliceDrop_vecs hr) (sliceFrom_vecs hr)
  rcases tensorActionSolve_holds hbs h hdfh with ⟨x₂, y₂, hx₂, hr₂, hy₂⟩ | ⟨e, hx₂, b, hb, hy₂⟩
  swap
  · refine .inr ⟨e, ?_, b, hb, ?_⟩
    · simp only [TActionMean.stepState, hl, hi, ha, hδ, hx, ha', hdf, hx₂, Bind.bind, Except.bind]
    · beta_reduce at hy₂
      simp only [stepStates, hy b hb, hy₂, Bind.bind, Except.bind]
  beta_reduce at hy₂
  obtain ⟨b', hb', hbh'⟩ := gather_vecs hr₂ hih
  obtain ⟨z, hz, hzh⟩ := matVecs_holds hAh hbh'
  obtain ⟨v, hv, hvh⟩ := plus_vecs hah' hzh
  refine .inl ⟨v, _, ?_, hvh, fun b hb => ?_⟩
  · simp only [TActionMean.stepState, hl, hi, ha, hδ, hx, ha', hdf, hx₂, hb', hA, hz, hv, Bind.bind, Except.bind]
  · simp only [stepStates, hy b hb, hy₂ b hb, sub_zero, Bind.bind, Except.bind]
    rfl

/-- `StepMeanFunction.__call__` per batch element. -/
theorem step_holds (hbs : ∀ k ∈ bs, 0 < k) {k : Stationary o d} (h : HoldsActions bs m (fun _ => k) 0 ts us) (hK : HoldsKernel m.kernel k) {s : Tensor}
    {ss : List ℕ → Fin p → ℝ} (hs : HoldsTimes bs s ss) :
    Elementwise bs (HoldsVecs bs) (m.step s) fun b => stepMean k (ts b) (us b) (ss b) := by
  obtain ⟨F, hF, hFh⟩ := hK.feedback
  obtain ⟨F', hF', hFh'⟩ := broadcastTo_mats hFh (n + 1) bs
  simp only [stepMean_eq]
  rcases stepState_holds hbs h hF hF' hFh' hs with ⟨x, y, hx, hr, hy⟩ | ⟨e, hx, b, hb, hy⟩
  · obtain ⟨H, w, hH, hw, hwh⟩ := project_holds hK hs hr
    refine .inl ⟨w, _, ?_, hwh, fun b hb => ?_⟩
    · simp only [TActionMean.step, hx, hH, hw, Bind.bind, Except.bind]
    · beta_reduce at hy
      simp only [hy b hb, Bind.bind, Except.bind]
      rfl
  · refine .inr ⟨e, ?_, b, hb, ?_⟩
    · simp only [TActionMean.step, hx, Bind.bind, Except.bind]
    · beta_reduce at hy
      simp only [hy, Bind.bind, Except.bind]

end MF
