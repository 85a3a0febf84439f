import Verif.Lemmas.BatchedMean
import Verif.Lemmas.BatchedStack2
import Verif.Props.MeanFunction

/-! # Lemmas: the impulse mean function over a stack of kernels -/

namespace MF
open Matrix MF.Tensor MF.Spec

variable {n o d p R : ℕ} {bs u : List ℕ}

theorem tensorStack_eq {Ks : Fin R → TKernel} {j : ℝ} {K : TKernel} (hK : tensorStack Ks j = .ok K) : 0 < R ∧ K = stackTKernel Ks j := by
  unfold tensorStack at hK
  split_ifs at hK with h0
  exact ⟨Nat.pos_of_ne_zero h0, (Except.ok.inj hK).symm⟩

theorem actionSolve_means (K : Stationary o d) {ts : Fin (n + 1) → ℝ} (hts : Monotone ts) (r : Fin (n + 1) → Vec d) :
    ∃ x, actionSolve K ts r = .ok (Fin.cons 0 x) ∧
      IsMeans (r 0) (fun k => K.stateTransitions (ts k.castSucc) (ts k.succ - ts k.castSucc)) (fun k => r k.succ) x := by
  have hsol : ∀ M : LowerBTD n d, M.diag = (fun _ => 1) →
      M.subD = (fun k => -K.stateTransitions (ts k.castSucc) (ts k.succ - ts k.castSucc)) → _ := fun M h1 h2 => solve_bidiag M _ h1 h2 r
  unfold actionSolve
  rcases Nat.eq_zero_or_pos n with rfl | hn
  · simp only [zero_add, if_true, bind, Except.bind, pure, Except.pure, BTD.init,
      Option.isSome_none, Bool.false_eq_true, false_and, if_false]
    exact ⟨_, rfl, hsol _ rfl (funext fun k => k.elim0)⟩
  · rw [toDeltaTime_of_mono hts]
    simp only [bind, Except.bind, pure, Except.pure, BTD.init, Option.isSome_some]
    rw [if_neg (by omega), if_neg (by omega)]
    exact ⟨_, rfl, hsol _ rfl rfl⟩

theorem augment_mulVec {e : ℕ} (M : Mat d d) (f : Bool) (x : Vec (d + e)) (i : Fin d) :
    (augmentSquareMatrix M e f *ᵥ x) (Fin.castAdd e i) = (M *ᵥ fun j => x (Fin.castAdd e j)) i := by
  simp [mulVec, dotProduct, Fin.sum_univ_add, augmentSquareMatrix, fromBlocks]

theorem augmentRow_mulVec {e : ℕ} (M : Mat o d) (x : Vec (d + e)) : augmentMatrix M e *ᵥ x = M *ᵥ fun j => x (Fin.castAdd e j) := by
  funext i
  simp [mulVec, dotProduct, Fin.sum_univ_add, augmentMatrix, fromCols]

/-- Padding does not matter: the impulse mean of the padded kernel is that of the kernel, with the leading entries of the perturbations. -/
theorem slice_impulse {e : ℕ} (K : Stationary 1 d) (j : ℝ) (ts : Fin (n + 1) → ℝ) (u : Fin (n + 1) → Vec (d + e)) (s : Fin p → ℝ) :
    impulseMean (stackSlice K e j) ts u s = impulseMean K ts (fun k i => u k (Fin.castAdd e i)) s := by
  by_cases hts : Monotone ts
  swap
  · rw [(C31_unsorted_actions hts u s).1, (C31_unsorted_actions hts _ s).1]
  obtain ⟨x, hx, hxm⟩ := actionSolve_means (stackSlice K e j) hts u
  obtain ⟨y, hy, hym⟩ := actionSolve_means K hts fun k i => u k (Fin.castAdd e i)
  have hxy : (fun k i => x k (Fin.castAdd e i)) = y := by
    refine SSM.IsMeans.unique ⟨?_, fun k => ?_⟩ hym
    · rw [hxm.zero]
    · rw [hxm.succ]
      funext i
      rw [Pi.add_apply]
      exact congrArg (· + _) (augment_mulVec _ _ _ _)
  subst hxy
  unfold impulseMean
  simp only [hx, hy, bind, Except.bind, pure, Except.pure]
  congr 1
  rw [projectStateToF_eq, projectStateToF_eq]
  funext i
  refine (augmentRow_mulVec _ _).trans ?_
  congr 1
  funext a
  refine (augment_mulVec _ _ _ _).trans ?_
  congr 2
  funext c
  generalize searchsortedLeft ts (s i) = q
  exact Fin.cases rfl (fun _ => rfl) q

/-- The leading entries of a vector. -/
def leading {d D : ℕ} (h : d ≤ D) (v : Vec D) : Vec d := fun i => v (i.castLE h)

theorem slice_impulse' (k : StackKernel R) (r : Fin R) (ts : Fin (n + 1) → ℝ) (u : Fin (n + 1) → Vec k.stateDim) (s : Fin p → ℝ) :
    impulseMean (k.slice r) ts u s = impulseMean (k.children r).2 ts (fun q => leading (k.le_stateDim r) (u q)) s := by
  have key : ∀ (D e : ℕ) (h : (k.children r).1 + e = D) (hle : (k.children r).1 ≤ D) (u : Fin (n + 1) → Vec D),
      impulseMean (h ▸ stackSlice (k.children r).2 e k.jitter : Stationary 1 D) ts u s =
        impulseMean (k.children r).2 ts (fun q => leading hle (u q)) s := by
    rintro D e rfl hle u
    exact slice_impulse ..
  exact key ..

/-- `ImpulseMeanFunction.__call__` over a stack: the mean of every child, as the last axis of the result. -/
theorem stackImpulse_holds (hR : 0 < R) (hbs : ∀ k ∈ bs, 0 < k) {Ks : Fin R → TKernel} {k : StackKernel R}
    (h : ∀ r, HoldsKernel (Ks r) (k.children r).2) (hT : ∀ r, IgnoresTimes (Ks r)) {K : TKernel} (hK : tensorStack Ks k.jitter = .ok K)
    {t w : Tensor} {ts : List ℕ → Fin R → Fin (n + 1) → ℝ} {us : List ℕ → Fin R → Fin (n + 1) → Vec k.stateDim} {us' : List ℕ → Fin (n + 1) → Vec k.stateDim}
    (hus : AtKernel us' us) (ht : HoldsVecs bs t ts) (hw : HoldsVecs (R :: bs) w us') :
    ∃ M, tensorImpulseMean t w K = .ok M ∧ ∀ (p : ℕ) (s : Tensor) (ss : List ℕ → Fin R → Fin p → ℝ), HoldsVecs bs s ss →
      ElementwiseAny bs (HoldsVecs bs) (M s) fun b => do
        let y ← seqFin fun r => impulseMean (k.children r).2 (ts b r) (fun q => leading (k.le_stateDim r) (us b r q)) (ss b r)
        return fun q r => y r q 0 := by
  have hKeq : K = stackTKernel Ks k.jitter := by
    unfold tensorStack at hK
    split_ifs at hK
    exact (Except.ok.inj hK).symm
  subst hKeq
  obtain ⟨k', hk⟩ := exists_slices hR k
  obtain ⟨ts', hts'⟩ := exists_atKernel ts
  obtain ⟨m, hm, hmK, hma⟩ := actionInit_holds (k := k') 1e-6 (K := stackTKernel Ks k.jitter) (fun r t δ f g hf hg =>
    stackTransitions_holds h hR hk hf hg) (holdsTimes_at hts' ht) hw
  have hI : IgnoresTimes m.kernel := by
    rw [hmK]
    intro a a' δ
    show stackTransitions Ks a δ = stackTransitions Ks a' δ
    simp only [stackTransitions, fun r => hT r (index 1 r a) (index 1 r a')]
  refine ⟨m.impulse, by simp only [tensorImpulseMean, hm, Bind.bind, Except.bind]; rfl, fun p s ss hs => ?_⟩
  obtain ⟨ss', hss'⟩ := exists_atKernel ss
  have hs' := holdsTimes_at hss' hs
  have key : ∀ b r, impulseMean (k.children r).2 (ts b r) (fun q => leading (k.le_stateDim r) (us b r q)) (ss b r) = (do
      let x ← impulseStates (k' ((r : ℕ) :: b)) (ts' ((r : ℕ) :: b)) (us' ((r : ℕ) :: b)) (ss' ((r : ℕ) :: b))
      return projectStateToF (fun i => (k.slice r).emission (ss b r i)) x) := fun b r => by
    rw [← slice_impulse', impulseMean_eq, hk b r, hts' b r, hss' b r, hus b r]
  simp only [key]
  rcases impulseState_holds (bs := R :: bs) (by simpa [hR] using hbs) hma hI hs' with ⟨x, y, hx, hr, hy⟩ | ⟨e, hx, i, hi, hy⟩
  · obtain ⟨H, H', hH, hHs, hHh⟩ := stackEmission_at hR (stackKernel_holds hR h) hs
    obtain ⟨f, hf, hfh⟩ := stackProjectState_holds (f' := y) (f := fun b r => y ((r : ℕ) :: b)) [] hHs (fun b r => rfl) hHh (by simpa using hr)
    rw [List.append_nil] at hfh
    refine .inl ⟨f, fun b => stackProjectStateToF (fun r q => (k.slice r).emission (ss b r q)) fun r => y ((r : ℕ) :: b), ?_,
      hfh.congr fun b hb => ?_, fun b hb => ?_⟩
    rotate_left 1
    · rw [List.take_of_length_le (inRange_length hb).le]
    · beta_reduce
      rw [seqFin_ok (g := fun r => projectStateToF (fun i => (k.slice r).emission (ss b r i)) (y ((r : ℕ) :: b)))]
      · simp only [Bind.bind, Except.bind, Pure.pure, Except.pure]
        rfl
      · intro r
        have := hy ((r : ℕ) :: b) ⟨r.2, hb⟩
        simp only [this, Bind.bind, Except.bind, Pure.pure, Except.pure]
    · have hn : (stackTKernel Ks k.jitter).numKernels = some R := rfl
      simp only [TActionMean.impulse, hx, hmK, hH, TKernel.projectState, hn, hf, Bind.bind, Except.bind]
  · refine .inr ⟨⟨e, by simp only [TActionMean.impulse, hx, Bind.bind, Except.bind]⟩, ?_⟩
    cases i with
    | nil => exact hi.elim
    | cons r b =>
      refine ⟨b, hi.2, ?_⟩
      beta_reduce at hy ⊢
      cases hs : seqFin fun r : Fin R => (do
        let x ← impulseStates (k' ((r : ℕ) :: b)) (ts' ((r : ℕ) :: b)) (us' ((r : ℕ) :: b)) (ss' ((r : ℕ) :: b))
        return projectStateToF (fun i => (k.slice r).emission (ss b r i)) x) with
      | error e => exact ⟨e, by simp only [Bind.bind, Except.bind]⟩
      | ok g =>
        have := seqFin_ok_iff.1 hs ⟨r, hi.1⟩
        simp only [hy, Bind.bind, Except.bind] at this
        exact absurd this (by simp)

/-! ### The step mean function over a stack -/

/-- With as many actions as kernels, the feedback matrix of kernel `q` is used for action `q`. -/
theorem stackStep_holds (hbs : ∀ k ∈ bs, 0 < k) {Ks : Fin (n + 1) → TKernel} {k : StackKernel (n + 1)}
    (h : ∀ r, HoldsKernel (Ks r) (k.children r).2) {K : TKernel} (hK : tensorStack Ks k.jitter = .ok K)
    {t w : Tensor} {ts : List ℕ → Fin (n + 1) → Fin (n + 1) → ℝ} {us : List ℕ → Fin (n + 1) → Fin (n + 1) → Vec k.stateDim}
    {us' : List ℕ → Fin (n + 1) → Vec k.stateDim}
    (hus : AtKernel us' us) (ht : HoldsVecs bs t ts) (hw : HoldsVecs ((n + 1) :: bs) w us') :
    ∃ M, tensorStepMean t w K = .ok M ∧ ∀ (p : ℕ) (s : Tensor) (ss : List ℕ → Fin (n + 1) → Fin p → ℝ), HoldsVecs bs s ss →
      ElementwiseAny bs (HoldsVecs bs) (M s) fun b => do
        let y ← seqFin fun r => stepStates (fun q => (k.slice q).feedback) (k.slice r) (ts b r) (us b r) (ss b r)
        return stackProjectStateToF (fun r q => (k.slice r).emission (ss b r q)) y := by
  have hR : 0 < n + 1 := n.succ_pos
  obtain ⟨-, rfl⟩ := tensorStack_eq hK
  obtain ⟨k', hk⟩ := exists_slices hR k
  obtain ⟨ts', hts'⟩ := exists_atKernel ts
  obtain ⟨m, hm, hmK, hma⟩ := actionInit_holds (k := k') 0 (K := stackTKernel Ks k.jitter) (fun r t δ f g hf hg =>
    stackTransitions_holds h hR hk hf hg) (holdsTimes_at hts' ht) hw
  refine ⟨m.step, by simp only [tensorStepMean, hm, Bind.bind, Except.bind]; rfl, fun p s ss hs => ?_⟩
  obtain ⟨ss', hss'⟩ := exists_atKernel ss
  have hs' := holdsTimes_at hss' hs
  obtain ⟨F, P, hF, -, hFs, -, hFv⟩ := stackConstants_holds hR h
  have hb : BT F.shape (k.stateDim :: k.stateDim :: (n + 1) :: (n + 1) :: bs) := by rw [hFs]; exact ⟨.inl rfl, .inl rfl, .inl rfl, trivial⟩
  obtain ⟨F', hF', hFh'⟩ : ∃ z, broadcastTo (k.stateDim :: k.stateDim :: (n + 1) :: (n + 1) :: bs) F = .ok z ∧
      HoldsMats ((n + 1) :: bs) z fun _ (q : Fin (n + 1)) => (k.slice q).feedback := by
    refine ⟨⟨_, fun i => F.val (bidx F.shape i)⟩, by simp only [broadcastTo, bshape_left hb, Bind.bind, Except.bind, if_true]; rfl,
      rfl, fun b hb' q i j => ?_⟩
    dsimp only
    rw [hFs, bidx_cons_fin, bidx_cons_fin, bidx_cons_fin]
    exact (hFv q i j).1
  rcases stepState_holds (bs := (n + 1) :: bs) (by simpa [hR] using hbs) hma (by rw [hmK]; exact hF) hF' hFh' hs' with
    ⟨x, y, hx, hr, hy⟩ | ⟨e, hx, i, hi, hy⟩
  · obtain ⟨H, H', hH, hHs, hHh⟩ := stackEmission_at hR (stackKernel_holds hR h) hs
    obtain ⟨f, hf, hfh⟩ := stackProjectState_holds (f' := y) (f := fun b r => y ((r : ℕ) :: b)) [] hHs (fun b r => rfl) hHh (by simpa using hr)
    rw [List.append_nil] at hfh
    refine .inl ⟨f, fun b => stackProjectStateToF (fun r q => (k.slice r).emission (ss b r q)) fun r => y ((r : ℕ) :: b), ?_,
      hfh.congr fun b hb => ?_, fun b hb => ?_⟩
    rotate_left 1
    · rw [List.take_of_length_le (inRange_length hb).le]
    · beta_reduce
      rw [seqFin_ok (g := fun r => y ((r : ℕ) :: b))]
      · simp only [Bind.bind, Except.bind, Pure.pure, Except.pure]
      · intro r
        have := hy ((r : ℕ) :: b) ⟨r.2, hb⟩
        beta_reduce at this
        rw [hk b r, hts' b r, hss' b r, hus b r] at this
        exact this
    · have hn : (stackTKernel Ks k.jitter).numKernels = some (n + 1) := rfl
      simp only [TActionMean.step, hx, hmK, hH, TKernel.projectState, hn, hf, Bind.bind, Except.bind]
  · refine .inr ⟨⟨e, by simp only [TActionMean.step, hx, Bind.bind, Except.bind]⟩, ?_⟩
    cases i with
    | nil => exact hi.elim
    | cons r b =>
      refine ⟨b, hi.2, ?_⟩
      beta_reduce at hy ⊢
      cases hs : seqFin fun r : Fin (n + 1) => stepStates (fun q => (k.slice q).feedback) (k.slice r) (ts b r) (us b r) (ss b r) with
      | error e => exact ⟨e, by simp only [Bind.bind, Except.bind]⟩
      | ok g =>
        have := seqFin_ok_iff.1 hs ⟨r, hi.1⟩
        have h2 := hk b ⟨r, hi.1⟩
        have h3 := hts' b ⟨r, hi.1⟩
        have h4 := hss' b ⟨r, hi.1⟩
        have h5 := hus b ⟨r, hi.1⟩
        dsimp only at h2 h3 h4 h5
        rw [← h2, ← h3, ← h4, ← h5] at this
        exact absurd (hy.symm.trans this) (by simp)

theorem slice_entries {d e D : ℕ} (k : Stationary 1 d) (he : d + e = D) (jitter : ℝ) (i j : Fin d) (t δ : ℝ) :
    (he ▸ stackSlice k e jitter : Stationary 1 D).stateTransitions t δ (i.castLE (by omega)) (j.castLE (by omega)) = k.stateTransitions t δ i j ∧
    (he ▸ stackSlice k e jitter : Stationary 1 D).emission t 0 (i.castLE (by omega)) = k.emission t 0 i ∧
    (he ▸ stackSlice k e jitter : Stationary 1 D).feedback (i.castLE (by omega)) (j.castLE (by omega)) = k.feedback i j := by
  subst he
  refine ⟨?_, ?_, ?_⟩
  · show augmentSquareMatrix _ e true (Fin.castAdd e i) (Fin.castAdd e j) = _
    simp [augmentSquareMatrix]
  · show augmentMatrix _ e 0 (Fin.castAdd e i) = _
    simp [augmentMatrix]
  · show augmentSquareMatrix _ e false (Fin.castAdd e i) (Fin.castAdd e j) = _
    simp [augmentSquareMatrix]

theorem slice_one (k : StackKernel R) (hD : k.stateDim = 1) {r : Fin R} {c : Stationary 1 1} (hc : k.children r = ⟨1, c⟩) (i j : Fin k.stateDim) (t δ : ℝ) :
    (k.slice r).stateTransitions t δ i j = c.stateTransitions t δ 0 0 ∧ (k.slice r).emission t 0 i = c.emission t 0 0 ∧
      (k.slice r).feedback i j = c.feedback 0 0 := by
  have key : ∀ (x : Σ d, Stationary 1 d) (e D : ℕ) (he : x.1 + e = D) (_ : D = 1) (_ : x = ⟨1, c⟩) (i j : Fin D),
      (he ▸ stackSlice x.2 e k.jitter : Stationary 1 D).stateTransitions t δ i j = c.stateTransitions t δ 0 0 ∧
      (he ▸ stackSlice x.2 e k.jitter : Stationary 1 D).emission t 0 i = c.emission t 0 0 ∧
      (he ▸ stackSlice x.2 e k.jitter : Stationary 1 D).feedback i j = c.feedback 0 0 := by
    rintro _ e D he hD' rfl i j
    have hi : i = (0 : Fin 1).castLE (by omega) := Fin.ext (by simp; omega)
    have hj : j = (0 : Fin 1).castLE (by omega) := Fin.ext (by simp; omega)
    rw [hi, hj]
    exact slice_entries c he k.jitter 0 0 t δ
  exact key _ _ _ _ hD hc i j

/-- Two actions of size one at the times 0 and 1, seen at the time 1/2, with a state of dimension one. -/
theorem stepStates_one {D : ℕ} (hD : D = 1) (F : Fin 2 → Mat D D) (K : Stationary 1 D) {f : Fin 2 → ℝ} (hf : ∀ q, f q ≠ 0)
    (hF : ∀ q i j, F q i j = f q) {a : ℝ} (ha : ∀ i j, K.stateTransitions (1 / 2) (1 / 2) i j = a) :
    stepStates F K ![0, 1] (fun _ _ => 1) (fun _ : Fin 1 => 1 / 2) = .ok fun _ _ => (a - 1) / f 0 := by
  subst hD
  have hts : Monotone ![(0 : ℝ), 1] := by
    intro i j hij
    fin_cases i <;> fin_cases j <;> simp_all
  have hdet : ∀ q, (F q).det = f q := fun q => by rw [det_fin_one]; exact hF q 0 0
  have hl : stepLevels F (fun _ _ => 1) = .ok (Fin.cons 0 fun q _ => -(f q)⁻¹) := by
    unfold stepLevels
    rw [seqFin_ok (g := fun q => (F q)⁻¹ * replicateCol (Fin 1) (fun _ => (1 : ℝ))) fun q => by
      unfold tfSolve
      rw [if_pos (by rw [hdet]; exact (hf q).isUnit)]]
    simp only [Bind.bind, Except.bind, Pure.pure, Except.pure]
    congr 2
    funext q i
    obtain rfl : i = 0 := Subsingleton.elim i 0
    simp [Matrix.mul_apply, hF]
  have hs : searchsortedLeft ![(0 : ℝ), 1] (1 / 2) = 1 := by
    have h0 := (lt_searchsortedLeft hts (1 / 2) 0).2 (by norm_num)
    have h1 := fun h => (lt_searchsortedLeft hts (1 / 2) 1).1 h
    apply Fin.ext
    have h2 : ¬ (1 < (searchsortedLeft ![(0 : ℝ), 1] (1 / 2) : ℕ)) := fun h => by
      have := h1 h
      norm_num at this
    simp only [Fin.val_zero] at h0
    show _ = 1
    omega
  obtain ⟨x, hx, hxm⟩ := actionSolve_means K hts fun q : Fin 2 =>
    (Fin.cons 0 fun q _ => -(f q)⁻¹ : Fin 3 → Vec 1) q.castSucc - (Fin.cons 0 fun q _ => -(f q)⁻¹ : Fin 3 → Vec 1) q.succ
  unfold stepStates
  simp only [hl, hx, hs, Bind.bind, Except.bind, Pure.pure, Except.pure]
  congr 1
  funext i j
  obtain rfl : j = 0 := Subsingleton.elim j 0
  have e1 : (Fin.cons 0 x : Fin 3 → Vec 1) 1 = x 0 := rfl
  have e2 : (Fin.cons 0 fun q _ => -(f q)⁻¹ : Fin 3 → Vec 1) 1 = fun _ => -(f 0)⁻¹ := rfl
  have e3 : (Fin.cons ((![0, 1] : Fin 2 → ℝ) 0) ![0, 1] : Fin 3 → ℝ) 1 = 0 := rfl
  have e4 : x 0 0 = (f 0)⁻¹ := by
    rw [hxm.zero]
    show (0 : ℝ) - -(f 0)⁻¹ = _
    ring
  rw [e1, e2, e3, Pi.add_apply, mulVec, dotProduct, Fin.sum_univ_one, e4, sub_zero, ha]
  field_simp
  ring

end MF
