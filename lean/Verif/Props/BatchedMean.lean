import Verif.Lemmas.BatchedMean2
import Verif.Props.BatchedVariational
import Verif.Props.BatchedStack

/-!
# C67: impulse and step mean functions on tensors of any batch shape

Action times `batch_shape + [num_actions]` and perturbations `batch_shape + [num_actions, state_dim]`: different actions for every batch element.
-/

namespace MF
open Matrix MF.Tensor MF.Spec MeasureTheory

variable {n o d p R : ℕ} {bs : List ℕ}

/-! ### Which kernels -/

theorem ignores_init {j : ℝ} {ps : List ℝ} {K₀ K : TKernel} (h0 : IgnoresTimes K₀) (h : tensorKernelInit j ps K₀ = .ok K) : IgnoresTimes K := by
  unfold tensorKernelInit at h
  split_ifs at h
  exact Except.ok.inj h ▸ h0

theorem ignores_combine {ks : List TKernel} {j : ℝ} {K₀ K : TKernel} (h0 : IgnoresTimes K₀) (h : tensorCombineInit ks j K₀ = .ok K) : IgnoresTimes K := by
  unfold tensorCombineInit at h
  split_ifs at h
  exact Except.ok.inj h ▸ h0

theorem ignores_mapM {ks : List TKernel} (h : ∀ k ∈ ks, IgnoresTimes k) (t t' δ : Tensor) :
    (ks.mapM fun k => k.stateTransitions t δ) = ks.mapM fun k => k.stateTransitions t' δ := by
  induction ks with
  | nil => rfl
  | cons k ks ih => rw [List.mapM_cons, List.mapM_cons, ih fun k hk => h k (List.mem_cons_of_mem _ hk), h k List.mem_cons_self t t' δ]

theorem ignores_concat {ks : List TKernel} (h : ∀ k ∈ ks, IgnoresTimes k) (j : ℝ) (o : ℕ) (H : Tensor → Except Err Tensor) :
    IgnoresTimes (tensorConcatKernel ks j o H) := fun t t' δ => by
  show concatTransitions .. = concatTransitions ..
  simp only [concatTransitions, ignores_mapM h t t' δ]

/-- C67: the transitions of every kernel that the constructors build depend on the time differences only (`ImpulseMeanFunction` passes one transition
time too few): the basic kernels, `set_state_mean`, and the combinations of such kernels, stacks included. -/
theorem C67_ignores_times :
    (∀ (o : ℕ) (l v dec dif per j : ℝ) (K : TKernel), tensorMatern12 o l v j = .ok K ∨ tensorOrnsteinUhlenbeck o dec dif j = .ok K ∨
      tensorMatern32 o l v j = .ok K ∨ tensorMatern52 o l v j = .ok K ∨ tensorHarmonicOscillator o v per j = .ok K ∨ tensorConstant o v j = .ok K →
      IgnoresTimes K) ∧
    (∀ (N R : Tensor) (j : ℝ) (K : TKernel), tensorLeg N R j = .ok K → IgnoresTimes K) ∧
    (∀ (K : TKernel) (m : Tensor), IgnoresTimes K → IgnoresTimes (K.setStateMean m)) ∧
    (∀ (ks : List TKernel) (j : ℝ) (K : TKernel), (∀ k ∈ ks, IgnoresTimes k) → tensorSum ks j = .ok K ∨ tensorProduct ks j = .ok K ∨
      tensorIndependentMultiOutput ks j = .ok K → IgnoresTimes K) ∧
    (∀ (ks : List TKernel) (weight : Tensor → Except Err Tensor) (B : Tensor) (o : ℕ) (j : ℝ) (K : TKernel), (∀ k ∈ ks, IgnoresTimes k) →
      tensorFactorAnalysis ks weight B o j = .ok K → IgnoresTimes K) ∧
    ∀ (R : ℕ) (ks : Fin R → TKernel) (j : ℝ) (K : TKernel), (∀ r, IgnoresTimes (ks r)) → tensorStack ks j = .ok K → IgnoresTimes K := by
  refine ⟨fun o l v dec dif per j K h => ?_, fun N R j K h => ?_, fun K m h => h, fun ks j K hk h => ?_, fun ks w B o j K hk h => ?_,
    fun R ks j K hk h => ?_⟩
  · rcases h with h | h | h | h | h | h
    all_goals exact ignores_init (fun _ _ _ => rfl) h
  · unfold tensorLeg at h
    cases hl : Shapes.legInit N.tfShape R.tfShape with
    | error e => simp [hl, Bind.bind, Except.bind] at h
    | ok d =>
      simp only [hl, Bind.bind, Except.bind] at h
      exact ignores_init (fun _ _ _ => rfl) h
  · rcases h with h | h | h
    · exact ignores_combine (ignores_concat hk _ _ _) h
    · refine ignores_combine (fun t t' δ => ?_) h
      show productProperty .. = productProperty ..
      rw [ignores_mapM hk t t' δ]
    · exact ignores_combine (ignores_concat hk _ _ _) h
  · exact ignores_combine (ignores_concat hk _ _ _) h
  · unfold tensorStack at h
    split_ifs at h
    rw [← Except.ok.inj h]
    intro t t' δ
    show stackTransitions .. = stackTransitions ..
    simp only [stackTransitions, fun r => hk r (index 1 r t) (index 1 r t')]

/-! ### Batch element by batch element -/

theorem holdsMeanOn_of {M : Tensor → Except Err Tensor} {m : List ℕ → ℝ → Vec o} (h : ∀ (p : ℕ) (s : Tensor) (ss : List ℕ → Fin p → ℝ),
    HoldsTimes bs s ss → ∃ x, M s = .ok x ∧ HoldsVecs bs x fun b q => m b (ss b q)) : HoldsMeanOn bs M m := fun p s ss hs => by
  obtain ⟨x, hx, hxh⟩ := h p s ss hs
  refine ⟨x, o, hx, .inl rfl, hxh.1, fun b hb q i => ?_⟩
  refine Eq.trans ?_ (hxh.2 b hb q i)
  congr 2
  split_ifs with h1
  · subst h1; simp
  · rfl

section
variable {K : TKernel} {k : Stationary o d} (hK : HoldsKernel K k) {t w : Tensor} {ts : List ℕ → Fin (n + 1) → ℝ}
  {us : List ℕ → Fin (n + 1) → Vec d} (ht : HoldsTimes bs t ts) (hw : HoldsVecs bs w us)
include hK ht hw

/-- C67: an impulse mean function with actions of any batch shape is, on query times of that batch shape, the impulse mean function of the actions of
each element; it raises exactly when it raises for one of them. -/
theorem C67_impulse (hbs : ∀ k ∈ bs, 0 < k) (hT : IgnoresTimes K) : ∃ M, tensorImpulseMean t w K = .ok M ∧
    ∀ (p : ℕ) (s : Tensor) (ss : List ℕ → Fin p → ℝ), HoldsTimes bs s ss →
      Elementwise bs (HoldsVecs bs) (M s) fun b => impulseMean k (ts b) (us b) (ss b) := by
  obtain ⟨m, hm, hmK, hma⟩ := actionInit_holds (k := fun _ => k) 1e-6 (fun r t δ f g hf hg => transitions_times hK hf hg) ht hw
  exact ⟨m.impulse, by simp only [tensorImpulseMean, hm, Bind.bind, Except.bind]; rfl, fun p s ss hs =>
    impulse_holds hbs hma (hmK ▸ hK) (hmK ▸ hT) hs⟩

/-- C67: the same for step mean functions. -/
theorem C67_step (hbs : ∀ k ∈ bs, 0 < k) : ∃ M, tensorStepMean t w K = .ok M ∧
    ∀ (p : ℕ) (s : Tensor) (ss : List ℕ → Fin p → ℝ), HoldsTimes bs s ss →
      Elementwise bs (HoldsVecs bs) (M s) fun b => stepMean k (ts b) (us b) (ss b) := by
  obtain ⟨m, hm, hmK, hma⟩ := actionInit_holds (k := fun _ => k) 0 (fun r t δ f g hf hg => transitions_times hK hf hg) ht hw
  exact ⟨m.step, by simp only [tensorStepMean, hm, Bind.bind, Except.bind]; rfl, fun p s ss hs =>
    step_holds hbs hma (hmK ▸ hK) hs⟩

/-- C67 with C31: when the action times of one batch element are not sorted, every call raises. -/
theorem C67_unsorted (hbs : ∀ k ∈ bs, 0 < k) (hT : IgnoresTimes K) {b : List ℕ} (hb : InRange b bs) (hu : ¬ Monotone (ts b)) :
    ∃ M M', tensorImpulseMean t w K = .ok M ∧ tensorStepMean t w K = .ok M' ∧ ∀ (p : ℕ) (s : Tensor) (ss : List ℕ → Fin p → ℝ), HoldsTimes bs s ss →
      (∃ e, M s = .error e) ∧ ∃ e, M' s = .error e := by
  obtain ⟨M, hM, h⟩ := C67_impulse hK ht hw hbs hT
  obtain ⟨M', hM', h'⟩ := C67_step hK ht hw hbs
  refine ⟨M, M', hM, hM', fun p s ss hs => ⟨?_, ?_⟩⟩
  · rcases h p s ss hs with ⟨x, y, -, -, hy⟩ | ⟨e, he, -⟩
    · exact absurd ((hy b hb).symm.trans (C31_unsorted_actions hu (us b) (ss b)).1) (by simp)
    · exact ⟨e, he⟩
  · rcases h' p s ss hs with ⟨x, y, -, -, hy⟩ | ⟨e, he, -⟩
    · exact absurd ((hy b hb).symm.trans (C31_unsorted_actions hu (us b) (ss b)).2) (by simp)
    · exact ⟨e, he⟩

/-- C67 with C31: for a basic kernel and sorted action times the impulse mean function is, as a mean function of models over data of that batch shape,
at batch element `b` the projected response to the impulses of that element. -/
theorem C67_impulse_response (hbs : ∀ k ∈ bs, 0 < k) (hT : IgnoresTimes K) {c : ℝ → ℝ} (hk : Leaf k c) (hm : ∀ b, InRange b bs → Monotone (ts b)) :
    ∃ M, tensorImpulseMean t w K = .ok M ∧ HoldsMeanOn bs M fun b s => k.emission s *ᵥ impulseResponse k.feedback (ts b) (us b) s := by
  obtain ⟨M, hM, h⟩ := C67_impulse hK ht hw hbs hT
  refine ⟨M, hM, holdsMeanOn_of fun p s ss hs => ?_⟩
  obtain ⟨x, y, hx, hxy, hy⟩ := (h p s ss hs).transfer (P := fun b y => y = fun i => k.emission (ss b i) *ᵥ impulseResponse k.feedback (ts b) (us b) (ss b i))
    fun b hb => ⟨_, C31_impulse hk (hm b hb) (us b) (ss b), rfl⟩
  exact ⟨x, hx, hxy.congr fun b hb => (hy b hb).2⟩

/-- C67 with C31: for every kernel expression, the superposition of the propagated perturbations. -/
theorem C67_impulse_transitions (hbs : ∀ k ∈ bs, 0 < k) (hT : IgnoresTimes K) {c : ℝ → ℝ → Mat o o} (hk : Builds k c)
    (hm : ∀ b, InRange b bs → Monotone (ts b)) : ∃ M, tensorImpulseMean t w K = .ok M ∧ HoldsMeanOn bs M fun b s => k.emission s *ᵥ
      open Classical in ∑ a, if ts b a < s then k.stateTransitions (ts b a) (s - ts b a) *ᵥ us b a else 0 := by
  classical
  obtain ⟨M, hM, h⟩ := C67_impulse hK ht hw hbs hT
  refine ⟨M, hM, holdsMeanOn_of fun p s ss hs => ?_⟩
  obtain ⟨x, y, hx, hxy, hy⟩ := (h p s ss hs).transfer (P := fun b y => y = fun i => k.emission (ss b i) *ᵥ
      open Classical in ∑ a, if ts b a < ss b i then k.stateTransitions (ts b a) (ss b i - ts b a) *ᵥ us b a else 0)
    fun b hb => ⟨_, C31_impulse_transitions hk (hm b hb) (us b) (ss b), rfl⟩
  exact ⟨x, hx, hxy.congr fun b hb => (hy b hb).2⟩

/-- C67 with C31: the step mean function is at batch element `b` the projected solution of `dx/dt = F x + u_b(t)`, started from rest. -/
theorem C67_step_response (hbs : ∀ k ∈ bs, 0 < k) (hF : IsUnit k.feedback.det) (hS : ∀ t, SolvesSDE k.feedback (k.stateTransitions t))
    (hm : ∀ b, InRange b bs → Monotone (ts b)) {x : List ℕ → ℝ → Vec d} (hx : ∀ b, InRange b bs → IsStepResponse k.feedback (ts b) (us b) (x b)) :
    ∃ M, tensorStepMean t w K = .ok M ∧ HoldsMeanOn bs M fun b s => k.emission s *ᵥ x b s := by
  obtain ⟨M, hM, h⟩ := C67_step hK ht hw hbs
  refine ⟨M, hM, holdsMeanOn_of fun p s ss hs => ?_⟩
  obtain ⟨z, y, hz, hzy, hy⟩ := (h p s ss hs).transfer (P := fun b y => y = fun i => k.emission (ss b i) *ᵥ x b (ss b i)) fun b hb => by
    obtain ⟨x', hx', hs'⟩ := C31_step hS hF (hm b hb) (us b)
    rw [(hx b hb).unique hx']
    exact ⟨_, hs' p (ss b), rfl⟩
  exact ⟨z, hz, hzy.congr fun b hb => (hy b hb).2⟩

/-- C67: query times whose batch shape has another number of elements than that of the actions raise. -/
theorem C67_other_batch_raises {s : Tensor} (hs : (s.shape.drop 1).prod ≠ bs.prod) : ∃ M M', tensorImpulseMean t w K = .ok M ∧
    tensorStepMean t w K = .ok M' ∧ (∃ e, M s = .error e) ∧ ∃ e, M' s = .error e := by
  have key : ∀ sh : ℝ, ∃ m, TActionMean.init sh t w K = .ok m ∧ ∃ e, searchsortedT (sliceFrom 0 1 m.extended) s = .error e := by
    intro sh
    obtain ⟨m, hm, hmK, hma⟩ := actionInit_holds (k := fun _ => k) sh (fun r t δ f g hf hg => transitions_times hK hf hg) ht hw
    refine ⟨m, hm, ?_⟩
    have e : (sliceFrom 0 1 m.extended).shape = (n + 1) :: bs := by
      simp [sliceFrom, hma.extended.1, modifyAt]
    unfold searchsortedT
    rw [e]
    cases hv : s.shape with
    | nil => exact ⟨_, rfl⟩
    | cons q u =>
      dsimp only
      rw [hv, List.drop_succ_cons, List.drop_zero] at hs
      rw [if_neg (fun h : bs = u => hs (by rw [h]))]
      exact ⟨_, rfl⟩
  obtain ⟨m, hm, e, he⟩ := key 1e-6
  obtain ⟨m', hm', e', he'⟩ := key 0
  refine ⟨m.impulse, m'.step, by simp only [tensorImpulseMean, hm, Bind.bind, Except.bind]; rfl,
    by simp only [tensorStepMean, hm', Bind.bind, Except.bind]; rfl, ⟨e, ?_⟩, e', ?_⟩
  · simp only [TActionMean.impulse, TActionMean.impulseState, he, Bind.bind, Except.bind]
  · simp only [TActionMean.step, TActionMean.stepState, he', Bind.bind, Except.bind]

end

/-- C67: action times and perturbations of matching ranks whose batch shapes or numbers of actions differ are rejected by both constructors. (For other
ranks the comparison of the shapes broadcasts, as in C42.) -/
theorem C67_shapes_raise {t w : Tensor} (K : TKernel) (hr : w.shape.length = t.shape.length + 1) (h : t.shape ≠ w.shape.drop 1) :
    (∃ e, tensorImpulseMean t w K = .error e) ∧ ∃ e, tensorStepMean t w K = .error e := by
  obtain ⟨e, he⟩ : ∃ e, Shapes.assertEqual t.tfShape (w.shape.drop 1).reverse = .error e := by
    cases hx : Shapes.assertEqual t.tfShape (w.shape.drop 1).reverse with
    | error e => exact ⟨e, rfl⟩
    | ok u =>
      rw [show u = () from rfl, Shapes.assertEqual_ok] at hx
      have hl : t.tfShape.length = (w.shape.drop 1).reverse.length := by simp [Tensor.tfShape, hr]
      rcases hx with hx | ⟨k, hx, hc⟩ | ⟨k, hx, hc⟩
      · exact absurd (List.reverse_injective hx) h
      · refine absurd (List.reverse_injective (hx.trans ?_ : t.tfShape = _)) h
        obtain ⟨a, ha⟩ := List.length_eq_one_iff.1 (hl.symm.trans (by rw [hx]; rfl))
        rw [ha, hc a (by rw [ha]; simp)]
      · refine absurd (List.reverse_injective (Eq.trans ?_ hx.symm : t.tfShape = _)) h
        obtain ⟨a, ha⟩ := List.length_eq_one_iff.1 (hl.trans (by rw [hx]; rfl))
        rw [ha, hc a (by rw [ha]; simp)]
  constructor <;> refine ⟨e, ?_⟩
  · simp only [tensorImpulseMean, TActionMean.init, he, Bind.bind, Except.bind]
  · simp only [tensorStepMean, TActionMean.init, he, Bind.bind, Except.bind]

/-! ### In a regression -/

/-- C67 with C63 and C32: the log likelihood of a batched regression whose mean function is an impulse mean function is the sum over the batch of the
dense Gaussian log densities with, for each element, the response to the impulses of that element as the prior mean. -/
theorem C67_gpr_evidence {N : ℕ} (hbs : ∀ k ∈ bs, 0 < k) {K : TKernel} {k : Stationary o d} (hK : HoldsKernel K k) (hT : IgnoresTimes K) {c : ℝ → ℝ}
    (hk : Leaf k c) {t w T Y R : Tensor} {ts : List ℕ → Fin (n + 1) → ℝ} {us : List ℕ → Fin (n + 1) → Vec d} {xs : List ℕ → Fin (N + 1) → ℝ}
    {ys : List ℕ → Fin (N + 1) → Vec o} {R' : Mat o o} (ht : HoldsTimes bs t ts) (hw : HoldsVecs bs w us) (hm : ∀ b, InRange b bs → Monotone (ts b))
    (hX : HoldsTimes bs T xs) (hY : HoldsVecs bs Y ys) (hR : HoldsMat [] R fun _ => R') {cov : ℝ → ℝ → Mat o o}
    (hv : ∀ b, InRange b bs → (⟨xs b, ys b, k, fun s => k.emission s *ᵥ impulseResponse k.feedback (ts b) (us b) s, R'⟩ : GPR N o d).Valid cov) :
    ∃ M G, tensorImpulseMean t w K = .ok M ∧ TGPR.init T Y K (some M) (some R) = .ok G ∧
      G.logLikelihood = .ok (sumShape bs fun b => gaussLogDensity
        (meanVec (fun s => k.emission s *ᵥ impulseResponse k.feedback (ts b) (us b) s) (xs b))
        (gpGram cov (xs b) + (⟨xs b, ys b, k, fun s => k.emission s *ᵥ impulseResponse k.feedback (ts b) (us b) s, R'⟩ : GPR N o d).noiseCov)
        (stk (ys b))) := by
  obtain ⟨M, hM, hMh⟩ := C67_impulse_response hK ht hw hbs hT hk hm
  obtain ⟨G, hG, hGh⟩ := C63_gpr_init hX hY hK hMh hR
  exact ⟨M, G, hM, hG, C63_gpr_evidence hbs hGh hv⟩

/-! ### Over a stack of kernels -/

/-- C67: over a stack the impulse mean function returns a tensor of shape `batch_shape + [num_data, num_kernels]`: for every batch element and time
the impulse means of all the children, each with its own actions (and the leading entries of its perturbations). -/
theorem C67_stack_impulse (hR : 0 < R) (hbs : ∀ k ∈ bs, 0 < k) {Ks : Fin R → TKernel} {k : StackKernel R}
    (h : ∀ r, HoldsKernel (Ks r) (k.children r).2) (hT : ∀ r, IgnoresTimes (Ks r)) {K : TKernel} (hK : tensorStack Ks k.jitter = .ok K)
    {t w : Tensor} {ts : List ℕ → Fin R → Fin (n + 1) → ℝ} {us : List ℕ → Fin R → Fin (n + 1) → Vec k.stateDim} {us' : List ℕ → Fin (n + 1) → Vec k.stateDim}
    (hus : AtKernel us' us) (ht : HoldsVecs bs t ts) (hw : HoldsVecs (R :: bs) w us') :
    ∃ M, tensorImpulseMean t w K = .ok M ∧ ∀ (p : ℕ) (s : Tensor) (ss : List ℕ → Fin R → Fin p → ℝ), HoldsVecs bs s ss →
      ElementwiseAny bs (HoldsVecs bs) (M s) fun b => do
        let y ← seqFin fun r => impulseMean (k.children r).2 (ts b r) (fun q i => us b r q (i.castLE (k.le_stateDim r))) (ss b r)
        return fun q r => y r q 0 := stackImpulse_holds hR hbs h hT hK hus ht hw

theorem error_bind {α β : Type} {x : Except Err α} {f : α → Except Err β} (h : ∀ a, x = .ok a → ∃ e, f a = .error e) : ∃ e, (x >>= f) = .error e := by
  cases x with
  | error e => exact ⟨e, rfl⟩
  | ok a => exact h a rfl

theorem ok_bind {α β : Type} {x : Except Err α} {f : α → β} {y : β} (h : (x >>= fun a => pure (f a)) = .ok y) : ∃ a, x = .ok a ∧ y = f a := by
  cases x with
  | error e => cases h
  | ok a => exact ⟨a, rfl, (Except.ok.inj h).symm⟩

theorem actionInit_attrs {sh : ℝ} {t w : Tensor} {K : TKernel} {m : TActionMean} (h : TActionMean.init sh t w K = .ok m) :
    m.kernel = K ∧ m.perturbations = w := by
  unfold TActionMean.init at h
  cases h1 : Shapes.assertEqual t.tfShape (w.shape.drop 1).reverse with
  | error e => rw [h1] at h; cases h
  | ok u =>
    rw [h1] at h
    obtain ⟨a, -, rfl⟩ := ok_bind h
    exact ⟨rfl, rfl⟩

/-- C67 (a defect): the step mean function aligns the kernel axis of the feedback matrices of a stack with the axis of the actions. Over a stack of two
or more kernels it therefore raises at every query unless the number of actions happens to be the number of kernels. -/
theorem C67_stack_step_raises {Ks : Fin R → TKernel} {k : StackKernel R} (h : ∀ r, HoldsKernel (Ks r) (k.children r).2) {K : TKernel}
    (hK : tensorStack Ks k.jitter = .ok K) {t w : Tensor} {M : Tensor → Except Err Tensor} (hM : tensorStepMean t w K = .ok M) (hR : R ≠ 1)
    (hn : w.dim 1 ≠ R) (s : Tensor) : ∃ e, M s = .error e := by
  obtain ⟨hR0, rfl⟩ := tensorStack_eq hK
  obtain ⟨F, P, hF, -, hFs, -⟩ := stackConstants_holds hR0 h
  obtain ⟨m, hm, rfl⟩ : ∃ m, TActionMean.init 0 t w (stackTKernel Ks k.jitter) = .ok m ∧ M = m.step := ok_bind hM
  obtain ⟨hmK, hmw⟩ := actionInit_attrs hm
  have hA : ∃ e, m.stepA = .error e := by
    have hf : m.kernel.feedback = .ok F := by rw [hmK]; exact hF
    have hb : ∃ e, broadcastTo (m.stateDim :: m.stateDim :: m.numActions :: m.batch) F = .error e := by
      have hna : m.numActions = w.dim 1 := by rw [TActionMean.numActions, hmw]
      have h3 : ∀ x, bshape F.shape (m.stateDim :: m.stateDim :: m.numActions :: m.batch) = .ok x →
          x ≠ m.stateDim :: m.stateDim :: m.numActions :: m.batch := by
        intro x hx he
        rw [hFs, hna] at hx
        rw [he, hna] at hx
        simp only [bshape, Bind.bind, Except.bind] at hx
        by_cases h5 : w.dim 1 = 1
        · rw [if_pos (.inr h5)] at hx
          dsimp only at hx
          split_ifs at hx <;> simp_all
        · rw [if_neg (by rintro (h | h); exacts [hn h.symm, h5 h]), if_neg hR] at hx
          cases hx
      unfold broadcastTo
      refine error_bind fun x hx => ?_
      rw [if_neg (h3 x hx)]
      exact ⟨_, rfl⟩
    obtain ⟨e, he⟩ := hb
    exact ⟨e, by simp only [TActionMean.stepA, hf, he, Bind.bind, Except.bind]⟩
  obtain ⟨e, he⟩ := hA
  unfold TActionMean.step
  suffices h : ∃ e, m.stepState s = .error e by
    obtain ⟨e, he⟩ := h
    exact ⟨e, by simp only [he, Bind.bind, Except.bind]⟩
  unfold TActionMean.stepState
  refine error_bind fun _ _ => error_bind fun _ _ => error_bind fun _ _ => ?_
  simp only [he]
  exact ⟨e, rfl⟩

/-- C67 (a defect): neither of the two can be the mean function of a model over a stack of two or more kernels: their values have one column per
kernel, where a mean function must have one, and every prediction raises. -/
theorem C67_stack_not_a_mean_function {Ks : Fin R → TKernel} {k : StackKernel R} (h : ∀ r, HoldsKernel (Ks r) (k.children r).2) {K : TKernel}
    (hK : tensorStack Ks k.jitter = .ok K) (hR : R ≠ 1) {t w : Tensor} {M : Tensor → Except Err Tensor}
    (hM : tensorImpulseMean t w K = .ok M ∨ tensorStepMean t w K = .ok M) {C : TCondProcess} (hC : C.kernel = K) (hCM : C.meanFunction = M)
    {new : Tensor} {xs : List ℕ → Fin R → Fin p → ℝ} (hx : HoldsVecs bs new xs) (full : Bool) : ∃ e, C.predictF new full = .error e := by
  obtain ⟨hR0, rfl⟩ := tensorStack_eq hK
  have hn : (stackTKernel Ks k.jitter).numKernels = some R := rfl
  obtain ⟨H, H', hH, -, hHh⟩ := stackEmission_at hR0 (stackKernel_holds hR0 h) hx
  have hp : ∀ x y, tensorStackProjectState H x = .ok y → y.dim 0 = R := by
    intro x y hy
    have e1 : H.tfShape = (R :: bs).reverse ++ [p, 1, k.stateDim] := tfShape3 hHh.1
    unfold tensorStackProjectState at hy
    cases hc : Shapes.projectStateCheck H.tfShape x.tfShape with
    | error e => rw [hc] at hy; cases hy
    | ok u =>
      rw [hc] at hy
      obtain ⟨f, hf, rfl⟩ := ok_bind (f := fun f => matT (index 0 0 (index 0 0 f))) hy
      rw [e1] at hc
      obtain ⟨B, hB⟩ := (C42_project_state ..).1 hc
      have hxs : x.shape = k.stateDim :: p :: B.reverse := by
        have := congrArg List.reverse hB
        simpa [Tensor.tfShape] using this
      have hes : (expand 0 x).shape = 1 :: k.stateDim :: p :: B.reverse := by simp [expand, insertAt, hxs]
      unfold matmul at hf
      rw [hHh.1, hes] at hf
      simp only [if_true] at hf
      obtain ⟨v, hv, rfl⟩ := ok_bind hf
      have hvR : ∃ l, v = p :: R :: l := by
        simp only [bshape] at hv
        cases hb : bshape (R :: bs) B.reverse with
        | error e => rw [hb] at hv; cases hv
        | ok l =>
          simp only [hb, Bind.bind, Except.bind, true_or, if_true] at hv
          obtain rfl := Except.ok.inj hv
          cases hBr : B.reverse with
          | nil =>
            rw [hBr] at hb
            exact ⟨bs, by rw [show l = R :: bs from (Except.ok.inj hb).symm]⟩
          | cons a l' =>
            rw [hBr] at hb
            simp only [bshape] at hb
            cases hb' : bshape bs l' with
            | error e => rw [hb'] at hb; cases hb
            | ok l'' =>
              simp only [hb', Bind.bind, Except.bind] at hb
              split_ifs at hb
              exact ⟨l'', by rw [← Except.ok.inj hb]⟩
      obtain ⟨l, rfl⟩ := hvR
      rfl
  have hMy : ∀ y, M new = .ok y → y.dim 0 = R := by
    intro y hy
    have hpr : ∀ x : Except Err Tensor, (do
        let stateMean ← x
        let H ← (stackTKernel Ks k.jitter).emission new
        (stackTKernel Ks k.jitter).projectState H stateMean) = .ok y → y.dim 0 = R := by
      intro x hx
      cases x with
      | error e => cases hx
      | ok z =>
        simp only [hH, TKernel.projectState, hn, Bind.bind, Except.bind] at hx
        exact hp _ _ hx
    rcases hM with hM | hM
    · obtain ⟨m, hm, rfl⟩ := ok_bind hM
      obtain ⟨hmK, -⟩ := actionInit_attrs hm
      rw [← hmK] at hpr
      exact hpr _ hy
    · obtain ⟨m, hm, rfl⟩ := ok_bind hM
      obtain ⟨hmK, -⟩ := actionInit_attrs hm
      rw [← hmK] at hpr
      exact hpr _ hy
  unfold TCondProcess.predictF
  rw [hC, hCM]
  refine error_bind fun _ _ => error_bind fun q _ => error_bind fun _ _ => error_bind fun _ _ => error_bind fun y hy => ?_
  have : (stackTKernel Ks k.jitter).correctMeanShape y = .error .invalidArgument := by
    simp only [TKernel.correctMeanShape, hn, hMy y hy, ne_eq, hR, not_false_eq_true, if_true]
  rw [this]
  exact ⟨_, rfl⟩

/-- C67 (a defect): with as many actions as kernels the step mean function over a stack uses the feedback matrix of kernel `q` for action `q` of every
kernel. Two Matérn 1/2 kernels with lengthscales 1 and 2, for each of them unit actions at the times 0 and 1: at the time 1/2 the value for the
second kernel is half of the value of the step mean function of that kernel. -/
theorem C67_stack_step_wrong : ∃ (K₁ K₂ K : TKernel) (k₂ : Stationary 1 1) (t w s y : Tensor) (M : Tensor → Except Err Tensor),
    tensorMatern12 1 1 1 0 = .ok K₁ ∧ tensorMatern12 1 2 1 0 = .ok K₂ ∧ matern12 1 2 1 0 = .ok k₂ ∧ tensorStack ![K₁, K₂] 0 = .ok K ∧
    HoldsVecs (n := 2) (d := 2) [] t (fun _ _ => ![0, 1]) ∧ HoldsVecs (n := 2) (d := 1) [2] w (fun _ _ _ => 1) ∧
    HoldsVecs (n := 2) (d := 1) [] s (fun _ _ _ => 1 / 2) ∧ tensorStepMean t w K = .ok M ∧ M s = .ok y ∧
    stepMean k₂ ![0, 1] (fun _ _ => 1) (fun _ : Fin 1 => 1 / 2) = .ok (fun _ _ => 2 * (1 - Real.exp (-1 / 4))) ∧
    y.val [1, 0] = 1 - Real.exp (-1 / 4) := by
  obtain ⟨k1, hk1⟩ := (C28_constructors (o := 1) 1 1 1 1 1 0).1.2 (by norm_num)
  obtain ⟨k2, hk2⟩ := (C28_constructors (o := 1) 2 1 1 1 1 0).1.2 (by norm_num)
  rcases (C63_kernels 1 1 1 1 1 1 0).1 with ⟨K1, k1', hK1, hk1', hKk1⟩ | ⟨e, -, he⟩
  swap
  · rw [hk1] at he
    cases he
  obtain rfl : k1 = k1' := Except.ok.inj (hk1.symm.trans hk1')
  rcases (C63_kernels 1 2 1 1 1 1 0).1 with ⟨K2, k2', hK2, hk2', hKk2⟩ | ⟨e, -, he⟩
  swap
  · rw [hk2] at he
    cases he
  obtain rfl : k2 = k2' := Except.ok.inj (hk2.symm.trans hk2')
  rcases C66_constructor (Ks := ![K1, K2]) (children := ![⟨_, k1⟩, ⟨_, k2⟩]) (Fin.cases hKk1 fun r => by rw [Subsingleton.elim r 0]; exact hKk2) 0 with
    ⟨K, k, hK, hk, -⟩ | ⟨e, -, he⟩
  swap
  · simp [StackKernel.init] at he
  have hke : k = ⟨![⟨_, k1⟩, ⟨_, k2⟩], 0⟩ := by
    have := hk
    simp only [StackKernel.init] at this
    rw [if_neg (by norm_num), if_neg (by norm_num)] at this
    exact (Except.ok.inj this).symm
  subst hke
  have e1 : k1 = .base (fun _ δ => !![Real.exp (-δ / 1)]) !![-1 / 1] !![1] 0 0 (fun _ => sdeEmission 1 1) := by
    have := hk1
    simp only [matern12, kernelInit] at this
    split_ifs at this
    exact (Except.ok.inj this).symm
  have e2 : k2 = .base (fun _ δ => !![Real.exp (-δ / 2)]) !![-1 / 2] !![1] 0 0 (fun _ => sdeEmission 1 1) := by
    have := hk2
    simp only [matern12, kernelInit] at this
    split_ifs at this
    exact (Except.ok.inj this).symm
  obtain ⟨k, hkd⟩ : ∃ k : StackKernel 2, k = ⟨![⟨_, k1⟩, ⟨_, k2⟩], 0⟩ := ⟨_, rfl⟩
  have hD : k.stateDim = 1 := by rw [hkd]; rfl
  have h1 := slice_one k hD (r := 0) (c := k1) (by rw [hkd]; rfl)
  have h2 := slice_one k hD (r := 1) (c := k2) (by rw [hkd]; rfl)
  have hj : k.jitter = 0 := by rw [hkd]
  have hch : ∀ r, HoldsKernel ((![K1, K2] : Fin 2 → TKernel) r) (k.children r).2 := by
    rw [hkd]
    exact Fin.cases hKk1 fun r => by rw [Subsingleton.elim r 0]; exact hKk2
  have f1 : ∀ i j, (k.slice 0).feedback i j = -1 := fun i j => by rw [(h1 i j 0 0).2.2, e1]; simp [Stationary.base]
  have f2 : ∀ i j, (k.slice 1).feedback i j = -1 / 2 := fun i j => by rw [(h2 i j 0 0).2.2, e2]; simp [Stationary.base]
  have a1 : ∀ i j, (k.slice 0).stateTransitions (1 / 2) (1 / 2) i j = Real.exp (-(1 / 2)) := fun i j => by
    rw [(h1 i j _ _).1, e1]; simp [Stationary.base]
  have a2 : ∀ i j, (k.slice 1).stateTransitions (1 / 2) (1 / 2) i j = Real.exp (-1 / 4) := fun i j => by
    rw [(h2 i j _ _).1, e2]; simp [Stationary.base]; ring_nf
  have m2 : ∀ i, (k.slice 1).emission (1 / 2) 0 i = 1 := fun i => by
    rw [(h2 i i _ 0).2.1, e2]; simp [Stationary.base, sdeEmission]
  obtain ⟨M, hM, hMs⟩ := stackStep_holds (n := 1) (bs := []) (k := k) (Ks := ![K1, K2]) (K := K) (by simp) hch (by rw [hj]; exact hK)
    (t := ⟨[2, 2], fun i => i.getD 0 0⟩) (w := ⟨[1, 2, 2], fun _ => 1⟩) (ts := fun _ _ => ![0, 1]) (us := fun _ _ _ _ => 1) (us' := fun _ _ _ => 1)
    (fun _ _ => rfl) ⟨rfl, fun b _ r i => by fin_cases i <;> simp⟩ ⟨by rw [hD], fun _ _ _ _ => rfl⟩
  have hS : HoldsVecs (n := 2) (d := 1) [] ⟨[1, 2], fun _ => 1 / 2⟩ fun _ _ _ => 1 / 2 := ⟨rfl, fun _ _ _ _ => rfl⟩
  have hv : ∀ r, stepStates (fun q => (k.slice q).feedback) (k.slice r) ![0, 1] (fun _ _ => 1) (fun _ : Fin 1 => 1 / 2) =
      .ok ((![fun _ _ => (Real.exp (-(1 / 2)) - 1) / -1, fun _ _ => (Real.exp (-1 / 4) - 1) / -1] : Fin 2 → Fin 1 → Vec k.stateDim) r) := by
    have hF : ∀ q i j, (k.slice q).feedback i j = (![-1, -1 / 2] : Fin 2 → ℝ) q := by
      intro q i j
      fin_cases q
      · exact f1 i j
      · exact f2 i j
    have hf : ∀ q, (![-1, -1 / 2] : Fin 2 → ℝ) q ≠ 0 := by
      intro q
      fin_cases q <;> norm_num
    intro r
    fin_cases r
    · exact stepStates_one hD _ _ hf hF a1
    · exact stepStates_one hD _ _ hf hF a2
  rcases hMs 1 _ _ hS with ⟨y, z, hy, hyz, hz⟩ | ⟨-, b, hb, e, he⟩
  swap
  · simp only [seqFin_ok hv, Bind.bind, Except.bind, Pure.pure, Except.pure] at he
    cases he
  refine ⟨K1, K2, K, k2, _, _, _, y, M, hK1, hK2, hk2, hK, ⟨rfl, fun b _ r i => ?_⟩, ⟨rfl, fun _ _ _ _ => rfl⟩, hS, hM, hy, ?_, ?_⟩
  · fin_cases i <;> simp
  · rw [stepMean_eq, stepStates_one rfl (fun _ => k2.feedback) k2 (f := fun _ => -1 / 2) (a := Real.exp (-1 / 4)) (fun _ => by norm_num)]
    · simp only [Bind.bind, Except.bind, Pure.pure, Except.pure]
      congr 1
      funext i j
      obtain rfl : j = 0 := Subsingleton.elim j 0
      rw [projectStateToF_eq, e2]
      simp [Stationary.base, sdeEmission, mulVec, dotProduct]
      ring
    · intro q i j
      obtain rfl : i = 0 := Subsingleton.elim i 0
      obtain rfl : j = 0 := Subsingleton.elim j 0
      rw [e2]; simp [Stationary.base]
    · intro i j
      obtain rfl : i = 0 := Subsingleton.elim i 0
      obtain rfl : j = 0 := Subsingleton.elim j 0
      rw [e2]; simp [Stationary.base]; ring_nf
  · have h0 := hz [] trivial
    simp only [seqFin_ok hv, Bind.bind, Except.bind, Pure.pure, Except.pure] at h0
    have hv1 := hyz.2 [] trivial 0 1
    rw [← Except.ok.inj h0] at hv1
    refine hv1.trans ?_
    haveI : Unique (Fin k.stateDim) := by rw [hD]; infer_instance
    have m2' := m2 default
    rw [one_div] at m2'
    simp [stackProjectStateToF, Matrix.mul_apply, m2']
    ring

/-! ### The hypotheses can be met -/

/-- Two batch elements with different action times and different perturbations, for a Matérn 3/2 kernel. -/
example : ∃ (K : TKernel) (k : Stationary 1 2) (c : ℝ → ℝ) (t w : Tensor) (ts : List ℕ → Fin 3 → ℝ) (us : List ℕ → Fin 3 → Vec 2),
    HoldsKernel K k ∧ IgnoresTimes K ∧ Leaf k c ∧ IsUnit k.feedback.det ∧ (∀ s, SolvesSDE k.feedback (k.stateTransitions s)) ∧
    HoldsTimes [2] t ts ∧ HoldsVecs [2] w us ∧ (∀ b, InRange b [2] → Monotone (ts b)) ∧ ts [0] ≠ ts [1] ∧ us [0] ≠ us [1] ∧
    (∃ M, tensorImpulseMean t w K = .ok M ∧ HoldsMeanOn [2] M fun b s => k.emission s *ᵥ impulseResponse k.feedback (ts b) (us b) s) ∧
    ∃ (M : Tensor → Except Err Tensor) (x : List ℕ → ℝ → Vec 2), tensorStepMean t w K = .ok M ∧ (∀ b, InRange b [2] → IsStepResponse k.feedback (ts b) (us b) (x b)) ∧
      HoldsMeanOn [2] M fun b s => k.emission s *ᵥ x b s := by
  obtain ⟨T, -, -, K, k, hK, hk, hKk, hT, -, -, hb⟩ := batch_example
  have hI : IgnoresTimes K := C67_ignores_times.1 1 2 3 1 1 1 0 K (.inr (.inr (.inl hK)))
  have hL : Leaf k (matern32Cov 2 3) := .matern32 hk
  have hF : IsUnit k.feedback.det := (C31_feedback_invertible 1).2.2.1 _ _ _ _ hk
  have hS := C26_transitions_solve_sde hL
  have hW : HoldsVecs (n := 3) (d := 2) [2] ⟨[2, 3, 2], fun i => i.getD 0 0 + i.getD 2 0⟩ fun b _ i => (i : ℝ) + b.getD 0 0 :=
    ⟨rfl, fun b _ q i => by simp⟩
  have hm : ∀ b, InRange b [2] → Monotone fun i : Fin 3 => (i : ℝ) * ((b.getD 0 0 : ℕ) + 1) := fun b h => (hb b h).1.monotone
  choose! x hx using fun b h => (C31_step hS hF (hm b h) fun _ i => (i : ℝ) + ((b.getD 0 0 : ℕ) : ℝ))
  obtain ⟨M, hM, hMh⟩ := C67_step_response hKk hT hW (by simp) hF hS hm fun b h => (hx b h).1
  refine ⟨K, k, _, T, _, _, _, hKk, hI, hL, hF, hS, hT, hW, hm, ?_, ?_, C67_impulse_response hKk hT hW (by simp) hI hL hm,
    M, x, hM, fun b h => (hx b h).1, hMh⟩
  · intro h
    have := congrFun h 1
    norm_num at this
  · intro h
    have := congrFun (congrFun h 0) 0
    norm_num at this

end MF
