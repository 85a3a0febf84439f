import Verif.Lemmas.BatchedStack3
import Verif.Props.Stack
import Verif.Props.BatchedVariational

/-!
# C66: stacks of kernels on raw tensors, for every batch shape

`Spec/BatchedStack.lean` says what it means that a tensor holds, for every batch element `b` and kernel `r`, the value of the typed model of
`Verif/Model/Stack.lean`. `ElementwiseAny` is: one call per batch element, and the batched call raises exactly when one of them does.
-/

namespace MF
open Matrix Spec Tensor MeasureTheory ProbabilityTheory InformationTheory

variable {n p R : ℕ} {bs ss : List ℕ}

theorem Spec.ElementwiseAny.transfer {α β : Type*} {R : β → (List ℕ → α) → Prop} {X : Except Err β} {Y : List ℕ → Except Err α}
    (h : ElementwiseAny bs R X Y) {P : List ℕ → α → Prop} (hP : ∀ b, InRange b bs → ∃ y, Y b = .ok y ∧ P b y) :
    ∃ x y, X = .ok x ∧ R x y ∧ ∀ b, InRange b bs → Y b = .ok (y b) ∧ P b (y b) := by
  rcases h with ⟨x, y, hx, hr, hy⟩ | ⟨-, b, hb, e, hy⟩
  · refine ⟨x, y, hx, hr, fun b hb => ⟨hy b hb, ?_⟩⟩
    obtain ⟨y', h1, h2⟩ := hP b hb
    rw [hy b hb] at h1
    rw [Except.ok.inj h1]
    exact h2
  · obtain ⟨y', h1, -⟩ := hP b hb
    rw [hy] at h1
    cases h1

theorem sumShape_neg (u : List ℕ) (f : List ℕ → ℝ) : sumShape u (fun b => -f b) = -sumShape u f := by
  induction u generalizing f with
  | nil => rfl
  | cons k u ih => simp only [sumShape, ih, Finset.sum_neg_distrib]

/-! ### The kernel -/

/-- C66: `IndependentMultiOutputStack(kernels, jitter)`: the constructor raises on the same arguments as in the model of a single batch element, and
otherwise the kernel object acts, for every batch shape, at kernel index `r` as child `r`, with its state padded to the common dimension. -/
theorem C66_constructor {Ks : Fin R → TKernel} {children : Fin R → Σ d, Stationary 1 d} (h : ∀ r, HoldsKernel (Ks r) (children r).2) (jitter : ℝ) :
    SameStack (tensorStack Ks jitter) (StackKernel.init children jitter) := tensorStack_holds h jitter

/-- C66: the `feedback_matrix` and the `steady_state_covariance` of a stack: shapes `[R, D, D]` and `[R, 1, D, D]` for the largest state dimension
`D` of the children; the leading block of entry `r` is the matrix of child `r`, the rest is the identity (also for the feedback matrix, whose
documentation says zeros). -/
theorem C66_constants {Ks : Fin R → TKernel} {children : Fin R → Σ d, Stationary 1 d} (h : ∀ r, HoldsKernel (Ks r) (children r).2) {jitter : ℝ}
    {K : TKernel} (hK : tensorStack Ks jitter = .ok K) : ∃ (F P : Tensor) (D : ℕ), K.feedback = .ok F ∧ K.Pinf = .ok P ∧ K.stateDim = D ∧
      (∀ r, (children r).1 ≤ D) ∧ (∃ r, (children r).1 = D) ∧ F.shape = [D, D, R] ∧ P.shape = [D, D, 1, R] ∧
      ∀ (r : Fin R) (i j : Fin D),
        F.val [(j : ℕ), (i : ℕ), (r : ℕ)] = (if h : (i : ℕ) < (children r).1 ∧ (j : ℕ) < (children r).1 then
          (children r).2.feedback ⟨i, h.1⟩ ⟨j, h.2⟩ else if (i : ℕ) = j then 1 else 0) ∧
        P.val [(j : ℕ), (i : ℕ), 0, (r : ℕ)] = if h : (i : ℕ) < (children r).1 ∧ (j : ℕ) < (children r).1 then
          (children r).2.Pinf ⟨i, h.1⟩ ⟨j, h.2⟩ else if (i : ℕ) = j then 1 else 0 := by
  have h1 : ∀ r, (Ks r).outputDim = 1 := fun r => (h r).outputDim
  have hR : 0 < R := Nat.pos_of_ne_zero fun h0 => by
    rw [tensorStack, if_pos h0] at hK
    cases hK
  have hK' : K = stackTKernel Ks jitter := by
    rw [tensorStack, if_neg hR.ne', if_neg (not_not.2 fun r r' => by rw [h1, h1]), if_neg (not_not.2 h1)] at hK
    split_ifs at hK
    exact (Except.ok.inj hK).symm
  obtain ⟨F, P, hF, hP, hFs, hPs, hv⟩ := stackConstants_holds hR (ks := ⟨children, jitter⟩) h
  refine ⟨F, P, _, by rw [hK']; exact hF, by rw [hK']; exact hP, by rw [hK']; exact stackStateDim_eq (ks := ⟨children, jitter⟩) h,
    StackKernel.le_stateDim ⟨children, jitter⟩, ?_, hFs, hPs, fun r i j => ?_⟩
  · obtain ⟨r, -, hr⟩ := Finset.exists_mem_eq_sup (Finset.univ : Finset (Fin R)) ⟨⟨0, hR⟩, Finset.mem_univ _⟩ fun r => (children r).1
    exact ⟨r, hr.symm⟩
  · obtain ⟨h1, h2⟩ := hv r i j
    obtain ⟨h3, h4⟩ := slice_consts (children r).2 (Nat.add_sub_cancel' (StackKernel.le_stateDim ⟨children, jitter⟩ r)) jitter i j
    exact ⟨h1.trans h3, h2.trans h4⟩

/-- C66: a stack of `R` kernels rejects times whose last batch axis is not `R`, or that have no batch axis: `generate_emission_model`,
`initial_mean` and `state_space_model` raise. -/
theorem C66_rejects_other_batch_shapes {Ks : Fin R → TKernel} {jitter : ℝ} {K : TKernel} (h : tensorStack Ks jitter = .ok K) {t : Tensor}
    (ht : (t.shape.drop 1).head? ≠ some R) :
    (∃ e, K.emission t = .error e) ∧ (∃ e, K.initialMean (t.shape.drop 1) = .error e) ∧ ∃ e, K.stateSpaceModel t = .error e := by
  have hc : checkBatchShape (some R) (t.shape.drop 1) = .error .invalidArgument := by simp only [checkBatchShape, if_neg ht]
  have hK : K = stackTKernel Ks jitter := by
    unfold tensorStack at h
    split_ifs at h
    exact (Except.ok.inj h).symm
  subst hK
  have h2 : (stackTKernel Ks jitter).initialMean (t.shape.drop 1) = .error .invalidArgument := by
    simp only [stackTKernel, hc, Bind.bind, Except.bind]
  refine ⟨⟨.invalidArgument, by simp only [stackTKernel, stackEmission, hc, Bind.bind, Except.bind]⟩, ⟨_, h2⟩, ?_⟩
  unfold TKernel.stateSpaceModel
  rcases (stackTKernel Ks jitter).transitionStatisticsFromTimePoints t with e | ⟨As, Qs⟩
  · exact ⟨e, rfl⟩
  · exact ⟨.invalidArgument, by simp only [h2, Bind.bind, Except.bind]⟩

variable {k : StackKernel R}

/-- C66: `state_space_model(time_points)` of a stack, with times of any batch shape `bs + [R]`. -/
theorem C66_state_space_model (hR : 0 < R) (hbs : ∀ k ∈ bs, 0 < k) {K : TKernel} (h : HoldsStackKernel K k) {t : Tensor}
    {ts : List ℕ → Fin R → Fin (n + 1) → ℝ} (ht : HoldsVecs bs t ts) :
    ElementwiseAny bs (HoldsStackSSM bs) (K.stateSpaceModel t) fun b => k.stateSpaceModel (ts b) := stackSSM_holds hR hbs h ht

/-! ### Predictions -/

/-- C66: `predict_state` of a posterior process over a stack. -/
theorem C66_predict_state (hR : 0 < R) (hbs : ∀ k ∈ bs, 0 < k) {C : TCondProcess} {c : List ℕ → StackProcess n k} (h : HoldsStackProcess bs C c)
    {new : Tensor} {xs : List ℕ → Fin R → Fin (p + 1) → ℝ} (hx : HoldsVecs bs new xs) :
    ElementwiseAny bs (HoldsStackPred bs) (C.predictState new) fun b => (c b).predictState (xs b) := stackPredictState_holds hR hbs h hx

/-- C66: `predict_f` of a posterior process over a stack, with and without `full_output_cov`: one vector of outputs for every batch element and time. -/
theorem C66_predict_f (hR : 0 < R) (hbs : ∀ k ∈ bs, 0 < k) {C : TCondProcess} {c : List ℕ → StackProcess n k} (h : HoldsStackProcess bs C c)
    {new : Tensor} {xs : List ℕ → Fin R → Fin (p + 1) → ℝ} (hx : HoldsVecs bs new xs) :
    ElementwiseAny bs (HoldsPred bs) (C.predictF new true) (fun b => (c b).predictF (xs b)) ∧
      ElementwiseAny bs (HoldsPredDiag bs) (C.predictF new false) fun b => (c b).predictFDiag (xs b) := stackPredictF_holds hR hbs h hx

/-- C66 with C55: at times between the first and the last conditioning time of each child both forms of `predict_f` succeed, and at every batch
element and time the predicted outputs are the marginals of independent processes, one per child, each following its own distribution at its own
conditioning times and its own prior conditional in between. -/
theorem C66_predict_law (hR : 0 < R) (hbs : ∀ k ∈ bs, 0 < k) {C : TCondProcess} {c : List ℕ → StackProcess n k} (h : HoldsStackProcess bs C c)
    {cov : Fin R → ℝ → ℝ → Mat 1 1} (hc : ∀ b, InRange b bs → k.Valid cov (c b).times (c b).q)
    {new : Tensor} {xs : List ℕ → Fin R → Fin (p + 1) → ℝ} (hx : HoldsVecs bs new xs)
    (hi : ∀ b, InRange b bs → ∀ r j, (c b).times r 0 ≤ xs b r j ∧ xs b r j ≤ (c b).times r (Fin.last n)) :
    ∃ (F f : Tensor × Tensor) (mean var : List ℕ → Fin (p + 1) → Vec R), C.predictF new true = .ok F ∧ C.predictF new false = .ok f ∧
      HoldsPredDiag bs f (fun b j => (mean b j, var b j)) ∧ HoldsPred bs F (fun b j => (mean b j, diagonal (var b j))) ∧
      ∀ b, InRange b bs → (∀ j r, 0 ≤ var b j r) ∧ ∃ ν : Fin R → Measure _,
        (∀ r, IsPredictive (slicePrior (k.children r).2 k.stateDim ((c b).meanFunction r) ((c b).times r) (xs b r)) ((c b).q r).law (ν r)) ∧
        ∀ j, (Measure.pi ν).map (fun x r => (x r).2 (j, 0)) = Measure.pi fun r => gaussianReal (mean b j r) (var b j r).toNNReal := by
  have key := fun b hb => C55_predict (c := c b) (hc b hb) (X := xs b) (fun r j => (hi b hb r j).1) fun r j => (hi b hb r j).2
  obtain ⟨f, f', hf, hff, hf'⟩ := (stackPredictF_holds hR hbs h hx).2.transfer (P := fun b f => ∃ F, (c b).predictF (xs b) = .ok F ∧
      (∀ j, (F j).1 = (f j).1 ∧ (F j).2 = diagonal (f j).2 ∧ ∀ r, 0 ≤ (f j).2 r) ∧ ∃ ν : Fin R → Measure _,
        (∀ r, IsPredictive (slicePrior (k.children r).2 k.stateDim ((c b).meanFunction r) ((c b).times r) (xs b r)) ((c b).q r).law (ν r)) ∧
        ∀ j, (Measure.pi ν).map (fun x r => (x r).2 (j, 0)) = Measure.pi fun r => gaussianReal ((f j).1 r) ((f j).2 r).toNNReal) fun b hb => by
    obtain ⟨f, F, ν, h1, h2, -, h4, h5⟩ := key b hb
    exact ⟨f, h1, F, h2, fun j => ⟨(h5 j).1, (h5 j).2.1, (h5 j).2.2.1⟩, ν, h4, fun j => (h5 j).2.2.2⟩
  obtain ⟨F, F', hF, hFF, hF'⟩ := (stackPredictF_holds hR hbs h hx).1.transfer (P := fun b F =>
      F = fun j => ((f' b j).1, diagonal (f' b j).2)) fun b hb => by
    obtain ⟨-, F, h1, h2, -⟩ := hf' b hb
    exact ⟨F, h1, funext fun j => Prod.ext (h2 j).1 (h2 j).2.1⟩
  refine ⟨F, f, fun b j => (f' b j).1, fun b j => (f' b j).2, hF, hf, hff, ?_, fun b hb => ?_⟩
  · refine ⟨⟨hFF.1.1, fun b hb => ?_⟩, ⟨hFF.2.1, fun b hb => ?_⟩⟩
    · have := (hF' b hb).2
      intro t i
      rw [hFF.1.2 b hb t i]
      beta_reduce
      rw [this]
    · have := (hF' b hb).2
      intro t i j
      rw [hFF.2.2 b hb t i j]
      beta_reduce
      rw [this]
  · obtain ⟨-, _, -, h2, h3⟩ := hf' b hb
    exact ⟨fun j => (h2 j).2.2, h3⟩

/-! ### Sampling -/

/-- C66: `sample_state_trajectories(new_time_points, sample_shape)` over a stack: each kernel, batch element and sample from its own draws. -/
theorem C66_trajectories (hR : 0 < R) (hbs : ∀ k ∈ bs, 0 < k) (hd : 0 < k.stateDim) {C : TCondProcess} {c : List ℕ → StackProcess n k}
    (h : HoldsStackProcess bs C c) {new : Tensor} {xs : List ℕ → Fin R → Fin p → ℝ} (hx : HoldsVecs bs new xs) (hss : ∀ k ∈ ss, 0 < k)
    (e₁ e₂ : List ℕ → ℝ) :
    ElementwiseAny (bs ++ ss) (HoldsStackTrajectories (bs ++ ss)) (C.sampleStateTrajectories new ss e₁ e₂) fun b =>
      (c (b.take bs.length)).sampleStateTrajectories (xs (b.take bs.length)) (fun r t i => e₁ (0 :: (i : ℕ) :: (t : ℕ) :: (r : ℕ) :: b))
        fun r t i => e₂ (0 :: (i : ℕ) :: (t : ℕ) :: (r : ℕ) :: b) := stackTrajectories_holds hR hbs hd h hx hss e₁ e₂

/-- C66: `sample_f(new_time_points, sample_shape)` over a stack. -/
theorem C66_sample_f (hR : 0 < R) (hbs : ∀ k ∈ bs, 0 < k) (hd : 0 < k.stateDim) {C : TCondProcess} {c : List ℕ → StackProcess n k}
    (h : HoldsStackProcess bs C c) {new : Tensor} {xs : List ℕ → Fin R → Fin p → ℝ} (hx : HoldsVecs bs new xs) (hss : ∀ k ∈ ss, 0 < k)
    (e₁ e₂ : List ℕ → ℝ) :
    ElementwiseAny (bs ++ ss) (HoldsVecs (bs ++ ss)) (C.sampleF new ss e₁ e₂) fun b =>
      (c (b.take bs.length)).sampleF (xs (b.take bs.length)) (fun r t i => e₁ (0 :: (i : ℕ) :: (t : ℕ) :: (r : ℕ) :: b))
        fun r t i => e₂ (0 :: (i : ℕ) :: (t : ℕ) :: (r : ℕ) :: b) := stackSampleF_holds hR hbs hd h hx hss e₁ e₂

/-! ### Variational GP -/

/-- C66: building `VariationalGaussianProcess` with a stack, from times of shape `bs + [R, N]` and observations of shape `bs + [N, R]`, with the
default and with a given initial distribution. -/
theorem C66_vgp_init (hR : 0 < R) (hbs : ∀ k ∈ bs, 0 < k) {T Y : Tensor} {ts : List ℕ → Fin R → Fin (n + 1) → ℝ} {ys : List ℕ → Fin (n + 1) → Vec R}
    (hT : HoldsVecs bs T ts) (hY : HoldsVecs bs Y ys) {K : TKernel} (hK : HoldsStackKernel K k) (lik : ScalarLikelihood)
    {M : Option (Tensor → Except Err Tensor)} {m : Option (Fin R → ℝ → ℝ)}
    (hM : HoldsStackMean bs (M.getD (tensorZeroMean 1)) fun _ => m.getD fun _ _ => 0) :
    ElementwiseAny bs (HoldsStackVGP bs) (TVGP.init T Y K lik M none) (fun b => StackVGP.init (ts b) (ys b) k lik.toVector m none) ∧
    ∀ (Q : TSSM) (q : List ℕ → Fin R → SSM n k.stateDim), HoldsStackSSM bs Q q →
      ElementwiseAny bs (HoldsStackVGP bs) (TVGP.init T Y K lik M (some Q)) fun b => StackVGP.init (ts b) (ys b) k lik.toVector m (some (q b)) :=
  ⟨stackVgpInit_holds hR hbs hT hY hK lik hM (.inl ⟨rfl, fun _ _ => rfl⟩), fun Q q hQ =>
    stackVgpInit_holds hR hbs hT hY hK lik hM (.inr ⟨Q, q, rfl, hQ, fun _ _ => rfl⟩)⟩

/-- C66: the posterior of a variational GP over a stack is the process of each batch element, and its objective is the sum of theirs. -/
theorem C66_vgp (hR : 0 < R) (hbs : ∀ k ∈ bs, 0 < k) {V : TVGP} {v : List ℕ → StackVGP n k (Vec R)} (h : HoldsStackVGP bs V v) :
    HoldsStackProcess bs V.posterior (fun b => (v b).posterior) ∧
    ElementwiseAny bs (fun e E => e = sumShape bs E) V.elbo (fun b => (v b).elbo) ∧
    ElementwiseAny bs (fun e E => e = sumShape bs E) V.loss fun b => (v b).loss := by
  refine ⟨stackVgpPosterior h, stackVgpElbo_holds hR hbs h, ?_⟩
  rcases stackVgpElbo_holds hR hbs h with ⟨e, E, he, hE, hEv⟩ | ⟨⟨e, he⟩, b, hb, e', hE⟩
  · refine .inl ⟨-e, fun b => -E b, by simp only [TVGP.loss, he, Bind.bind, Except.bind]; rfl, ?_, fun b hb => ?_⟩
    · beta_reduce; rw [hE, sumShape_neg]
    · have := hEv b hb
      beta_reduce at this
      simp only [StackVGP.loss, this, Bind.bind, Except.bind]
      rfl
  · refine .inr ⟨⟨e, by simp only [TVGP.loss, he, Bind.bind, Except.bind]⟩, b, hb, e', ?_⟩
    beta_reduce at hE
    simp only [StackVGP.loss, hE, Bind.bind, Except.bind]

/-- C66 with C55: the objective of a variational GP over a stack with batched data bounds the sum of the log evidences of the batch elements, with the
summed Kullback–Leibler divergences as the gap; it is attained exactly when the process at every batch element is its posterior. -/
theorem C66_vgp_bound (hR : 0 < R) (hbs : ∀ k ∈ bs, 0 < k) {V : TVGP} {v : List ℕ → StackVGP n k (Vec R)} (h : HoldsStackVGP bs V v)
    {cov : Fin R → ℝ → ℝ → Mat 1 1} (hv : ∀ b, InRange b bs → k.Valid cov (v b).times (v b).q) (hlik : ExactLikelihood V.likelihood) :
    ∃ (e : ℝ) (ν : (b : List ℕ) → Fin R → Measure _), V.elbo = .ok e ∧ V.loss = .ok (-e) ∧
      (∀ b, InRange b bs → ∀ r, IsPredictive
        (slicePrior (k.children r).2 k.stateDim ((v b).meanFunction r) ((v b).times r) ((v b).times r)) ((v b).q r).law (ν b r)) ∧
      ∀ post : (b : List ℕ) → Measure _, (∀ b, InRange b bs → IsBayesPosterior (k.prior (v b).meanFunction (v b).times (v b).times)
          (fun x => stackLogLik V.likelihood.toVector (v b).observations fun r => (x r).2) (post b)) →
        sumShape bs (fun b => Real.log (evidence (Measure.pi fun r => gpLaw (fun t _ => (v b).meanFunction r t) (cov r) ((v b).times r))
          (stackLogLik V.likelihood.toVector (v b).observations)).toReal) = e + sumShape bs (fun b => (klDiv (Measure.pi (ν b)) (post b)).toReal) ∧
        e ≤ sumShape bs (fun b => Real.log (evidence (Measure.pi fun r => gpLaw (fun t _ => (v b).meanFunction r t) (cov r) ((v b).times r))
          (stackLogLik V.likelihood.toVector (v b).observations)).toReal) ∧
        (e = sumShape bs (fun b => Real.log (evidence (Measure.pi fun r => gpLaw (fun t _ => (v b).meanFunction r t) (cov r) ((v b).times r))
          (stackLogLik V.likelihood.toVector (v b).observations)).toReal) ↔ ∀ b, InRange b bs → Measure.pi (ν b) = post b) := by
  have hlik' : ∀ b, InRange b bs → ExactVector (v b).likelihood := fun b hb => by rw [h.likelihood b hb]; exact C55_scalar_likelihood hlik
  obtain ⟨e, E, he, hE, hEv⟩ := (stackVgpElbo_holds hR hbs h).transfer (P := fun b E => ∃ ν : Fin R → Measure _,
      (∀ r, IsPredictive (slicePrior (k.children r).2 k.stateDim ((v b).meanFunction r) ((v b).times r) ((v b).times r)) ((v b).q r).law (ν r)) ∧
      ∀ post, IsBayesPosterior (k.prior (v b).meanFunction (v b).times (v b).times)
          (fun x => stackLogLik V.likelihood.toVector (v b).observations fun r => (x r).2) post →
        Real.log (evidence (Measure.pi fun r => gpLaw (fun t _ => (v b).meanFunction r t) (cov r) ((v b).times r))
          (stackLogLik V.likelihood.toVector (v b).observations)).toReal = E + (klDiv (Measure.pi ν) post).toReal ∧
        E ≤ Real.log (evidence (Measure.pi fun r => gpLaw (fun t _ => (v b).meanFunction r t) (cov r) ((v b).times r))
          (stackLogLik V.likelihood.toVector (v b).observations)).toReal ∧
        (E = Real.log (evidence (Measure.pi fun r => gpLaw (fun t _ => (v b).meanFunction r t) (cov r) ((v b).times r))
          (stackLogLik V.likelihood.toVector (v b).observations)).toReal ↔ Measure.pi ν = post)) fun b hb => by
    obtain ⟨E, ν, h1, -, h3, h4⟩ := C55_vgp (hv b hb) (hlik' b hb)
    refine ⟨E, h1, ν, h3, fun post hp => ?_⟩
    have := (h4 post (by
      have e1 : (v b).toSparse.logLik (p := n + 1) (v b).observations = fun x => stackLogLik V.likelihood.toVector (v b).observations fun r => (x r).2 := by
        rw [← h.likelihood b hb]; rfl
      rw [e1]; exact hp)).2
    rwa [h.likelihood b hb] at this
  choose! ν hν using fun b hb => (hEv b hb).2
  refine ⟨e, ν, he, by simp only [TVGP.loss, he, Bind.bind, Except.bind]; rfl, fun b hb => (hν b hb).1, fun post hp => ?_⟩
  have key := fun b hb => (hν b hb).2 (post b) (hp b hb)
  have hle := fun b hb => (key b hb).2.1
  subst hE
  refine ⟨?_, sumShape_le hle, ?_⟩
  · rw [← sumShape_add]
    exact sumShape_congr fun b hb => (key b hb).1
  · rw [sumShape_eq_iff hle]
    exact forall₂_congr fun b hb => (key b hb).2.2

/-! ### Sparse variational GP -/

/-- C66: building `SparseVariationalGaussianProcess` with a stack, from inducing inputs of shape `bs + [R, M]`. -/
theorem C66_svgp_init (hR : 0 < R) (hbs : ∀ k ∈ bs, 0 < k) {Z : Tensor} {zs : List ℕ → Fin R → Fin (n + 1) → ℝ} (hZ : HoldsVecs bs Z zs)
    {K : TKernel} (hK : HoldsStackKernel K k) (lik : ScalarLikelihood) (numData : Option ℕ)
    {M : Option (Tensor → Except Err Tensor)} {m : Option (Fin R → ℝ → ℝ)}
    (hM : HoldsStackMean bs (M.getD (tensorZeroMean 1)) fun _ => m.getD fun _ _ => 0) :
    ElementwiseAny bs (HoldsStackSVGP bs) (TSVGP.init K lik Z M numData none) (fun b => StackSVGP.init k lik.toVector (zs b) m numData none) ∧
    ∀ (Q : TSSM) (q : List ℕ → Fin R → SSM n k.stateDim), HoldsStackSSM bs Q q →
      ElementwiseAny bs (HoldsStackSVGP bs) (TSVGP.init K lik Z M numData (some Q)) fun b =>
        StackSVGP.init k lik.toVector (zs b) m numData (some (q b)) :=
  ⟨stackSvgpInit_holds hR hbs hZ hK lik numData hM (.inl ⟨rfl, fun _ _ => rfl⟩), fun Q q hQ =>
    stackSvgpInit_holds hR hbs hZ hK lik numData hM (.inr ⟨Q, q, rfl, hQ, fun _ _ => rfl⟩)⟩

/-- C66: the posterior of a sparse variational GP over a stack is the process of each batch element, and its objective is the sum of theirs. -/
theorem C66_svgp (hR : 0 < R) (hbs : ∀ k ∈ bs, 0 < k) {V : TSVGP} {v : List ℕ → StackSVGP n k (Vec R)} (h : HoldsStackSVGP bs V v) {X Y : Tensor}
    {xs : List ℕ → Fin R → Fin (p + 1) → ℝ} {ys : List ℕ → Fin (p + 1) → Vec R} (hX : HoldsVecs bs X xs) (hY : HoldsVecs bs Y ys) :
    HoldsStackProcess bs V.posterior (fun b => (v b).posterior) ∧
    ElementwiseAny bs (fun e E => e = sumShape bs E) (V.elbo X Y) (fun b => (v b).elbo (xs b) (ys b)) ∧
    ElementwiseAny bs (fun e E => e = sumShape bs E) (V.loss X Y) fun b => (v b).loss (xs b) (ys b) := by
  refine ⟨stackSvgpPosterior h, stackSvgpElbo_holds hR hbs h hX hY, ?_⟩
  rcases stackSvgpElbo_holds hR hbs h hX hY with ⟨e, E, he, hE, hEv⟩ | ⟨⟨e, he⟩, b, hb, e', hE⟩
  · refine .inl ⟨-e, fun b => -E b, by simp only [TSVGP.loss, he, Bind.bind, Except.bind]; rfl, ?_, fun b hb => ?_⟩
    · beta_reduce; rw [hE, sumShape_neg]
    · have := hEv b hb
      beta_reduce at this
      simp only [StackSVGP.loss, this, Bind.bind, Except.bind]
      rfl
  · refine .inr ⟨⟨e, by simp only [TSVGP.loss, he, Bind.bind, Except.bind]⟩, b, hb, e', ?_⟩
    beta_reduce at hE
    simp only [StackSVGP.loss, hE, Bind.bind, Except.bind]

/-- C66 with C55: the objective of a sparse variational GP over a stack, on batched data between the inducing points of each kernel, bounds the sum of
the log evidences of the batch elements, with the summed Kullback–Leibler divergences as the gap; equality exactly when the process at every batch
element is its posterior. -/
theorem C66_svgp_bound (hR : 0 < R) (hbs : ∀ k ∈ bs, 0 < k) {V : TSVGP} {v : List ℕ → StackSVGP n k (Vec R)} (h : HoldsStackSVGP bs V v)
    {cov : Fin R → ℝ → ℝ → Mat 1 1} (hv : ∀ b, InRange b bs → k.Valid cov (v b).inducing (v b).q) (hlik : ExactLikelihood V.likelihood) {X Y : Tensor}
    {xs : List ℕ → Fin R → Fin (p + 1) → ℝ} {ys : List ℕ → Fin (p + 1) → Vec R} (hX : HoldsVecs bs X xs) (hY : HoldsVecs bs Y ys)
    (hN : V.numData = none ∨ V.numData = some (p + 1))
    (hx : ∀ b, InRange b bs → ∀ r j, (v b).inducing r 0 ≤ xs b r j ∧ xs b r j ≤ (v b).inducing r (Fin.last n)) :
    ∃ (e : ℝ) (ν : (b : List ℕ) → Fin R → Measure _), V.elbo X Y = .ok e ∧ V.loss X Y = .ok (-e) ∧
      (∀ b, InRange b bs → ∀ r, IsPredictive
        (slicePrior (k.children r).2 k.stateDim ((v b).meanFunction r) ((v b).inducing r) (xs b r)) ((v b).q r).law (ν b r)) ∧
      ∀ post : (b : List ℕ) → Measure _, (∀ b, InRange b bs → IsBayesPosterior (k.prior (v b).meanFunction (v b).inducing (xs b))
          (fun x => stackLogLik V.likelihood.toVector (ys b) fun r => (x r).2) (post b)) →
        sumShape bs (fun b => Real.log (evidence (Measure.pi fun r => gpLaw (fun t _ => (v b).meanFunction r t) (cov r) (xs b r))
          (stackLogLik V.likelihood.toVector (ys b))).toReal) = e + sumShape bs (fun b => (klDiv (Measure.pi (ν b)) (post b)).toReal) ∧
        e ≤ sumShape bs (fun b => Real.log (evidence (Measure.pi fun r => gpLaw (fun t _ => (v b).meanFunction r t) (cov r) (xs b r))
          (stackLogLik V.likelihood.toVector (ys b))).toReal) ∧
        (e = sumShape bs (fun b => Real.log (evidence (Measure.pi fun r => gpLaw (fun t _ => (v b).meanFunction r t) (cov r) (xs b r))
          (stackLogLik V.likelihood.toVector (ys b))).toReal) ↔ ∀ b, InRange b bs → Measure.pi (ν b) = post b) := by
  have hlik' : ∀ b, InRange b bs → ExactVector (v b).likelihood := fun b hb => by rw [h.likelihood b hb]; exact C55_scalar_likelihood hlik
  obtain ⟨e, E, he, hE, hEv⟩ := (stackSvgpElbo_holds hR hbs h hX hY).transfer (P := fun b E => ∃ ν : Fin R → Measure _,
      (∀ r, IsPredictive (slicePrior (k.children r).2 k.stateDim ((v b).meanFunction r) ((v b).inducing r) (xs b r)) ((v b).q r).law (ν r)) ∧
      ∀ post, IsBayesPosterior (k.prior (v b).meanFunction (v b).inducing (xs b))
          (fun x => stackLogLik V.likelihood.toVector (ys b) fun r => (x r).2) post →
        Real.log (evidence (Measure.pi fun r => gpLaw (fun t _ => (v b).meanFunction r t) (cov r) (xs b r))
          (stackLogLik V.likelihood.toVector (ys b))).toReal = E + (klDiv (Measure.pi ν) post).toReal ∧
        E ≤ Real.log (evidence (Measure.pi fun r => gpLaw (fun t _ => (v b).meanFunction r t) (cov r) (xs b r))
          (stackLogLik V.likelihood.toVector (ys b))).toReal ∧
        (E = Real.log (evidence (Measure.pi fun r => gpLaw (fun t _ => (v b).meanFunction r t) (cov r) (xs b r))
          (stackLogLik V.likelihood.toVector (ys b))).toReal ↔ Measure.pi ν = post)) fun b hb => by
    obtain ⟨E, ν, h1, -, h3, h4⟩ := C55_bound (hv b hb) (hlik' b hb) (Nat.succ_pos p) (by rw [h.numData b hb]; exact hN)
      (fun r j => (hx b hb r j).1) (fun r j => (hx b hb r j).2) (ys b)
    refine ⟨E, h1, ν, h3, fun post hp => ?_⟩
    have := (h4 post (by
      have e1 : (v b).logLik (ys b) = fun x => stackLogLik V.likelihood.toVector (ys b) fun r => (x r).2 := by
        rw [← h.likelihood b hb]; rfl
      rw [e1]; exact hp)).2
    rwa [h.likelihood b hb] at this
  choose! ν hν using fun b hb => (hEv b hb).2
  refine ⟨e, ν, he, by simp only [TSVGP.loss, he, Bind.bind, Except.bind]; rfl, fun b hb => (hν b hb).1, fun post hp => ?_⟩
  have key := fun b hb => (hν b hb).2 (post b) (hp b hb)
  have hle := fun b hb => (key b hb).2.1
  subst hE
  refine ⟨?_, sumShape_le hle, ?_⟩
  · rw [← sumShape_add]
    exact sumShape_congr fun b hb => (key b hb).1
  · rw [sumShape_eq_iff hle]
    exact forall₂_congr fun b hb => (key b hb).2.2

/-- C66: for a stack of noisy kernels with jitter zero and valid times, both constructors succeed without an initial distribution; it is then the prior,
and the model satisfies the hypotheses of the bounds. -/
theorem C66_default_distribution {cov : Fin R → ℝ → ℝ → Mat 1 1} (hb : ∀ r, Builds (k.children r).2 (cov r)) (hN : ∀ r, NoiseTag (k.children r).2 true)
    (hj : k.jitter = 0) {z : Fin R → Fin (n + 1) → ℝ} (hz : ∀ r, StrictMono (z r)) (h0 : ∀ r, -10000000000 < z r 0)
    (h1 : ∀ r, z r (Fin.last n) ≤ 10000000000) (hn : 0 < n) (lik : VectorLikelihood R (Vec R)) (m : Option (Fin R → ℝ → ℝ)) (num : Option ℕ)
    (ys : Fin (n + 1) → Vec R) :
    ∃ s, k.stateSpaceModel z = .ok s ∧ k.Valid cov z s ∧
      StackSVGP.init k lik z m num none = .ok ⟨lik, z, m.getD fun _ _ => 0, num, s⟩ ∧
      StackVGP.init z ys k lik m none = .ok ⟨z, ys, lik, m.getD fun _ _ => 0, s⟩ := by
  have hv : k.Valid cov z (fun _ => (⟨fun _ => 1, 1, fun _ => 1, fun _ => 0, fun _ => 1⟩ : SSM n k.stateDim)) := by
    refine ⟨hb, hN, hj, hz, h0, h1, hn, fun r i => ?_⟩
    refine Fin.cases ?_ (fun i => ?_) i <;>
    exact ⟨fun a b hab => Matrix.one_apply_ne hab.ne, fun a => (Matrix.one_apply_eq (α := ℝ) a).trans_ne one_ne_zero⟩
  obtain ⟨s, hs, hnd, -⟩ := (C55_prior hv (p := 0) (fun _ _ => 0) (X := fun _ => Fin.elim0) (fun _ j => j.elim0) fun _ j => j.elim0).1
  have hcopy : (fun r => (s r).createTrainableCopy) = s := funext fun r => by
    unfold SSM.createTrainableCopy
    rw [show tril (s r).cholP0 = (s r).cholP0 from (hnd r 0).1.tril_eq,
      show (fun k => tril ((s r).cholQ k)) = (s r).cholQ from funext fun k => (hnd r k.succ).1.tril_eq]
  refine ⟨s, hs, ⟨hb, hN, hj, hz, h0, h1, hn, hnd⟩, ?_, ?_⟩
  · simp only [StackSVGP.init, hs, Bind.bind, Except.bind, Pure.pure, Except.pure, hcopy]
  · simp only [StackVGP.init, hs, Bind.bind, Except.bind, Pure.pure, Except.pure, hcopy]

/-! ### Non-vacuity -/

/-- Non-vacuity of the theorems on sparse models, their posteriors and bounds: a stack of a Matérn 1/2 and a Matérn 3/2 kernel built from tensors, two
batch elements, inducing points that differ between kernels and between batch elements, Poisson counts; the constructor succeeds without an initial
distribution, and all elements are valid. -/
example : ∃ (Ks : Fin 2 → TKernel) (K : TKernel) (k : StackKernel 2) (Z X Y : Tensor) (V : TSVGP) (v : List ℕ → StackSVGP 2 k (Vec 2))
    (cov : Fin 2 → ℝ → ℝ → Mat 1 1) (xs : List ℕ → Fin 2 → Fin (2 + 1) → ℝ) (ys : List ℕ → Fin (2 + 1) → Vec 2),
    tensorStack Ks 0 = .ok K ∧ (Ks 0).stateDim ≠ (Ks 1).stateDim ∧ TSVGP.init K poissonLikelihood Z none (some 3) none = .ok V ∧
    HoldsStackSVGP [2] V v ∧ (∀ b, InRange b [2] → k.Valid cov (v b).inducing (v b).q) ∧ ExactLikelihood V.likelihood ∧ V.numData = some (2 + 1) ∧
    HoldsVecs [2] X xs ∧ HoldsVecs [2] Y ys ∧ (v [0]).inducing ≠ (v [1]).inducing ∧ (v [0]).inducing 0 ≠ (v [0]).inducing 1 ∧
    (∀ b, InRange b [2] → ∀ r j, (v b).inducing r 0 ≤ xs b r j ∧ xs b r j ≤ (v b).inducing r (Fin.last 2)) ∧ 0 < k.stateDim ∧
    (∀ b, InRange b [2] → ∀ r, Function.Injective (xs b r) ∧ ∀ j i, xs b r j ≠ (v b).inducing r i) := by
  obtain ⟨k1, hk1⟩ := (C28_constructors (o := 1) 2 3 1 1 1 0).1.2 (by norm_num)
  obtain ⟨k2, hk2⟩ := (C28_constructors (o := 1) 1 2 1 1 1 0).2.1.2 (by norm_num)
  rcases (C63_kernels 1 2 3 1 1 1 0).1 with ⟨K1, k1', hK1, hk1', hKk1⟩ | ⟨e, -, he⟩
  swap
  · rw [hk1] at he
    cases he
  obtain rfl : k1 = k1' := Except.ok.inj (hk1.symm.trans hk1')
  rcases (C63_kernels 1 1 2 1 1 1 0).2.2.1 with ⟨K2, k2', hK2, hk2', hKk2⟩ | ⟨e, -, he⟩
  swap
  · rw [hk2] at he
    cases he
  obtain rfl : k2 = k2' := Except.ok.inj (hk2.symm.trans hk2')
  rcases C66_constructor (Ks := ![K1, K2]) (children := ![⟨_, k1⟩, ⟨_, k2⟩]) (Fin.cases hKk1 fun r => by rw [Subsingleton.elim r 0]; exact hKk2) 0 with
    ⟨K, k, hK, hk, hKk⟩ | ⟨e, -, he⟩
  swap
  · simp [StackKernel.init] at he
  have hke : k = ⟨![⟨_, k1⟩, ⟨_, k2⟩], 0⟩ := by
    have := hk
    simp only [StackKernel.init] at this
    rw [if_neg (by norm_num), if_neg (by norm_num)] at this
    exact (Except.ok.inj this).symm
  have hB : ∀ r, ∃ c, Builds (k.children r).2 c := by
    subst hke
    exact Fin.cases ⟨_, .leaf (.matern12 hk1)⟩ fun r => by rw [Subsingleton.elim r 0]; exact ⟨_, .leaf (.matern32 hk2)⟩
  choose cov hB using hB
  have hN : ∀ r, NoiseTag (k.children r).2 true := by
    subst hke
    exact Fin.cases (.matern12 hk1) fun r => by rw [Subsingleton.elim r 0]; exact .matern32 hk2
  have hd : k.stateDim = 2 := by rw [hke]; rfl
  obtain ⟨z, hz⟩ : ∃ z : List ℕ → Fin 2 → Fin 3 → ℝ, z = fun (b : List ℕ) (r : Fin 2) (i : Fin 3) => (i : ℝ) * (r + 1 + 2 * b.getD 0 0) := ⟨_, rfl⟩
  have hZ : HoldsVecs [2] ⟨[3, 2, 2], fun i => i.getD 0 0 * (i.getD 1 0 + 1 + 2 * i.getD 2 0)⟩ z :=
    ⟨rfl, fun b _ r i => by rw [hz]; simp⟩
  obtain ⟨xs, hxs⟩ : ∃ x : List ℕ → Fin 2 → Fin 3 → ℝ, x = fun (b : List ℕ) (r : Fin 2) (i : Fin 3) => ((i : ℝ) / 2 + 1 / 3) * (r + 1 + 2 * b.getD 0 0) := ⟨_, rfl⟩
  have hX : HoldsVecs [2] ⟨[3, 2, 2], fun i => (i.getD 0 0 / 2 + 1 / 3) * (i.getD 1 0 + 1 + 2 * i.getD 2 0)⟩ xs :=
    ⟨rfl, fun b _ r i => by rw [hxs]; simp⟩
  have hY : HoldsVecs (n := 3) (d := 2) [2] ⟨[2, 3, 2], fun i => i.getD 0 0 + i.getD 1 0 + i.getD 2 0⟩ fun b i r => (r : ℝ) + i + b.getD 0 0 :=
    ⟨rfl, fun b _ r i => by simp⟩
  have hmono : ∀ b r, StrictMono (z b r) := fun b r i j hij => by
    have : (i : ℝ) < j := by exact_mod_cast hij
    rw [hz]
    exact mul_lt_mul_of_pos_right this (by positivity)
  have hzero : ∀ b r, z b r 0 = 0 := fun b r => by rw [hz]; simp
  have hlast : ∀ (b : List ℕ) (r : Fin 2), z b r (Fin.last 2) = 2 * (r + 1 + 2 * b.getD 0 0) := fun b r => by rw [hz]; simp [Fin.last]
  have hup : ∀ b, InRange b [2] → ∀ r, z b r (Fin.last 2) ≤ 10000000000 := fun b hb r => by
    obtain ⟨i, b', rfl, hi, -⟩ := inRange_cons_iff.1 hb
    have h1 : (i : ℝ) < 2 := by exact_mod_cast hi
    have h2 : ((r : ℕ) : ℝ) < 2 := by exact_mod_cast r.2
    rw [hlast, List.getD_cons_zero]
    linarith
  have hmean : HoldsStackMean [2] ((none : Option (Tensor → Except Err Tensor)).getD (tensorZeroMean 1))
      fun _ => (none : Option (Fin 2 → ℝ → ℝ)).getD fun _ _ => 0 := stackMean_of (C63_mean_functions 1 1 5 (.inl rfl)).1 [2]
  obtain ⟨V, v, hV, hVv, hv⟩ := (C66_svgp_init (bs := [2]) (by norm_num) (by simp) hZ hKk poissonLikelihood (some 3) hmean).1.transfer (P := fun b w =>
      k.Valid cov w.inducing w.q ∧ w.inducing = z b ∧ w.numData = some 3) fun b hb => by
    obtain ⟨s, -, h2, h3, -⟩ := C66_default_distribution (k := k) hB hN (by rw [hke]) (hmono b) (fun r => by rw [hzero]; norm_num) (hup b hb) (by norm_num)
      poissonLikelihood.toVector none (some 3) fun _ _ => 0
    exact ⟨_, h3, h2, rfl, rfl⟩
  have h0 : InRange [0] [2] := ⟨by norm_num, trivial⟩
  have h1 : InRange [1] [2] := ⟨by norm_num, trivial⟩
  have hVl : V.likelihood = poissonLikelihood := by
    have := hV
    simp only [TSVGP.init, Bind.bind, Except.bind, Pure.pure, Except.pure] at this
    split at this
    · cases this
    · split at this
      · cases this
      · cases this; rfl
  refine ⟨![K1, K2], K, k, _, _, _, V, v, cov, xs, _, hK, ?_, hV, hVv, fun b hb => (hv b hb).2.1, by rw [hVl]; exact poissonLikelihood_exact,
    (hVv.numData _ h0).symm.trans (hv _ h0).2.2.2, hX, hY, ?_, ?_, fun b hb r j => ?_, by rw [hd]; norm_num, fun b hb r => ⟨fun i j hij => ?_, fun j i => ?_⟩⟩
  · show K1.stateDim ≠ K2.stateDim
    rw [hKk1.stateDim, hKk2.stateDim]
    norm_num
  · rw [(hv _ h0).2.2.1, (hv _ h1).2.2.1]
    intro h
    have := congrFun (congrFun h 0) 1
    rw [hz] at this
    norm_num at this
  · rw [(hv _ h0).2.2.1]
    intro h
    have := congrFun h 1
    rw [hz] at this
    norm_num at this
  · rw [(hv _ hb).2.2.1, hzero, hlast, hxs]
    have h2 : ((j : ℕ) : ℝ) ≤ 2 := by exact_mod_cast Nat.lt_succ_iff.1 j.2
    have h3 : (0 : ℝ) ≤ (r : ℕ) + 1 + 2 * b.getD 0 0 := by positivity
    constructor
    · positivity
    · nlinarith
  · rw [hxs] at hij
    have h3 : (r : ℝ) + 1 + 2 * b.getD 0 0 ≠ 0 := by positivity
    have h4 := mul_right_cancel₀ h3 hij
    have h5 : (i : ℝ) = j := by linarith
    exact Fin.ext (by exact_mod_cast h5)
  · rw [(hv _ hb).2.2.1, hxs, hz]
    have h3 : (r : ℝ) + 1 + 2 * b.getD 0 0 ≠ 0 := by positivity
    intro h
    have h4 := mul_right_cancel₀ h3 h
    have h5 : (3 * j + 2 : ℝ) = 6 * i := by linarith
    have h6 : 3 * (j : ℕ) + 2 = 6 * (i : ℕ) := by exact_mod_cast h5
    omega

end MF
