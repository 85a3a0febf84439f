import Verif.Lemmas.BatchedStack2

/-!
# Variational models over a stack of kernels, on tensors of any batch shape
-/

namespace MF
open Matrix Spec Tensor

variable {n d p R : ℕ} {bs u : List ℕ} {k : StackKernel R}

theorem sumShape_cons (f : List ℕ → ℝ) : sumShape (R :: bs) f = sumShape bs fun b => ∑ r : Fin R, f ((r : ℕ) :: b) := by
  rw [sumShape_sum]
  rfl

/-- The KL divergences of the kernels, summed -/
theorem stackKL_holds (hR : 0 < R) (hbs : ∀ k ∈ bs, 0 < k) {S S' : TSSM} {s s' : List ℕ → Fin R → SSM n d} (h : HoldsStackSSM bs S s) (h' : HoldsStackSSM bs S' s') :
    ElementwiseAny bs (fun x (y : List ℕ → Fin R → ℝ) => x.sumAll = sumShape bs fun b => ∑ r, y b r) (S.klDivergence S') fun b =>
      seqFin fun r => (s b r).klDivergence (s' b r) := by
  obtain ⟨q, hq, hS⟩ := h
  obtain ⟨q', hq', hS'⟩ := h'
  refine (elementwise_stack (Y := fun b r => (s b r).klDivergence (s' b r)) (klDivergence_holds (pos_cons hR hbs) hS hS') fun b r => ?_).mono fun x y hxy => ?_
  · dsimp only
    rw [hq b r, hq' b r]
  · obtain ⟨y', hy', hx⟩ := hxy
    rw [sumAll_real hx, sumShape_cons]
    exact sumShape_congr fun b _ => Finset.sum_congr rfl fun r _ => hy' b r

theorem stackVgpPosterior {V : TVGP} {v : List ℕ → StackVGP n k (Vec R)} (h : HoldsStackVGP bs V v) :
    HoldsStackProcess bs V.posterior fun b => (v b).posterior := ⟨h.q, h.kernel, h.times, h.mean⟩

theorem stackSvgpPosterior {V : TSVGP} {v : List ℕ → StackSVGP n k (Vec R)} (h : HoldsStackSVGP bs V v) :
    HoldsStackProcess bs V.posterior fun b => (v b).posterior := ⟨h.q, h.kernel, h.inducing, h.mean⟩

theorem stackVgpElbo_holds (hR : 0 < R) (hbs : ∀ k ∈ bs, 0 < k) {V : TVGP} {v : List ℕ → StackVGP n k (Vec R)} (h : HoldsStackVGP bs V v) :
    ElementwiseAny bs (fun e E => e = sumShape bs E) V.elbo fun b => (v b).elbo := by
  rcases (stackPredictF_holds hR hbs (stackVgpPosterior h) h.times).2 with ⟨x, f, hx, hr, hf⟩ | ⟨⟨e, hx⟩, b, hb, e', hf⟩
  swap
  · exact .inr ⟨⟨e, by simp only [TVGP.elbo, hx, Bind.bind, Except.bind]⟩, b, hb, e', by simp only [StackVGP.elbo, hf, Bind.bind, Except.bind]⟩
  obtain ⟨w, hw, hwh⟩ := likelihoodTerm_holds V.likelihood.varExp hr.1 hr.2 h.observations
  rcases stackSSM_holds hR hbs h.kernel h.times with ⟨P, p', hP, hPh, hp⟩ | ⟨⟨e, hP⟩, b, hb, e', hp⟩
  swap
  · refine .inr ⟨⟨e, by simp only [TVGP.elbo, TVGP.distP, hx, hw, hP, Bind.bind, Except.bind]⟩, b, hb, e', ?_⟩
    have e1 := hf b hb
    simp only [StackVGP.elbo, StackVGP.distP, e1, hp, Bind.bind, Except.bind]
  rcases stackKL_holds hR hbs h.q hPh with ⟨K, k', hK, hKh, hk⟩ | ⟨⟨e, hK⟩, b, hb, e', hk⟩
  swap
  · refine .inr ⟨⟨e, by simp only [TVGP.elbo, TVGP.distP, hx, hw, hP, hK, Bind.bind, Except.bind]⟩, b, hb, e', ?_⟩
    have e1 := hf b hb
    have e2 := hp b hb
    dsimp only at hk
    simp only [StackVGP.elbo, StackVGP.distP, e1, e2, Bind.bind, Except.bind]
    rw [hk]
  refine .inl ⟨w.sumAll - K.sumAll, fun b => (∑ i, V.likelihood.toVector.varExp (f b i).1 (f b i).2 ((v b).observations i)) - ∑ r, k' b r, ?_, ?_, fun b hb => ?_⟩
  · simp only [TVGP.elbo, TVGP.distP, hx, hw, hP, hK, Bind.bind, Except.bind, Pure.pure, Except.pure]
  · beta_reduce
    rw [sumAll_vec hwh, hKh, sumShape_sub]
    rfl
  · have e1 := hf b hb
    have e2 := hp b hb
    have e3 := hk b hb
    dsimp only at e3
    simp only [StackVGP.elbo, StackVGP.distP, e1, e2, h.likelihood b hb, Bind.bind, Except.bind, Pure.pure, Except.pure]
    rw [e3]

theorem stackSvgpElbo_holds (hR : 0 < R) (hbs : ∀ k ∈ bs, 0 < k) {V : TSVGP} {v : List ℕ → StackSVGP n k (Vec R)} (h : HoldsStackSVGP bs V v) {X Y : Tensor}
    {xs : List ℕ → Fin R → Fin (p + 1) → ℝ} {ys : List ℕ → Fin (p + 1) → Vec R} (hX : HoldsVecs bs X xs) (hY : HoldsVecs bs Y ys) :
    ElementwiseAny bs (fun e E => e = sumShape bs E) (V.elbo X Y) fun b => (v b).elbo (xs b) (ys b) := by
  rcases (stackPredictF_holds hR hbs (stackSvgpPosterior h) hX).2 with ⟨x, f, hx, hr, hf⟩ | ⟨⟨e, hx⟩, b, hb, e', hf⟩
  swap
  · exact .inr ⟨⟨e, by simp only [TSVGP.elbo, hx, Bind.bind, Except.bind]⟩, b, hb, e', by simp only [StackSVGP.elbo, hf, Bind.bind, Except.bind]⟩
  obtain ⟨w, hw, hwh⟩ := likelihoodTerm_holds V.likelihood.varExp hr.1 hr.2 hY
  rcases stackSSM_holds hR hbs h.kernel h.inducing with ⟨P, p', hP, hPh, hp⟩ | ⟨⟨e, hP⟩, b, hb, e', hp⟩
  swap
  · refine .inr ⟨⟨e, by simp only [TSVGP.elbo, TSVGP.distP, hx, hw, hP, Bind.bind, Except.bind]⟩, b, hb, e', ?_⟩
    have e1 := hf b hb
    simp only [StackSVGP.elbo, StackSVGP.distP, e1, hp, Bind.bind, Except.bind]
  rcases stackKL_holds hR hbs h.q hPh with ⟨K, k', hK, hKh, hk⟩ | ⟨⟨e, hK⟩, b, hb, e', hk⟩
  swap
  · refine .inr ⟨⟨e, by simp only [TSVGP.elbo, TSVGP.distP, hx, hw, hP, hK, Bind.bind, Except.bind]⟩, b, hb, e', ?_⟩
    have e1 := hf b hb
    have e2 := hp b hb
    dsimp only at hk
    simp only [StackSVGP.elbo, StackSVGP.distP, e1, e2, Bind.bind, Except.bind]
    rw [hk]
  have hXd : X.dim 0 = p + 1 := by simp [dim, hX.1]
  obtain ⟨a, ha⟩ : ∃ a : ℝ, (V.numData = none ∧ a = 1) ∨ ∃ N, V.numData = some N ∧ a = (N : ℝ) / ((p + 1 : ℕ) : ℝ) := by
    cases V.numData with
    | none => exact ⟨_, .inl ⟨rfl, rfl⟩⟩
    | some N => exact ⟨_, .inr ⟨N, rfl, rfl⟩⟩
  refine .inl ⟨w.sumAll * a - K.sumAll, fun b => (∑ i, V.likelihood.toVector.varExp (f b i).1 (f b i).2 (ys b i)) * a - ∑ r, k' b r, ?_, ?_, fun b hb => ?_⟩
  · rcases ha with ⟨hN, rfl⟩ | ⟨N, hN, rfl⟩ <;>
      simp only [TSVGP.elbo, TSVGP.distP, hx, hw, hP, hK, hXd, hN, Bind.bind, Except.bind, Pure.pure, Except.pure]
  · beta_reduce
    rw [sumAll_vec hwh, hKh, sumShape_sub, sumShape_mul]
    rfl
  · have e1 := hf b hb
    have e2 := hp b hb
    have e3 := hk b hb
    dsimp only at e3
    rcases ha with ⟨hN, rfl⟩ | ⟨N, hN, rfl⟩
    all_goals
      simp only [StackSVGP.elbo, StackSVGP.distP, e1, e2, h.likelihood b hb, h.numData b hb, hN, Bind.bind, Except.bind, Pure.pure, Except.pure]
      rw [e3]

theorem stackCopy_holds {S : TSSM} {s : List ℕ → Fin R → SSM n d} (h : HoldsStackSSM bs S s) :
    ∃ C, S.createTrainableCopy = .ok C ∧ HoldsStackSSM bs C fun b r => (s b r).createTrainableCopy := by
  obtain ⟨s', hs, hS⟩ := h
  obtain ⟨C, hC, hCh⟩ := createTrainableCopy_holds hS
  exact ⟨C, hC, _, fun b r => by dsimp only; rw [hs b r], hCh⟩

theorem stackVgpInit_holds (hR : 0 < R) (hbs : ∀ k ∈ bs, 0 < k) {T Y : Tensor} {ts : List ℕ → Fin R → Fin (n + 1) → ℝ} {ys : List ℕ → Fin (n + 1) → Vec R}
    (hT : HoldsVecs bs T ts) (hY : HoldsVecs bs Y ys) {K : TKernel} (hK : HoldsStackKernel K k) (lik : ScalarLikelihood)
    {M : Option (Tensor → Except Err Tensor)} {m : Option (Fin R → ℝ → ℝ)}
    (hM : HoldsStackMean bs (M.getD (tensorZeroMean 1)) fun _ => m.getD fun _ _ => 0)
    {Q : Option TSSM} {q : List ℕ → Option (Fin R → SSM n k.stateDim)} (hQ : (Q = none ∧ ∀ b, InRange b bs → q b = none) ∨
      ∃ (S : TSSM) (s : List ℕ → Fin R → SSM n k.stateDim), Q = some S ∧ HoldsStackSSM bs S s ∧ ∀ b, InRange b bs → q b = some (s b)) :
    ElementwiseAny bs (HoldsStackVGP bs) (TVGP.init T Y K lik M Q) fun b => StackVGP.init (ts b) (ys b) k lik.toVector m (q b) := by
  have key : ∀ (S : TSSM) (s : List ℕ → Fin R → SSM n k.stateDim), HoldsStackSSM bs S s →
      ∃ C, S.createTrainableCopy = .ok C ∧ HoldsStackVGP bs ⟨T, Y, K, lik, M.getD (tensorZeroMean 1), C⟩ fun b =>
        (⟨ts b, ys b, lik.toVector, m.getD fun _ _ => 0, fun r => (s b r).createTrainableCopy⟩ : StackVGP n k (Vec R)) := fun S s hS => by
    obtain ⟨C, hC, hCh⟩ := stackCopy_holds hS
    exact ⟨C, hC, hT, hY, hK, fun _ _ => rfl, hM, hCh⟩
  rcases hQ with ⟨rfl, hq⟩ | ⟨S, s, rfl, hS, hq⟩
  · rcases stackSSM_holds hR hbs hK hT with ⟨S, s, hS, hSh, hs⟩ | ⟨⟨e, hS⟩, b, hb, e', hs⟩
    · obtain ⟨C, hC, hV⟩ := key S s hSh
      refine .inl ⟨_, _, ?_, hV, fun b hb => ?_⟩
      · simp only [TVGP.init, hS, hC, Bind.bind, Except.bind, Pure.pure, Except.pure]
      · have e1 := hs b hb
        simp only [StackVGP.init, hq b hb, e1, Bind.bind, Except.bind, Pure.pure, Except.pure]
    · refine .inr ⟨⟨e, by simp only [TVGP.init, hS, Bind.bind, Except.bind]⟩, b, hb, e', ?_⟩
      simp only [StackVGP.init, hq b hb, hs, Bind.bind, Except.bind]
  · obtain ⟨C, hC, hV⟩ := key S s hS
    refine .inl ⟨_, _, ?_, hV, fun b hb => ?_⟩
    · simp only [TVGP.init, hC, Bind.bind, Except.bind, Pure.pure, Except.pure]
    · simp only [StackVGP.init, hq b hb, Bind.bind, Except.bind, Pure.pure, Except.pure]

theorem stackSvgpInit_holds (hR : 0 < R) (hbs : ∀ k ∈ bs, 0 < k) {Z : Tensor} {zs : List ℕ → Fin R → Fin (n + 1) → ℝ}
    (hZ : HoldsVecs bs Z zs) {K : TKernel} (hK : HoldsStackKernel K k) (lik : ScalarLikelihood) (numData : Option ℕ)
    {M : Option (Tensor → Except Err Tensor)} {m : Option (Fin R → ℝ → ℝ)}
    (hM : HoldsStackMean bs (M.getD (tensorZeroMean 1)) fun _ => m.getD fun _ _ => 0)
    {Q : Option TSSM} {q : List ℕ → Option (Fin R → SSM n k.stateDim)} (hQ : (Q = none ∧ ∀ b, InRange b bs → q b = none) ∨
      ∃ (S : TSSM) (s : List ℕ → Fin R → SSM n k.stateDim), Q = some S ∧ HoldsStackSSM bs S s ∧ ∀ b, InRange b bs → q b = some (s b)) :
    ElementwiseAny bs (HoldsStackSVGP bs) (TSVGP.init K lik Z M numData Q) fun b => StackSVGP.init k lik.toVector (zs b) m numData (q b) := by
  have key : ∀ (S : TSSM) (s : List ℕ → Fin R → SSM n k.stateDim), HoldsStackSSM bs S s →
      ∃ C, S.createTrainableCopy = .ok C ∧ HoldsStackSVGP bs ⟨K, lik, Z, M.getD (tensorZeroMean 1), numData, C⟩ fun b =>
        (⟨lik.toVector, zs b, m.getD fun _ _ => 0, numData, fun r => (s b r).createTrainableCopy⟩ : StackSVGP n k (Vec R)) := fun S s hS => by
    obtain ⟨C, hC, hCh⟩ := stackCopy_holds hS
    exact ⟨C, hC, hZ, hK, fun _ _ => rfl, hM, fun _ _ => rfl, hCh⟩
  rcases hQ with ⟨rfl, hq⟩ | ⟨S, s, rfl, hS, hq⟩
  · rcases stackSSM_holds hR hbs hK hZ with ⟨S, s, hS, hSh, hs⟩ | ⟨⟨e, hS⟩, b, hb, e', hs⟩
    · obtain ⟨C, hC, hV⟩ := key S s hSh
      refine .inl ⟨_, _, ?_, hV, fun b hb => ?_⟩
      · simp only [TSVGP.init, hS, hC, Bind.bind, Except.bind, Pure.pure, Except.pure]
      · have e1 := hs b hb
        simp only [StackSVGP.init, hq b hb, e1, Bind.bind, Except.bind, Pure.pure, Except.pure]
    · refine .inr ⟨⟨e, by simp only [TSVGP.init, hS, Bind.bind, Except.bind]⟩, b, hb, e', ?_⟩
      simp only [StackSVGP.init, hq b hb, hs, Bind.bind, Except.bind]
  · obtain ⟨C, hC, hV⟩ := key S s hS
    refine .inl ⟨_, _, ?_, hV, fun b hb => ?_⟩
    · simp only [TSVGP.init, hC, Bind.bind, Except.bind, Pure.pure, Except.pure]
    · simp only [StackSVGP.init, hq b hb, Bind.bind, Except.bind, Pure.pure, Except.pure]

/-! ### Sampling -/

/-- `sample_state_trajectories` per batch element and sample -/
theorem stackTrajectories_holds (hR : 0 < R) (hbs : ∀ k ∈ bs, 0 < k) (hd : 0 < k.stateDim) {C : TCondProcess} {c : List ℕ → StackProcess n k}
    (h : HoldsStackProcess bs C c) {new : Tensor} {xs : List ℕ → Fin R → Fin p → ℝ} (hx : HoldsVecs bs new xs) {ss : List ℕ} (hss : ∀ k ∈ ss, 0 < k)
    (e₁ e₂ : List ℕ → ℝ) :
    ElementwiseAny (bs ++ ss) (HoldsStackTrajectories (bs ++ ss)) (C.sampleStateTrajectories new ss e₁ e₂) fun b =>
      (c (b.take bs.length)).sampleStateTrajectories (xs (b.take bs.length)) (fun r t i => e₁ (0 :: (i : ℕ) :: (t : ℕ) :: (r : ℕ) :: b))
        fun r t i => e₂ (0 :: (i : ℕ) :: (t : ℕ) :: (r : ℕ) :: b) := by
  obtain ⟨c', hc, hC⟩ := stackStates hR h
  obtain ⟨xs', hxs⟩ := exists_atKernel xs
  exact elementwise_stack (bs := bs ++ ss) (Y := fun b r => ((c (b.take bs.length)).at r).sampleStateTrajectories (xs (b.take bs.length) r)
      (fun t i => e₁ (0 :: (i : ℕ) :: (t : ℕ) :: (r : ℕ) :: b)) fun t i => e₂ (0 :: (i : ℕ) :: (t : ℕ) :: (r : ℕ) :: b))
    (sampleStateTrajectories_holds (pos_cons hR hbs) hd hC (holdsTimes_at hxs hx) hss e₁ e₂) fun b r => by
      dsimp only [List.length_cons, List.take_succ_cons]
      rw [show c' (r :: b.take bs.length) = (c (b.take bs.length)).at r from hc _ r, hxs]

/-- `sample_f` per batch element and sample -/
theorem stackSampleF_holds (hR : 0 < R) (hbs : ∀ k ∈ bs, 0 < k) (hd : 0 < k.stateDim) {C : TCondProcess} {c : List ℕ → StackProcess n k}
    (h : HoldsStackProcess bs C c) {new : Tensor} {xs : List ℕ → Fin R → Fin p → ℝ} (hx : HoldsVecs bs new xs) {ss : List ℕ} (hss : ∀ k ∈ ss, 0 < k)
    (e₁ e₂ : List ℕ → ℝ) :
    ElementwiseAny (bs ++ ss) (HoldsVecs (bs ++ ss)) (C.sampleF new ss e₁ e₂) fun b =>
      (c (b.take bs.length)).sampleF (xs (b.take bs.length)) (fun r t i => e₁ (0 :: (i : ℕ) :: (t : ℕ) :: (r : ℕ) :: b))
        fun r t i => e₂ (0 :: (i : ℕ) :: (t : ℕ) :: (r : ℕ) :: b) := by
  obtain ⟨H, H', hH, hHs, hHh⟩ := stackEmission_at hR h.kernel hx
  obtain ⟨w, w', hw, hw', hwh⟩ := stackMean_holds h.kernel h.mean hx
  rcases stackTrajectories_holds hR hbs hd h hx hss e₁ e₂ with ⟨x, y, hx', ⟨y', hy', hx1, -⟩, hy⟩ | ⟨⟨e, hx'⟩, b, hb, e', hy⟩
  swap
  · refine .inr ⟨⟨e, ?_⟩, b, hb, e', ?_⟩
    · simp only [TCondProcess.sampleF, TCondProcess.sampleState, hx', Bind.bind, Except.bind]
    · simp only [StackProcess.sampleF, hy, Bind.bind, Except.bind]
  obtain ⟨f, hf, hfh⟩ := stackProjectState_holds (f' := fun i => (y' i).1) (f := fun b r => (y b r).1) ss hHs
    (fun b r => by dsimp only; rw [hy' b r]) hHh hx1
  obtain ⟨z, hz, hzh⟩ := zipWith_right (· + ·) ((holdsVec_iff.1 (holdsVecs_iff.1 hwh)).b0.extend ss) (holdsVec_iff.1 (holdsVecs_iff.1 hfh))
  have hn := h.kernel.1
  refine .inl ⟨z, fun b q => (fun r => (c (b.take bs.length)).meanFunction r (xs (b.take bs.length) r q)) +
    stackProjectStateToF (fun r q => (k.slice r).emission (xs (b.take bs.length) r q)) (fun r => (y b r).1) q, ?_,
    holdsVecs_iff.2 (holdsVec_iff.2 (hzh.congr (forall_inRange_cons.2 fun b hb i => ?_))), fun b hb => ?_⟩
  · simp only [TCondProcess.sampleF, TCondProcess.sampleState, TKernel.projectState, hn, hx', hH, hf, hw, hw', Bind.bind, Except.bind, Pure.pure, Except.pure]
    exact hz
  · obtain ⟨t, b', rfl, ht, hb'⟩ := inRange_cons_iff.1 hb
    obtain ⟨t, rfl⟩ : ∃ t' : Fin p, (t' : ℕ) = t := ⟨⟨t, ht⟩, rfl⟩
    simp only [List.length_cons, List.take_succ_cons, lift_fin]
    rfl
  · simp only [StackProcess.sampleF, hy b hb, Bind.bind, Except.bind]
    rfl

/-- The mean functions that can be used with a stack: any one that gives a single column. -/
theorem stackMean_of {M : Tensor → Except Err Tensor} {m : ℝ → Vec 1} (h : HoldsMean M m) (bs : List ℕ) : HoldsStackMean bs M fun _ (_ : Fin R) t => m t 0 :=
  ⟨fun _ => m, fun _ _ => by funext t i; rw [Subsingleton.elim i 0], h.on (R :: bs)⟩

end MF
