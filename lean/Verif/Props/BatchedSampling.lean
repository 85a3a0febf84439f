import Verif.Lemmas.BatchedSampling
import Verif.Props.BatchedKernels
import Verif.Props.Conditionals

/-!
# C65: posterior sampling with batch and sample axes
-/

namespace MF
open Matrix Spec Tensor MeasureTheory ProbabilityTheory

variable {n o d p : ℕ} {bs ss : List ℕ}

/-- C65: `sample_state_trajectories(new_time_points, sample_shape)` for every batch shape and sample shape: the trajectory at every sample index and
batch index is the trajectory that the process of that batch element makes from its own draws. The call raises exactly when one element does. -/
theorem C65_trajectories (hbs : ∀ k ∈ bs, 0 < k) (hd : 0 < d) {C : TCondProcess} {c : List ℕ → CondProcess n o d} (h : HoldsStates bs C c)
    {new : Tensor} {xs : List ℕ → Fin p → ℝ} (hx : HoldsTimes bs new xs) (hss : ∀ k ∈ ss, 0 < k) (e₁ e₂ : List ℕ → ℝ) :
    Elementwise (bs ++ ss) (HoldsTrajectories (bs ++ ss)) (C.sampleStateTrajectories new ss e₁ e₂) fun b =>
      (c (b.take bs.length)).sampleStateTrajectories (xs (b.take bs.length)) (fun t i => e₁ (0 :: (i : ℕ) :: (t : ℕ) :: b))
        fun t i => e₂ (0 :: (i : ℕ) :: (t : ℕ) :: b) := sampleStateTrajectories_holds hbs hd h hx hss e₁ e₂

/-- C65: `sample_state(new_time_points, sample_shape)` likewise. -/
theorem C65_sample_state (hbs : ∀ k ∈ bs, 0 < k) (hd : 0 < d) {C : TCondProcess} {c : List ℕ → CondProcess n o d} (h : HoldsStates bs C c)
    {new : Tensor} {xs : List ℕ → Fin p → ℝ} (hx : HoldsTimes bs new xs) (hss : ∀ k ∈ ss, 0 < k) (e₁ e₂ : List ℕ → ℝ) :
    Elementwise (bs ++ ss) (HoldsVecs (bs ++ ss)) (C.sampleState new ss e₁ e₂) fun b => do
      let r ← (c (b.take bs.length)).sampleStateTrajectories (xs (b.take bs.length)) (fun t i => e₁ (0 :: (i : ℕ) :: (t : ℕ) :: b))
        fun t i => e₂ (0 :: (i : ℕ) :: (t : ℕ) :: b)
      return r.1 := by
  rcases sampleStateTrajectories_holds hbs hd h hx hss e₁ e₂ with ⟨x, y, hx', hr, hy⟩ | ⟨er, hx', b, hb, hy⟩
  · refine .inl ⟨x.1, fun b => (y b).1, ?_, hr.1, fun b hb => ?_⟩
    · simp only [TCondProcess.sampleState, hx', Bind.bind, Except.bind, Pure.pure, Except.pure]
    · have := hy b hb
      beta_reduce at this
      simp only [this, Bind.bind, Except.bind, Pure.pure, Except.pure]
  · refine .inr ⟨er, ?_, b, hb, ?_⟩
    · simp only [TCondProcess.sampleState, hx', Bind.bind, Except.bind]
    · beta_reduce at hy
      simp only [hy, Bind.bind, Except.bind]

/-- C65: `sample_f(new_time_points, sample_shape)` likewise. -/
theorem C65_sample_f (hbs : ∀ k ∈ bs, 0 < k) (hd : 0 < d) {C : TCondProcess} {c : List ℕ → CondProcess n o d} (h : HoldsProcess bs C c)
    {new : Tensor} {xs : List ℕ → Fin p → ℝ} (hx : HoldsTimes bs new xs) (hss : ∀ k ∈ ss, 0 < k) (e₁ e₂ : List ℕ → ℝ) :
    Elementwise (bs ++ ss) (HoldsVecs (bs ++ ss)) (C.sampleF new ss e₁ e₂) fun b =>
      (c (b.take bs.length)).sampleF (xs (b.take bs.length)) (fun t i => e₁ (0 :: (i : ℕ) :: (t : ℕ) :: b))
        fun t i => e₂ (0 :: (i : ℕ) :: (t : ℕ) :: b) := sampleF_holds hbs hd h hx hss e₁ e₂

theorem aemeasurable_of_map_isProb {α β : Type*} [MeasurableSpace α] [MeasurableSpace β] {μ : Measure α} {f : α → β} {ν : Measure β} [IsProbabilityMeasure ν]
    (h : μ.map f = ν) : AEMeasurable f μ := by
  by_contra hf
  rw [Measure.map_of_not_aemeasurable hf] at h
  exact IsProbabilityMeasure.ne_zero ν h.symm

/-- C65 with C24: when all draws are independent and standard normal, then jointly over the whole result of `sample_state_trajectories` the
trajectories of different samples and of different batch elements are independent, and each has the predictive law of its batch element: states at
the conditioning times from its distribution `q`, states at the new times from the prior given these. -/
theorem C65_trajectories_law (hbs : ∀ k ∈ bs, 0 < k) (hd : 0 < d) {C : TCondProcess} {c : List ℕ → CondProcess n o d} (h : HoldsStates bs C c)
    {new : Tensor} {xs : List ℕ → Fin p → ℝ} (hx : HoldsTimes bs new xs) (hss : ∀ k ∈ ss, 0 < k) {k : List ℕ → ℝ → ℝ → Mat o o} (hn : 0 < n)
    (hc : ∀ b, InRange b bs → Builds (c b).kernel (k b) ∧ NoiseTag (c b).kernel true ∧ (c b).kernel.jitter = 0 ∧ Monotone (c b).times ∧
      -10000000000 < (c b).times 0 ∧ (c b).times (Fin.last n) ≤ 10000000000)
    (hxs : ∀ b, InRange b bs → ∀ j, (c b).times 0 ≤ xs b j ∧ xs b j ≤ (c b).times (Fin.last n)) :
    ∃ (X : (Idx (bs ++ ss) → (Ix (n + p) d → ℝ) × (Ix n d → ℝ)) → Idx (bs ++ ss) → (Fin p → Vec d) × (Fin (n + 1) → Vec d))
      (ν : Idx (bs ++ ss) → Measure ((Fin (n + 1) × Fin d → ℝ) × (Fin p × Fin d → ℝ))),
      (∀ e E E', HoldsNoise (bs ++ ss) E (fun b => (e b).1) → HoldsNoise (bs ++ ss) E' (fun b => (e b).2) → ∃ Y Z,
        C.sampleStateTrajectories new ss E E' = .ok (Y, Z) ∧ HoldsSamples (bs ++ ss) Y (fun b => (X e b).1) ∧
        HoldsSamples (bs ++ ss) Z fun b => (X e b).2) ∧
      (noiseLaw (bs ++ ss) (Ix (n + p) d) (Ix n d)).map (fun e b => (stk (X e b).2, stk (X e b).1)) = Measure.pi ν ∧
      ∀ b, IsPredictive (priorLaw (c (b.1.take bs.length)).kernel (c (b.1.take bs.length)).times (xs (b.1.take bs.length)))
        (c (b.1.take bs.length)).q.law (ν b) := by
  have hb : ∀ b : Idx (bs ++ ss), InRange (b.1.take bs.length) bs := fun b => (inRange_split b.2).1
  have hX : ∀ b : Idx (bs ++ ss), ∃ X : (Ix (n + p) d → ℝ) → (Ix n d → ℝ) → (Fin p → Vec d) × (Fin (n + 1) → Vec d),
      (∀ e e', (c (b.1.take bs.length)).sampleStateTrajectories (xs (b.1.take bs.length)) (unstk e) (unstk e') = .ok (X e e')) ∧
      IsPredictive (priorLaw (c (b.1.take bs.length)).kernel (c (b.1.take bs.length)).times (xs (b.1.take bs.length)))
        (c (b.1.take bs.length)).q.law (sampledLaw X) := fun b => by
    obtain ⟨h1, h2, h3, h4, h5, h6⟩ := hc _ (hb b)
    obtain ⟨X, hX⟩ := C24_succeeds (new := xs (b.1.take bs.length)) h1 h2 h3 hn h4 (fun j => lt_of_lt_of_le h5 (hxs _ (hb b) j).1)
      (fun j => (hxs _ (hb b) j).2.trans h6)
    exact ⟨X, hX, C24_interior h1 h3 hn h4 h5 h6 (fun j => (hxs _ (hb b) j).1) (fun j => (hxs _ (hb b) j).2) hX⟩
  choose X hX1 hX2 using hX
  refine ⟨fun e b => X b (e b).1 (e b).2, fun b => sampledLaw (X b), fun e E E' hE hE' => ?_, ?_, hX2⟩
  · have hnoise : ∀ b (hb : InRange b (bs ++ ss)), (c (b.take bs.length)).sampleStateTrajectories (xs (b.take bs.length))
        (fun t i => E (0 :: (i : ℕ) :: (t : ℕ) :: b)) (fun t i => E' (0 :: (i : ℕ) :: (t : ℕ) :: b)) =
        .ok (X ⟨b, hb⟩ (e ⟨b, hb⟩).1 (e ⟨b, hb⟩).2) := fun b hb => by
      rw [← hX1 ⟨b, hb⟩]
      congr 1
      · funext t i; exact hE ⟨b, hb⟩ t i
      · funext t i; exact hE' ⟨b, hb⟩ t i
    rcases sampleStateTrajectories_holds hbs hd h hx hss E E' with ⟨x, y, hx', ⟨hr1, hr2⟩, hy⟩ | ⟨er, hx', b, hb, hy⟩
    swap
    · beta_reduce at hy
      rw [hnoise b hb] at hy
      cases hy
    refine ⟨x.1, x.2, hx', ⟨hr1.1, fun b t i => ?_⟩, ⟨hr2.1, fun b t i => ?_⟩⟩
    · have := hy b.1 b.2
      beta_reduce at this
      rw [hnoise b.1 b.2] at this
      rw [hr1.2 b.1 b.2]; beta_reduce; rw [← Except.ok.inj this]; rfl
    · have := hy b.1 b.2
      beta_reduce at this
      rw [hnoise b.1 b.2] at this
      rw [hr2.2 b.1 b.2]; beta_reduce; rw [← Except.ok.inj this]; rfl
  · have hprob : ∀ b, IsProbabilityMeasure (sampledLaw (X b)) := fun b => by
      obtain ⟨κ, hκ, -, h2⟩ := hX2 b
      have hq : IsProbabilityMeasure (c (b.1.take bs.length)).q.law := by rw [SSM.law_eq_gauss]; infer_instance
      rw [h2]
      infer_instance
    have hm : ∀ b, AEMeasurable (fun e : (Ix (n + p) d → ℝ) × (Ix n d → ℝ) => (stk (X b e.1 e.2).2, stk (X b e.1 e.2).1))
        ((stdNormal (Ix (n + p) d)).prod (stdNormal (Ix n d))) := fun b => by
      haveI := hprob b
      exact aemeasurable_of_map_isProb (ν := sampledLaw (X b)) rfl
    have hs : ∀ b, SigmaFinite (((stdNormal (Ix (n + p) d)).prod (stdNormal (Ix n d))).map
        fun e => (stk (X b e.1 e.2).2, stk (X b e.1 e.2).1)) := fun b => by
      haveI := hprob b
      exact inferInstanceAs (SigmaFinite (sampledLaw (X b)))
    exact (Measure.pi_map_pi hm)

/-- C65 with C32: the samples of `sample_f` of a batch of regressions are, jointly over all sample and batch indices, independent draws from the
GP posteriors of the elements given their own data. -/
theorem C65_gpr_samples (hbs : ∀ k ∈ bs, 0 < k) (hd : 0 < d) {G : TGPR} {g : List ℕ → GPR n o d} (h : HoldsGPR bs G g) {k : ℝ → ℝ → Mat o o}
    (hv : ∀ b, InRange b bs → (g b).Valid k ∧ -10000000000 < (g b).times 0 ∧ (g b).times (Fin.last n) ≤ 10000000000) {new : Tensor}
    {xs : List ℕ → Fin p → ℝ} (hx : HoldsTimes bs new xs) (hss : ∀ k ∈ ss, 0 < k)
    (hxs : ∀ b, InRange b bs → ∀ j, (g b).times 0 ≤ xs b j ∧ xs b j ≤ (g b).times (Fin.last n)) :
    ∃ (C : TCondProcess) (F : (Idx (bs ++ ss) → (Ix (n + p) d → ℝ) × (Ix n d → ℝ)) → Idx (bs ++ ss) → Fin p → Vec o), G.posterior = .ok C ∧
      (∀ e E E', HoldsNoise (bs ++ ss) E (fun b => (e b).1) → HoldsNoise (bs ++ ss) E' (fun b => (e b).2) → ∃ Y,
        C.sampleF new ss E E' = .ok Y ∧ HoldsSamples (bs ++ ss) Y (F e)) ∧
      (noiseLaw (bs ++ ss) (Ix (n + p) d) (Ix n d)).map (fun e b => stk (F e b)) = Measure.pi fun b : Idx (bs ++ ss) =>
        gaussLaw (fun i => gpPostMean (g (b.1.take bs.length)).meanFunction k (g (b.1.take bs.length)).times (g (b.1.take bs.length)).noiseCov
            (stk (g (b.1.take bs.length)).observations) (xs (b.1.take bs.length) i.1) i.2)
          (Matrix.of fun i j => gpPostCov k (g (b.1.take bs.length)).times (g (b.1.take bs.length)).noiseCov (xs (b.1.take bs.length) i.1)
            (xs (b.1.take bs.length) j.1) i.2 j.2) := by
  obtain ⟨C, c, hC, hCc, hc⟩ := (gprPosterior_holds hbs h).transfer (P := fun b (c : CondProcess n o d) => (g b).posterior = .ok c) fun b hb => by
    obtain ⟨hv1, hv2, hv3⟩ := hv b hb
    obtain ⟨c, hc, -⟩ := C32_posterior hv1 hv2 hv3
    exact ⟨c, hc, hc⟩
  have hb : ∀ b : Idx (bs ++ ss), InRange (b.1.take bs.length) bs := fun b => (inRange_split b.2).1
  choose F hF1 hF2 using fun b : Idx (bs ++ ss) => C32_samples (hv _ (hb b)).1 (hv _ (hb b)).2.1 (hv _ (hb b)).2.2 (hc _ (hb b)).2
    (xs (b.1.take bs.length)) (fun j => (hxs _ (hb b) j).1) (fun j => (hxs _ (hb b) j).2)
  refine ⟨C, fun e b => F b (e b).1 (e b).2, hC, fun e E E' hE hE' => ?_, ?_⟩
  · have hnoise : ∀ b (hb : InRange b (bs ++ ss)), (c (b.take bs.length)).sampleF (xs (b.take bs.length))
        (fun t i => E (0 :: (i : ℕ) :: (t : ℕ) :: b)) (fun t i => E' (0 :: (i : ℕ) :: (t : ℕ) :: b)) =
        .ok (F ⟨b, hb⟩ (e ⟨b, hb⟩).1 (e ⟨b, hb⟩).2) := fun b hb => by
      rw [← hF1 ⟨b, hb⟩]
      congr 1
      · funext t i; exact hE ⟨b, hb⟩ t i
      · funext t i; exact hE' ⟨b, hb⟩ t i
    rcases sampleF_holds hbs hd hCc hx hss E E' with ⟨x, y, hx', hr, hy⟩ | ⟨er, hx', b, hb, hy⟩
    swap
    · beta_reduce at hy
      rw [hnoise b hb] at hy
      cases hy
    refine ⟨x, hx', hr.1, fun b t i => ?_⟩
    have := hy b.1 b.2
    beta_reduce at this
    rw [hnoise b.1 b.2] at this
    rw [hr.2 b.1 b.2, ← Except.ok.inj this]; rfl
  · have hm : ∀ b, AEMeasurable (fun e : (Ix (n + p) d → ℝ) × (Ix n d → ℝ) => stk (F b e.1 e.2))
        ((stdNormal (Ix (n + p) d)).prod (stdNormal (Ix n d))) := fun b => aemeasurable_of_map_isProb (hF2 b)
    have hs : ∀ b, SigmaFinite (((stdNormal (Ix (n + p) d)).prod (stdNormal (Ix n d))).map
        fun e => stk (F b e.1 e.2)) := fun b => by
      rw [hF2 b]
      infer_instance
    rw [noiseLaw, Measure.pi_map_pi hm]
    congr 1
    funext b
    exact hF2 b

/-! ### Non-vacuity -/

/-- Non-vacuity of all theorems above: the posterior of a batch of shape `[2]` of Matérn 3/2 regressions on different data, two new times in each
element, and samples of shape `[3, 2]`. -/
example : ∃ (G : TGPR) (g : List ℕ → GPR 2 1 2) (C : TCondProcess) (c : List ℕ → CondProcess 2 1 2) (new : Tensor) (xs : List ℕ → Fin (1 + 1) → ℝ)
    (kf : ℝ → ℝ → Mat 1 1), HoldsGPR [2] G g ∧ G.posterior = .ok C ∧ HoldsProcess [2] C c ∧ HoldsTimes [2] new xs ∧
    (∀ b, InRange b [2] → (g b).Valid kf ∧ -10000000000 < (g b).times 0 ∧ (g b).times (Fin.last 2) ≤ 10000000000) ∧
    (∀ b, InRange b [2] → ∀ j, (g b).times 0 ≤ xs b j ∧ xs b j ≤ (g b).times (Fin.last 2)) ∧
    (∀ b, InRange b [2] → Builds (c b).kernel kf ∧ NoiseTag (c b).kernel true ∧ (c b).kernel.jitter = 0 ∧ Monotone (c b).times ∧
      -10000000000 < (c b).times 0 ∧ (c b).times (Fin.last 2) ≤ 10000000000) ∧
    (∀ b, InRange b [2] → ∀ j, (c b).times 0 ≤ xs b j ∧ xs b j ≤ (c b).times (Fin.last 2)) ∧ (∀ k ∈ [3, 2], 0 < k) ∧
    (g [0]).observations ≠ (g [1]).observations := by
  obtain ⟨T, Y, R, new, K, k, kf, G, g, xs, -, -, -, hGg, hx, hv, hxs, hobs, -⟩ := gpr_batch_example
  obtain ⟨C, c, hC, hCc, hc⟩ := (gprPosterior_holds (bs := [2]) (by simp) hGg).transfer (P := fun b (c : CondProcess 2 1 2) =>
      c.kernel = (g b).kernel ∧ c.times = (g b).times) fun b hb => by
    obtain ⟨s, c, -, hc, -, h1, h2, -⟩ := GPR.posterior_ok (hv b hb).1
    exact ⟨c, hc, h1, h2⟩
  refine ⟨G, g, C, c, new, xs, kf, hGg, hC, hCc, hx, hv, hxs, fun b hb => ?_, fun b hb j => ?_, by simp, hobs⟩
  · obtain ⟨h1, h2⟩ := (hc b hb).2
    obtain ⟨hv1, hv2, hv3⟩ := hv b hb
    rw [h1, h2]
    exact ⟨hv1.builds, hv1.noise, hv1.jitter, hv1.times.monotone, hv2, hv3⟩
  · rw [(hc b hb).2.2]
    exact hxs b hb j

end MF
