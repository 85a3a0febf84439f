import Verif.Lemmas.BatchedPosterior
import Verif.Props.Batched
import Verif.Props.GPR

/-!
# C63: kernels, conditionals, predictions and GP regression on batches

`HoldsKernel K k` (Spec/BatchedKernels.lean) says that the object `K`, whose methods take tensors of any shape, computes at every index what the
kernel `k` of the model without batch axes computes for the time at that index. All results about `k` then hold per batch element.
-/

namespace MF
open Matrix Spec Tensor

variable {n o d p : ℕ} {bs : List ℕ}

/-! ### Kernels -/

/-- C63: every basic kernel, for times of any shape: both constructors raise the same exception, or both return the same kernel. -/
theorem C63_kernels (o : ℕ) (lengthscale variance decay diffusion period jitter : ℝ) :
    SameKernel (tensorMatern12 o lengthscale variance jitter) (matern12 o lengthscale variance jitter) ∧
    SameKernel (tensorOrnsteinUhlenbeck o decay diffusion jitter) (ornsteinUhlenbeck o decay diffusion jitter) ∧
    SameKernel (tensorMatern32 o lengthscale variance jitter) (matern32 o lengthscale variance jitter) ∧
    SameKernel (tensorMatern52 o lengthscale variance jitter) (matern52 o lengthscale variance jitter) ∧
    SameKernel (tensorHarmonicOscillator o variance period jitter) (harmonicOscillator o variance period jitter) ∧
    SameKernel (tensorConstant o variance jitter) (constant o variance jitter) :=
  ⟨matern12_holds .., ou_holds .., matern32_holds .., matern52_holds .., harmonic_holds .., constant_holds ..⟩

/-- C63: the latent exponentially generated kernel. -/
theorem C63_leg (hd : 0 < d) {N R : Tensor} {N' R' : Mat d d} (jitter : ℝ) (hN : HoldsMat [] N fun _ => N') (hR : HoldsMat [] R fun _ => R') :
    SameKernel (tensorLeg N R jitter) (leg N' R' jitter) := leg_holds hd jitter hN hR

/-- C63: `set_state_mean`. -/
theorem C63_set_state_mean {K : TKernel} {k : Stationary o d} (h : HoldsKernel K k) {m : Tensor} {m' : Vec d} (hm : HoldsVec [] m fun _ => m') :
    HoldsKernel (K.setStateMean m) (k.setStateMean m') := setStateMean_holds h hm

/-- C63: sums and independent multi-output kernels of any number of children with any state dimensions, including the empty list (which raises). -/
theorem C63_sum_and_multi_output {Ks : List TKernel} {ks : List (Σ d, Stationary o d)} (jitter : ℝ) (h : HoldsKernels Ks ks) :
    SameKernel (tensorSum Ks jitter) (sumKernel ks jitter) ∧
    SameKernel (tensorIndependentMultiOutput Ks jitter) (independentMultiOutput ks jitter) :=
  ⟨sum_holds jitter h, multiOutput_holds jitter h⟩

/-- C63: products of kernels with one output. -/
theorem C63_product {Ks : List TKernel} {ks : List (Σ d, Stationary 1 d)} (jitter : ℝ) (h : HoldsKernels Ks ks) :
    SameKernel (tensorProduct Ks jitter) (productKernel ks jitter) := product_holds jitter h

/-- C63: factor analysis kernels, for a weight function that acts on every time point. -/
theorem C63_factor_analysis {o' : ℕ} {Ks : List TKernel} {ks : List (Σ d, Stationary o d)} {weight : Tensor → Except Err Tensor}
    {weight' : ℝ → Mat o' (ks.length * o)} {B : Tensor} {B' : Mat (ks.length * o) (ks.length * o)} (jitter : ℝ) (h : HoldsKernels Ks ks)
    (hw : ∀ (u : List ℕ) (t : Tensor) (f : List ℕ → ℝ), u ≠ [] → HoldsReal u t f → ∃ a, weight t = .ok a ∧ HoldsMat u a fun b => weight' (f b))
    (hB : HoldsMat [] B fun _ => B') :
    SameKernel (tensorFactorAnalysis Ks weight B o' jitter) (factorAnalysis ks weight' B' jitter) := factorAnalysis_holds jitter h hw hB

/-- C63: an ordinary kernel acts as the same kernel at every batch index. (The theorems below are stated for kernels that may differ between batch
indices, so that they also cover stacks of kernels, C66.) -/
theorem C63_one_kernel {K : TKernel} {k : Stationary o d} (h : HoldsKernel K k) (bs : List ℕ) : HoldsKernelOn bs K fun _ => k := h.on bs

/-- C63: `state_space_model(time_points)` of a batch of time point sequences: one state space model per batch index, the one of the times there.
The call raises exactly when it raises for one of the sequences. -/
theorem C63_state_space_model (hbs : ∀ k ∈ bs, 0 < k) {K : TKernel} {k : List ℕ → Stationary o d} (h : HoldsKernelOn bs K k) {t : Tensor}
    {ts : List ℕ → Fin (n + 1) → ℝ} (ht : HoldsTimes bs t ts) :
    Elementwise bs (HoldsSSM bs) (K.stateSpaceModel t) fun b => (k b).stateSpaceModel (ts b) := stateSpaceModel_holds hbs h ht

/-! ### Conditionals -/

/-- C63: `conditional_statistics`; new and training times of one batch shape, all of them different per batch element. -/
theorem C63_conditional_statistics (inf : ℝ) {K : TKernel} {k : List ℕ → Stationary o d} (h : HoldsKernelOn bs K k) {new t : Tensor}
    {ss : List ℕ → Fin p → ℝ} {ts : List ℕ → Fin (n + 1) → ℝ} (hs : HoldsTimes bs new ss) (ht : HoldsTimes bs t ts) :
    Elementwise bs (HoldsCondStats bs) (tensorConditionalStatistics inf new t K) fun b => conditionalStatistics inf (ss b) (ts b) (k b).trans := by
  refine (conditionalStatisticsAux_holds inf h hs ht).bind (R' := HoldsCondStats bs)
    (g := fun _ (r : (Fin p → Matrix (Fin d) (Fin d ⊕ Fin d) ℝ) × (Fin p → Mat d d) × (Fin p → Fin (n + 2))) => Except.ok (r.1, r.2.1)) fun x y hx => ?_
  exact .pure ⟨hx.1, hx.2.1⟩

/-- C63: `conditional_predict`, with and without covariances of the pairs. -/
theorem C63_conditional_predict (inf : ℝ) {K : TKernel} {k : List ℕ → Stationary o d} (h : HoldsKernelOn bs K k) {new t M S : Tensor}
    {ss : List ℕ → Fin p → ℝ} {ts : List ℕ → Fin (n + 1) → ℝ} (hs : HoldsTimes bs new ss) (ht : HoldsTimes bs t ts)
    {M' : List ℕ → Fin (n + 2) → Fin d ⊕ Fin d → ℝ} {S' : List ℕ → Fin (n + 2) → Matrix (Fin d ⊕ Fin d) (Fin d ⊕ Fin d) ℝ}
    (hM : HoldsVecs bs M fun b q => pairVec (M' b q)) (hS : HoldsMats bs S fun b q => pairMat (S' b q)) :
    Elementwise bs (HoldsPred bs) (tensorConditionalPredict inf new t K M (some S))
      (fun b => conditionalPredict inf (ss b) (ts b) (k b).trans (M' b) (some (S' b))) ∧
    Elementwise bs (HoldsPred bs) (tensorConditionalPredict inf new t K M none)
      (fun b => conditionalPredict inf (ss b) (ts b) (k b).trans (M' b) none) :=
  ⟨conditionalPredict_holds inf h hs ht hM hS, conditionalPredict_none_holds inf h hs ht hM⟩

/-- C63: `pairwise_marginals`. -/
theorem C63_pairwise_marginals (hbs : ∀ k ∈ bs, 0 < k) {S : TSSM} {s : List ℕ → SSM n d} (h : HoldsSSM bs S s) {m P : Tensor}
    {m' : List ℕ → Vec d} {P' : List ℕ → Mat d d} (hm : HoldsVec bs m m') (hP : HoldsMat bs P P') :
    Elementwise bs (HoldsPairs bs) (tensorPairwiseMarginals S m P) fun b => pairwiseMarginals (s b) (m' b) (P' b) :=
  pairwiseMarginals_holds hbs h hm hP

/-! ### Posterior processes -/

/-- C63: `predict_state` at one or more new times per batch element, any times, in any order. -/
theorem C63_predict_state (hbs : ∀ k ∈ bs, 0 < k) {C : TCondProcess} {c : List ℕ → CondProcess n o d} (h : HoldsStates bs C c) {new : Tensor}
    {ss : List ℕ → Fin (p + 1) → ℝ} (hs : HoldsTimes bs new ss) :
    Elementwise bs (HoldsPred bs) (C.predictState new) fun b => (c b).predictState (ss b) := predictState_holds hbs h hs

/-- C63: `predict_f`, with full and with diagonal output covariance. -/
theorem C63_predict_f (hbs : ∀ k ∈ bs, 0 < k) {C : TCondProcess} {c : List ℕ → CondProcess n o d} (h : HoldsProcess bs C c) {new : Tensor}
    {ss : List ℕ → Fin (p + 1) → ℝ} (hs : HoldsTimes bs new ss) :
    Elementwise bs (HoldsPred bs) (C.predictF new true) (fun b => (c b).predictF (ss b)) ∧
    Elementwise bs (HoldsPredDiag bs) (C.predictF new false) (fun b => (c b).predictFDiag (ss b)) :=
  ⟨predictF_holds hbs h hs, predictFDiag_holds hbs h hs⟩

/-- C63: the zero and the linear mean function are functions of the single time points, also with the default `obs_dim = 1` that broadcasts. -/
theorem C63_mean_functions (o k : ℕ) (a : ℝ) (hk : k = o ∨ k = 1) :
    HoldsMean (o := o) (tensorZeroMean k) (fun _ => 0) ∧ HoldsMean (o := o) (tensorLinearMean a k) (fun s _ => a * s) ∧
    ∀ (bs : List ℕ) (M : Tensor → Except Err Tensor) (m : ℝ → Vec o), HoldsMean M m → HoldsMeanOn bs M fun _ => m :=
  ⟨zeroMean_holds o k hk, linearMean_holds a o k hk, fun bs _ _ h => h.on bs⟩

/-! ### GP regression -/

theorem gprInit_ok {T Y : Tensor} {ts : List ℕ → Fin (n + 1) → ℝ} {ys : List ℕ → Fin (n + 1) → Vec o} (hT : HoldsTimes bs T ts)
    (hY : HoldsVecs bs Y ys) (K : TKernel) (M : Option (Tensor → Except Err Tensor)) (R : Option Tensor) {R' : Mat o o}
    (hR : HoldsMat [] (R.getD (eye o [])) fun _ => R') :
    TGPR.init T Y K M R = .ok ⟨T, Y, K, M.getD (tensorZeroMean 1), R.getD (eye o [])⟩ := by
  have hd : Y.dim 0 = o := by simp [dim, hY.1]
  have h1 : ¬ (R.getD (eye o [])).shape ≠ [o, o] := by rw [hR.1]; simp
  have h2 : ¬ T.shape ≠ Y.shape.drop 1 := by rw [hT.1, hY.1]; simp
  simp only [TGPR.init, hd, if_neg h1, if_neg h2]
  rfl

/-- C63: `GaussianProcessRegression(input_data, kernel, mean_function, chol_obs_covariance)` on batched data: one regression per batch index, with the
data of that index, the mean function at that index and the common kernel and noise. The zero and the linear mean function are the same at every index. -/
theorem C63_gpr_init {T Y : Tensor} {ts : List ℕ → Fin (n + 1) → ℝ} {ys : List ℕ → Fin (n + 1) → Vec o} (hT : HoldsTimes bs T ts)
    (hY : HoldsVecs bs Y ys) {K : TKernel} {k : Stationary o d} (hK : HoldsKernel K k) {M : Tensor → Except Err Tensor} {m : List ℕ → ℝ → Vec o}
    (hM : HoldsMeanOn bs M m) {R : Tensor} {R' : Mat o o} (hR : HoldsMat [] R fun _ => R') :
    ∃ G, TGPR.init T Y K (some M) (some R) = .ok G ∧ HoldsGPR bs G fun b => ⟨ts b, ys b, k, m b, R'⟩ :=
  ⟨_, gprInit_ok hT hY K (some M) (some R) hR, hT, hY, ⟨k, hK, fun _ _ => rfl⟩, hM, ⟨R', hR, fun _ _ => rfl⟩⟩

/-- C63: the defaults are the zero mean function and unit observation noise. -/
theorem C63_gpr_init_default {T Y : Tensor} {ts : List ℕ → Fin (n + 1) → ℝ} {ys : List ℕ → Fin (n + 1) → Vec o} (hT : HoldsTimes bs T ts)
    (hY : HoldsVecs bs Y ys) {K : TKernel} {k : Stationary o d} (hK : HoldsKernel K k) :
    ∃ G, TGPR.init T Y K = .ok G ∧ HoldsGPR bs G fun b => ⟨ts b, ys b, k, fun _ => 0, 1⟩ :=
  ⟨_, gprInit_ok hT hY K none none (eye_mat o []), hT, hY, ⟨k, hK, fun _ _ => rfl⟩, (zeroMean_holds o 1 (.inr rfl)).on bs,
    ⟨1, eye_mat o [], fun _ _ => rfl⟩⟩

/-- C63: data whose batch shapes differ, or a noise factor that is not one `output_dim × output_dim` matrix, are rejected. -/
theorem C63_gpr_init_raises {T Y R : Tensor} (K : TKernel) (M : Option (Tensor → Except Err Tensor))
    (h : R.shape ≠ [Y.dim 0, Y.dim 0] ∨ T.shape ≠ Y.shape.drop 1) : TGPR.init T Y K M (some R) = .error .value := by
  simp only [TGPR.init, Option.getD_some]
  by_cases h1 : R.shape ≠ [Y.dim 0, Y.dim 0]
  · rw [if_pos h1]
    rfl
  · rw [if_neg h1, if_pos (h.resolve_left h1)]
    rfl

/-- C63: the log likelihood of a batched regression is the sum of the log likelihoods of its elements. -/
theorem C63_gpr_log_likelihood (hbs : ∀ k ∈ bs, 0 < k) {G : TGPR} {g : List ℕ → GPR n o d} (h : HoldsGPR bs G g) :
    Elementwise bs (fun v L => v = sumShape bs L) G.logLikelihood (fun b => (g b).logLikelihood) ∧
    ∀ v, G.loss = .ok v ↔ G.logLikelihood = .ok (-v) := by
  refine ⟨gprLogLikelihood_holds hbs h, fun v => ?_⟩
  unfold TGPR.loss
  cases G.logLikelihood with
  | error e => simp [Bind.bind, Except.bind]
  | ok l =>
    simp only [Bind.bind, Except.bind, Pure.pure, Except.pure, Except.ok.injEq]
    constructor
    · rintro rfl; simp
    · rintro rfl; simp

/-- C63: the posterior process of a batched regression is the posterior process of every element. -/
theorem C63_gpr_posterior (hbs : ∀ k ∈ bs, 0 < k) {G : TGPR} {g : List ℕ → GPR n o d} (h : HoldsGPR bs G g) :
    Elementwise bs (HoldsProcess bs) G.posterior fun b => (g b).posterior := gprPosterior_holds hbs h

/-! ### What this means for the results -/

/-- C63 with C32: for valid data the log likelihood of a batched regression is the sum over the batch of the dense marginal log likelihoods. -/
theorem C63_gpr_evidence (hbs : ∀ k ∈ bs, 0 < k) {G : TGPR} {g : List ℕ → GPR n o d} (h : HoldsGPR bs G g) {k : ℝ → ℝ → Mat o o}
    (hv : ∀ b, InRange b bs → (g b).Valid k) :
    G.logLikelihood = .ok (sumShape bs fun b => gaussLogDensity (meanVec (g b).meanFunction (g b).times)
      (gpGram k (g b).times + (g b).noiseCov) (stk (g b).observations)) := by
  obtain ⟨v, l, hl, rfl, hb⟩ := (gprLogLikelihood_holds hbs h).transfer (P := fun b v => v = gaussLogDensity (meanVec (g b).meanFunction (g b).times)
      (gpGram k (g b).times + (g b).noiseCov) (stk (g b).observations)) fun b hb => ⟨_, (C32_log_likelihood (hv b hb)).1, rfl⟩
  rw [hl, sumShape_congr fun b hb' => (hb b hb').2]

/-- C63 with C32: `posterior.predict_f` of a batched regression returns at every batch index, for every new time between the data of that index, the
mean and the covariance of the Gaussian process posterior given the data of that index. -/
theorem C63_gpr_predictions (hbs : ∀ k ∈ bs, 0 < k) {G : TGPR} {g : List ℕ → GPR n o d} (h : HoldsGPR bs G g) {k : ℝ → ℝ → Mat o o}
    (hv : ∀ b, InRange b bs → (g b).Valid k ∧ -10000000000 < (g b).times 0 ∧ (g b).times (Fin.last n) ≤ 10000000000) {new : Tensor}
    {ss : List ℕ → Fin (p + 1) → ℝ} (hs : HoldsTimes bs new ss)
    (hn : ∀ b, InRange b bs → ∀ j, (g b).times 0 ≤ ss b j ∧ ss b j ≤ (g b).times (Fin.last n)) :
    ∃ C F, G.posterior = .ok C ∧ C.predictF new true = .ok F ∧ HoldsPred bs F fun b j =>
      (gpPostMean (g b).meanFunction k (g b).times (g b).noiseCov (stk (g b).observations) (ss b j),
        gpPostCov k (g b).times (g b).noiseCov (ss b j) (ss b j)) := by
  obtain ⟨C, c, hC, hCc, hc⟩ := (gprPosterior_holds hbs h).transfer (P := fun b (c : CondProcess n o d) => ∃ f, c.predictF (ss b) = .ok f ∧ ∀ j,
      f j = (gpPostMean (g b).meanFunction k (g b).times (g b).noiseCov (stk (g b).observations) (ss b j),
        gpPostCov k (g b).times (g b).noiseCov (ss b j) (ss b j))) fun b hb => by
    obtain ⟨hv1, hv2, hv3⟩ := hv b hb
    obtain ⟨c, hc, -, hf⟩ := C32_posterior hv1 hv2 hv3
    obtain ⟨f, hf1, hf2⟩ := hf (ss b) (fun j => (hn b hb j).1) (fun j => (hn b hb j).2)
    exact ⟨c, hc, f, hf1, fun j => Prod.ext (hf2 j).1 (hf2 j).2⟩
  obtain ⟨F, f, hF, hFf, hf⟩ := (predictF_holds hbs hCc hs).transfer (P := fun b f => ∀ j,
      f j = (gpPostMean (g b).meanFunction k (g b).times (g b).noiseCov (stk (g b).observations) (ss b j),
        gpPostCov k (g b).times (g b).noiseCov (ss b j) (ss b j))) fun b hb => (hc b hb).2
  refine ⟨C, F, hC, hF, hFf.1.congr fun b hb => ?_, hFf.2.congr fun b hb => ?_⟩
  · funext j
    rw [(hf b hb).2 j]
  · funext j
    rw [(hf b hb).2 j]

/-! ### Non-vacuity -/

/-- Non-vacuity: a batch of shape `[2]` of Matérn 3/2 regressions on different data with a linear mean function and noise factor 2; the tensors hold
it, all elements are valid, and the new times lie between the data. -/
theorem gpr_batch_example : ∃ (T Y R new : Tensor) (K : TKernel) (k : Stationary 1 2) (kf : ℝ → ℝ → Mat 1 1) (G : TGPR) (g : List ℕ → GPR 2 1 2)
    (ss : List ℕ → Fin (1 + 1) → ℝ), tensorMatern32 1 2 3 0 = .ok K ∧ HoldsKernel K k ∧
    TGPR.init T Y K (some (tensorLinearMean 5 1)) (some R) = .ok G ∧ HoldsGPR [2] G g ∧ HoldsTimes [2] new ss ∧
    (∀ b, InRange b [2] → (g b).Valid kf ∧ -10000000000 < (g b).times 0 ∧ (g b).times (Fin.last 2) ≤ 10000000000) ∧
    (∀ b, InRange b [2] → ∀ j, (g b).times 0 ≤ ss b j ∧ ss b j ≤ (g b).times (Fin.last 2)) ∧
    (g [0]).observations ≠ (g [1]).observations ∧ (g [0]).times ≠ (g [1]).times := by
  obtain ⟨k, hk⟩ := (C28_constructors (o := 1) 2 3 1 1 1 0).2.1.2 (by norm_num)
  rcases (C63_kernels 1 2 3 1 1 1 0).2.2.1 with ⟨K, k', hK, hk', hKk⟩ | ⟨e, -, he⟩
  swap
  · rw [hk] at he
    cases he
  obtain rfl : k = k' := Except.ok.inj (hk.symm.trans hk')
  have hT : HoldsTimes (n := 3) [2] ⟨[3, 2], fun i => i.getD 0 0 * (i.getD 1 0 + 1)⟩ fun b i => (i : ℝ) * (b.getD 0 0 + 1) := ⟨rfl, fun b _ i => by simp⟩
  have hY : HoldsVecs (n := 3) (d := 1) [2] ⟨[1, 3, 2], fun i => i.getD 1 0 + i.getD 2 0⟩ fun b i _ => (i : ℝ) + b.getD 0 0 := ⟨rfl, fun b _ t i => by simp⟩
  have hS : HoldsTimes (n := 2) [2] ⟨[2, 2], fun i => i.getD 0 0⟩ fun b i => (i : ℝ) := ⟨rfl, fun b _ i => by simp⟩
  obtain ⟨G, hG, hGg⟩ := C63_gpr_init hT hY hKk ((C63_mean_functions 1 1 5 (.inl rfl)).2.1.on [2]) (ofRows_mat !![2])
  refine ⟨_, _, _, _, K, k, _, G, _, _, hK, hKk, hG, hGg, hS, fun b hb => ⟨⟨.leaf (.matern32 hk), .matern32 hk, by rw [(kernelInit_ok hk).2.2]; rfl, ?_, ⟨?_, ?_⟩, by norm_num⟩, ?_, ?_⟩,
    fun b _ j => ?_, fun h => ?_, fun h => ?_⟩
  · intro i j hij
    have : (i : ℝ) < j := by exact_mod_cast hij
    exact mul_lt_mul_of_pos_right this (by positivity)
  · intro i j hij; fin_cases i; fin_cases j; simp at hij
  · intro i; fin_cases i; simp
  · show -10000000000 < ((0 : ℕ) : ℝ) * (b.getD 0 0 + 1)
    norm_num
  · obtain ⟨i, b', rfl, hi, -⟩ := inRange_cons_iff.1 hb
    have : (i : ℝ) < 2 := by exact_mod_cast hi
    show ((2 : ℕ) : ℝ) * (((i :: b').getD 0 0 : ℕ) + 1) ≤ 10000000000
    rw [List.getD_cons_zero]
    push_cast
    linarith
  · have h0 : (0 : ℝ) ≤ (b.getD 0 0 : ℕ) := Nat.cast_nonneg _
    have hj : (j : ℝ) ≤ 1 := by exact_mod_cast Nat.le_of_lt_succ j.2
    refine ⟨?_, ?_⟩
    · show ((0 : ℕ) : ℝ) * _ ≤ (j : ℝ)
      simp
    · show (j : ℝ) ≤ ((2 : ℕ) : ℝ) * ((b.getD 0 0 : ℕ) + 1)
      push_cast
      linarith
  · have := congrFun (congrFun h 0) 0
    simp at this
  · have := congrFun h 1
    simp at this

end MF
