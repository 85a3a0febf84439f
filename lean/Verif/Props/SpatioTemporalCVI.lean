import Verif.Props.SpatioTemporalElbo

/-!
# C43: `SpatioTemporalSparseCVI`
-/

namespace MF
open Matrix Spec MeasureTheory ProbabilityTheory InformationTheory
variable {n d p M N : ℕ} {S : Type}

/-- The hypotheses on a `SpatioTemporalSparseCVI`; the second site parameters are symmetric (the constructor makes them
so and updates keep them so: `C43_cvi_reachable`). -/
structure STCVI.Valid (c : STCVI S n M d) (k : ℝ → ℝ → Mat 1 1) (K : Stationary M c.D) : Prop where
  base : STValid c.kernelSpace c.kernelTime k c.inducingSpace K c.inducingTime
  symm : ∀ j, (c.nat2 j)ᵀ = c.nat2 j

/-- C43: `dist_q` is the prior times the sites, `q(u) ∝ p(u) ∏ⱼ exp(θ₁ⱼ·vⱼ + vⱼᵀ θ₂ⱼ vⱼ)`, with `vⱼ` the pair of
inducing states around interval `j`, whenever it can be built; it can be built whenever all `θ₂ⱼ` are negative
semidefinite. Otherwise it raises. -/
theorem C43_cvi_dist_q {c : STCVI S n M d} {k K} (h : c.Valid k K) :
    ∃ s : SSM n c.D, c.distP = .ok s ∧ K.stateSpaceModel c.inducingTime = .ok s ∧ s.Nondegenerate ∧
    (∀ q, c.distQ = .ok q → q.Nondegenerate ∧
      IsBayesPosterior s.law (fun x => pairSiteLogLik c.nat1 c.nat2 (unstk x)) q.law) ∧
    ((∀ j v, v ⬝ᵥ (c.nat2 j *ᵥ v) ≤ 0) → ∃ q, c.distQ = .ok q) ∧
    ((∃ q, c.distQ = .ok q) ∨ c.distQ = .error .invalidArgument) := by
  obtain ⟨hB, hj, hN, hpd, hM⟩ := h.base.kernel_good
  obtain ⟨s, hs, hnd⟩ := kernel_ssm_nondegenerate hB hN h.base.two h.base.times
  obtain ⟨hco, -, -⟩ := Builds.good hB
  have hdp : c.distP = .ok s := by
    unfold STCVI.distP STCVI.kernel
    rw [h.base.kernel]
    exact hs
  have hdq : c.distQ = naturalsToSSM (siteLin c.nat1) (fun b => (-(1 / 2) : ℝ) • s.precD b + siteDiag c.nat2 b)
      (fun k => -s.precS k + (2 : ℝ) • siteSub c.nat2 k) := by
    unfold STCVI.distQ
    rw [hdp]
    simp only [bind, Except.bind, SSM.precision_eq hnd h.base.two, Option.getD_some]
    rfl
  obtain ⟨h1, h2⟩ := naturals_posterior hnd (kernel_moments hB hj hs).1 h.base.two hco.pos
    (siteLin c.nat1) (siteDiag c.nat2) (siteSub c.nat2) (siteDiag_symm h.symm)
  simp only [pairSite_quad _ h.symm] at h1
  rw [← hdq] at h1 h2
  have hem := (Classical.em _).imp h1 h2
  refine ⟨s, hdp, hs, hnd, fun q hq => ?_, fun hneg => ?_, ?_⟩
  · rcases hem with ⟨q', hq', hn', -, -, hb, -⟩ | he
    · obtain rfl : q = q' := Except.ok.inj (hq.symm.trans hq')
      exact ⟨hn', hb⟩
    · rw [he] at hq; cases hq
  · obtain ⟨q, hq, -⟩ := h1 (posDef_sub_quad (SSM.Kd_posDef hnd).inv (denseSym_isSymm (siteDiag_symm h.symm)) fun x => by
      have := pairSite_quad (0 : Fin (n + 2) → Fin c.D ⊕ Fin c.D → ℝ) h.symm x
      rw [show stk (siteLin (0 : Fin (n + 2) → Fin c.D ⊕ Fin c.D → ℝ)) = 0 from by funext i; simp [stk, siteLin],
        zero_dotProduct, zero_add] at this
      rw [this]
      unfold pairSiteLogLik
      exact Finset.sum_nonpos fun j _ => by simpa using hneg j _)
    exact ⟨q, hq⟩
  · exact hem.imp (fun ⟨q', hq', _⟩ => ⟨q', hq'⟩) id

/-- C43: `state_to_space_conditional_projection` at `(x, t)` maps the state to the prior conditional mean of `f(x, t)`
given the state: the spatial weights times the emission. -/
theorem C43_projection {ks : S → S → ℝ} (hks : IsCovariance ks) {kt : Stationary 1 d} {Z : Fin M → S} {K}
    (hK : sparseSpatioTemporalKernel ks kt Z = .ok K) (x : S) (t : ℝ) :
    stateToSpaceProjection ks kt Z x t = .ok (Matrix.of fun _ => spaceWeights ks Z x ᵥ* K.emission t) := by
  obtain ⟨base, L, hb, hL, hKe, -⟩ := stKernel_eq hK
  have hLc : IsCholesky (crossGram ks Z Z) L := by
    have := tfCholesky_eq_ok_iff.1 hL
    rwa [symLower_eq (crossGram_symm hks Z)] at this
  obtain ⟨hu, hinv⟩ := chol_inverse hLc
  unfold stateToSpaceProjection
  rw [hb, hL]
  simp only [bind, Except.bind, pure, Except.pure]
  congr 1
  ext a s
  simp only [of_apply]
  set H : Matrix (Fin M) (Fin (stDim M kt)) ℝ := (base.emission t).submatrix (copyRows M kt) id with hH
  have hE : K.emission t = L * H := by rw [hKe]
  have hC : triSolve L H true = (Lᵀ)⁻¹ * H := by
    unfold triSolve
    rw [if_pos rfl, hLc.lower.tril_eq]
  rw [hE, ← vecMul_vecMul]
  have hw : spaceWeights ks Z x ᵥ* L = (fun m => ks x (Z m)) ᵥ* (Lᵀ)⁻¹ := by
    unfold spaceWeights
    rw [show (Matrix.of fun a b => ks (Z a) (Z b)) = crossGram ks Z Z from rfl, hinv, ← mulVec_transpose,
      mulVec_mulVec, ← Matrix.mul_assoc, mul_nonsing_inv _ (by rwa [det_transpose]), Matrix.one_mul,
      ← mulVec_transpose, transpose_nonsing_inv, transpose_transpose]
    congr 1
    funext m
    exact cov_symm hks _ _
  rw [hw, vecMul_vecMul, ← hC]
  rfl

/-- The likelihood of `g` when `f = g + c`. -/
def shiftLikelihood (lik : ScalarLikelihood) (c : ℝ) : ScalarLikelihood :=
  ⟨fun f y => lik.logProb (f + c) y, fun m v y => lik.varExp (m + c) v y⟩

/-- C43: `local_objective_and_gradients` at the predicted mean of `f = g + m(x)` computes the gradient with respect to the
expectation parameters of `g` (whose meaning is `C34_gradient`) for the likelihood seen by `g`. -/
theorem C43_cvi_gradients (c : STCVI S n M d) (x : S × ℝ) (μ v y : ℝ) :
    c.localGrads x (μ + c.meanFunction.getD (fun _ => 0) x) v y =
      localGradients (shiftLikelihood c.likelihood (c.meanFunction.getD (fun _ => 0) x)) μ v y := by
  unfold STCVI.localGrads localGradients shiftLikelihood
  have hd : ∀ a : ℝ, deriv (fun m => c.likelihood.varExp (m + a) v y) μ =
      deriv (fun m => c.likelihood.varExp m v y) (μ + a) := fun a =>
    deriv_comp_add_const (fun m => c.likelihood.varExp m v y) a μ
  cases hm : c.meanFunction with
  | none => simp
  | some m => simp [hd, add_sub_cancel_right]

open Classical in
/-- C43: one `update_sites`: the sites of interval `j` move from `θ` to `(1 - r) θ + r Σ_i g_i`, the sum running over the
data in that interval; datum `i` contributes `(g₁ W_i, g₂ W_i W_iᵀ)`, where `g` is the gradient at the predicted mean and
variance (`C43_cvi_gradients`) and `W_i v` the prior conditional mean of `f(x_i, t_i)` given the neighbouring inducing
states. Nothing else changes. -/
theorem C43_cvi_update {c : STCVI S n M d} {k K} (h : c.Valid k K) {q} (hq : c.distQ = .ok q) {X : Fin p → S × ℝ}
    (h0 : ∀ j, c.inducingTime 0 ≤ (X j).2) (h1 : ∀ j, (X j).2 ≤ c.inducingTime (Fin.last n)) (Y : Fin p → ℝ) :
    ∃ n₁ n₂ r P T, c.updateSites X Y = .ok { c with nat1 := n₁, nat2 := n₂ } ∧ c.predictF X = .ok r ∧
      conditionalStatistics approxInf (fun i => (X i).2) c.inducingTime K.trans = .ok (P, T) ∧
      ∀ (W : Fin p → Fin c.D ⊕ Fin c.D → ℝ),
        (∀ i, W i = spaceWeights c.kernelSpace c.inducingSpace (X i).1 ᵥ* (K.emission (X i).2 * P i)) →
      ∀ (g : Fin p → ℝ × ℝ), (∀ i, g i = c.localGrads (X i) (r i).1 (r i).2 (Y i)) → ∀ j,
        n₁ j = (1 - c.learningRate) • c.nat1 j +
          c.learningRate • ∑ i ∈ Finset.univ.filter (fun i => InInterval c.inducingTime j (X i).2), (g i).1 • W i ∧
        n₂ j = (1 - c.learningRate) • c.nat2 j + c.learningRate •
          ∑ i ∈ Finset.univ.filter (fun i => InInterval c.inducingTime j (X i).2), (g i).2 • vecMulVec (W i) (W i) := by
  obtain ⟨hB, hj, hN, hpd, hM⟩ := h.base.kernel_good
  obtain ⟨s, hs, -, hnd, hq1, -⟩ := C43_cvi_dist_q h
  have hqn := (hq1 q hq).1
  have hpost : c.posterior = .ok ⟨q, K, c.inducingTime, fun _ => 0⟩ := by
    unfold STCVI.posterior STCVI.kernel; rw [hq, h.base.kernel]; rfl
  have hX0 : ∀ j, -10000000000 < (X j).2 := fun j => lt_of_lt_of_le h.base.lower (h0 j)
  have hX1 : ∀ j, (X j).2 ≤ 10000000000 := fun j => (h1 j).trans h.base.upper
  obtain ⟨r, u, L, v, ν, hr, -⟩ := C43_predict h.base hqn c.meanFunction h0 h1
  have hpf : c.predictF X = .ok r := by
    unfold STCVI.predictF; rw [hpost]; exact hr
  obtain ⟨rs, hrs⟩ := C22_succeeds (c := (⟨q, K, c.inducingTime, fun _ => 0⟩ : CondProcess n M c.D)) hB hN
    hqn h.base.two h.base.times.monotone hX0 hX1
  obtain ⟨hc, -, -⟩ := Builds.good hB
  obtain ⟨cs, hcs, -⟩ := predictState_ok hqn h.base.two hc.pos hrs
  have hst : conditionalStatistics approxInf (fun i => (X i).2) c.inducingTime K.trans =
      .ok (fun j => fromCols (cs j).D (cs j).E, fun j => (cs j).T) := by
    unfold conditionalStatistics
    rw [conditionalStatisticsAux_of hcs]; rfl
  have hA : seqFin (fun i => stateToSpaceProjection c.kernelSpace c.kernelTime c.inducingSpace (X i).1 (X i).2) =
      .ok fun i => Matrix.of fun _ => spaceWeights c.kernelSpace c.inducingSpace (X i).1 ᵥ* K.emission (X i).2 :=
    seqFin_ok fun i => C43_projection h.base.space h.base.kernel _ _
  have hproj : c.projection X = .ok fun i => (Matrix.of fun _ => spaceWeights c.kernelSpace c.inducingSpace (X i).1 ᵥ*
      K.emission (X i).2) * fromCols (cs i).D (cs i).E := by
    unfold STCVI.projection STCVI.kernel
    rw [h.base.kernel]
    simp only [bind, Except.bind, pure, Except.pure, hst, hA]
  let bp := backProjectNats
    (fun t _ => (c.localGrads (X t) (r t).1 (r t).2 (Y t)).1)
    (fun t _ => (c.localGrads (X t) (r t).1 (r t).2 (Y t)).2)
    (fun i => (Matrix.of fun _ => spaceWeights c.kernelSpace c.inducingSpace (X i).1 ᵥ*
      K.emission (X i).2) * fromCols (cs i).D (cs i).E)
  have hu : c.updateSites X Y = .ok { c with
      nat1 := fun j => (1 - c.learningRate) • c.nat1 j + c.learningRate •
        partitionSum (fun t => searchsortedLeft c.inducingTime (X t).2) bp.1 j
      nat2 := fun j => (1 - c.learningRate) • c.nat2 j + c.learningRate •
        partitionSum (fun t => searchsortedLeft c.inducingTime (X t).2) bp.2 j } := by
    unfold STCVI.updateSites
    rw [hpf]
    simp only [bind, Except.bind, pure, Except.pure, hproj]
    rfl
  have hrow : ∀ i (C : Matrix (Fin c.D) (Fin c.D ⊕ Fin c.D) ℝ) b, ((Matrix.of fun _ : Fin 1 =>
      spaceWeights c.kernelSpace c.inducingSpace (X i).1 ᵥ* K.emission (X i).2) * C) 0 b =
      (spaceWeights c.kernelSpace c.inducingSpace (X i).1 ᵥ* (K.emission (X i).2 * C)) b := by
    intro i C b
    rw [← vecMul_vecMul, Matrix.mul_apply]
    rfl
  refine ⟨_, _, r, _, _, hu, hpf, hst, fun W hW g hg j => ⟨?_, ?_⟩⟩
  · simp only [partitionSum_eq, inInterval_iff h.base.times.monotone]
    rw [← Finset.sum_filter]
    congr 2
    refine Finset.sum_congr rfl fun i _ => ?_
    funext a
    simp only [bp, backProjectNats, Fin.sum_univ_one, hrow, hW, hg, Pi.smul_apply, smul_eq_mul]
    ring
  · simp only [partitionSum_eq, inInterval_iff h.base.times.monotone]
    rw [← Finset.sum_filter]
    congr 2
    refine Finset.sum_congr rfl fun i _ => ?_
    ext a b
    simp only [bp, backProjectNats, Fin.sum_univ_one, hrow, hW, hg, Matrix.smul_apply, smul_eq_mul, vecMulVec_apply,
      of_apply]
    ring

/-- C43: the hypotheses hold after any history of successful updates, on any minibatches, and the kernel stays the same. -/
theorem C43_cvi_reachable {c : STCVI S n M d} {k K} (h : c.Valid k K) {X : Fin p → S × ℝ} {Y : Fin p → ℝ} {c'}
    (hu : c.updateSites X Y = .ok c') : ∃ n₁ n₂, c' = { c with nat1 := n₁, nat2 := n₂ } ∧ ∀ j, (n₂ j)ᵀ = n₂ j := by
  unfold STCVI.updateSites at hu
  simp only [bind, Except.bind, pure, Except.pure] at hu
  split at hu
  · cases hu
  split at hu
  · cases hu
  cases hu
  refine ⟨_, _, rfl, fun j => ?_⟩
  have hs := h.symm j
  rw [transpose_add, transpose_smul, transpose_smul, hs, partitionSum_eq, transpose_sum]
  congr 2
  refine Finset.sum_congr rfl fun i _ => ?_
  split_ifs
  · ext a b
    simp only [backProjectNats, transpose_apply, of_apply]
    exact Finset.sum_congr rfl fun _ _ => by ring
  · rfl

theorem pairSiteLogLik_zero {D : ℕ} (u : Fin (n + 1) → Vec D) : pairSiteLogLik 0 0 u = 0 := by
  simp [pairSiteLogLik]

/-- C43: the constructor of `SpatioTemporalSparseCVI`: zero sites, so that `dist_q` is the prior. -/
theorem C43_cvi_init {ks : S → S → ℝ} {Z : Fin M → S} {kt : Stationary 1 d} {k K} {z : Fin (n + 1) → ℝ}
    (h : STValid ks kt k Z K z) (lik : ScalarLikelihood) (m : Option (S × ℝ → ℝ)) (num : Option ℕ) (r : ℝ) :
    (STCVI.init Z z ks kt lik m num r).Valid k K ∧ ∃ s q, (STCVI.init Z z ks kt lik m num r).distP = .ok s ∧
      (STCVI.init Z z ks kt lik m num r).distQ = .ok q ∧ q.law = s.law := by
  have hv : (STCVI.init Z z ks kt lik m num r).Valid k K := ⟨h, fun _ => transpose_zero⟩
  obtain ⟨s, hs, -, hnd, hq1, hq2, -⟩ := C43_cvi_dist_q hv
  obtain ⟨q, hq⟩ := hq2 fun j v => by
    show v ⬝ᵥ ((0 : Matrix _ _ ℝ) *ᵥ v) ≤ 0
    exact (by rw [zero_mulVec, dotProduct_zero] : v ⬝ᵥ ((0 : Matrix _ _ ℝ) *ᵥ v) = 0).le
  refine ⟨hv, s, q, hs, hq, ?_⟩
  have hb := (hq1 q hq).2
  have hp : IsProbabilityMeasure s.law := by rw [SSM.law_eq_gauss]; infer_instance
  have hz : (fun x => pairSiteLogLik (STCVI.init Z z ks kt lik m num r).nat1 (STCVI.init Z z ks kt lik m num r).nat2
      (unstk x)) = fun _ => 0 := by
    funext x
    exact pairSiteLogLik_zero (unstk x)
  rw [hz] at hb
  rw [hb.2.2]
  simp [evidence]

/-- C43: with a Gaussian likelihood and learning rate one, a single update, from any sites that have a `dist_q`, gives
`q(u) ∝ p(u) ∏_i N(y_i; m(x_i) + E[g(x_i, t_i) | u], σ²)`: the optimal `q` of the sparse model. The predicted variances
do not enter, so this holds whether they are right or not. -/
theorem C43_cvi_gaussian {c : STCVI S n M d} {k K} (h : c.Valid k K) {q} (hq : c.distQ = .ok q) {σ2 : ℝ} (hσ : 0 < σ2)
    (hlik : c.likelihood = gaussianLikelihood σ2) (hr : c.learningRate = 1) {X : Fin p → S × ℝ}
    (h0 : ∀ j, c.inducingTime 0 ≤ (X j).2) (h1 : ∀ j, (X j).2 ≤ c.inducingTime (Fin.last n)) (Y : Fin p → ℝ) :
    ∃ n₁ n₂ q' s P T, c.updateSites X Y = .ok { c with nat1 := n₁, nat2 := n₂ } ∧
      STCVI.distQ { c with nat1 := n₁, nat2 := n₂ } = .ok q' ∧ c.distP = .ok s ∧ q'.Nondegenerate ∧
      conditionalStatistics approxInf (fun i => (X i).2) c.inducingTime K.trans = .ok (P, T) ∧
      IsBayesPosterior s.law (fun x => ∑ i, -(Y i - c.meanFunction.getD (fun _ => 0) (X i) -
        (spaceWeights c.kernelSpace c.inducingSpace (X i).1 ᵥ* (K.emission (X i).2 * P i)) ⬝ᵥ
          neighbours (unstk x) (searchsortedLeft c.inducingTime (X i).2)) ^ 2 / (2 * σ2)) q'.law := by
  obtain ⟨n₁, n₂, r, P, T, hu, hpf, hst, hW⟩ := C43_cvi_update h hq h0 h1 Y
  set W : Fin p → Fin c.D ⊕ Fin c.D → ℝ := fun i =>
    spaceWeights c.kernelSpace c.inducingSpace (X i).1 ᵥ* (K.emission (X i).2 * P i) with hWd
  set mf := c.meanFunction.getD (fun _ => 0) with hmf
  have hg : ∀ i, c.localGrads (X i) (r i).1 (r i).2 (Y i) = ((Y i - mf (X i)) / σ2, -1 / (2 * σ2)) := by
    intro i
    have h2 := C43_cvi_gradients c (X i) ((r i).1 - mf (X i)) (r i).2 (Y i)
    rw [sub_add_cancel] at h2
    rw [h2]
    have h3 := localGradients_gaussian hσ.ne' ((r i).1 - mf (X i)) (r i).2 (Y i - mf (X i))
    rw [← h3, hlik]
    unfold localGradients shiftLikelihood gaussianLikelihood
    have e : ∀ m : ℝ, Y i - (m + mf (X i)) = Y i - mf (X i) - m := fun m => by ring
    simp only [e, ← hmf]
  have hW := hW W (fun _ => rfl) _ (fun _ => rfl)
  simp only [hg, hr, sub_self, zero_smul, zero_add, one_smul] at hW
  obtain ⟨n₁', n₂', he, hsym⟩ := C43_cvi_reachable h hu
  have hn2 : n₂ = n₂' := by injection he
  have hv' : STCVI.Valid { c with nat1 := n₁, nat2 := n₂ } k K := ⟨h.base, by rw [hn2]; exact hsym⟩
  obtain ⟨s, hs, -, hnd, hq1, hq2, -⟩ := C43_cvi_dist_q hv'
  have hθ : ∀ u : Fin (n + 1) → Vec c.D, pairSiteLogLik n₁ n₂ u =
      ∑ i, ((Y i - mf (X i)) / σ2 * (W i ⬝ᵥ neighbours u (searchsortedLeft c.inducingTime (X i).2)) +
      -1 / (2 * σ2) * (W i ⬝ᵥ neighbours u (searchsortedLeft c.inducingTime (X i).2)) ^ 2) := by
    refine gauss_sites h.base.times.monotone (fun i => (X i).2) (fun i => Y i - mf (X i)) σ2 _ (fun j => ?_) (fun j => ?_)
    · rw [(hW j).1, partitionSum_eq, Finset.sum_filter]
      refine Finset.sum_congr rfl fun i _ => ?_
      by_cases hi : InInterval c.inducingTime j (X i).2
      · rw [if_pos hi, if_pos ((inInterval_iff h.base.times.monotone _ _).2 hi)]
      · rw [if_neg hi, if_neg fun hc => hi ((inInterval_iff h.base.times.monotone _ _).1 hc)]
    · rw [(hW j).2, partitionSum_eq, Finset.sum_filter]
      refine Finset.sum_congr rfl fun i _ => ?_
      by_cases hi : InInterval c.inducingTime j (X i).2
      · rw [if_pos hi, if_pos ((inInterval_iff h.base.times.monotone _ _).2 hi)]
      · rw [if_neg hi, if_neg fun hc => hi ((inInterval_iff h.base.times.monotone _ _).1 hc)]
  obtain ⟨q', hq'⟩ := hq2 fun j v => by
    show v ⬝ᵥ (n₂ j *ᵥ v) ≤ 0
    rw [(hW j).2, sum_mulVec, dotProduct_sum]
    refine Finset.sum_nonpos fun i _ => ?_
    rw [smul_mulVec, dotProduct_smul, vecMulVec_mulVec]
    simp only [smul_eq_mul, MulOpposite.smul_eq_mul_unop, MulOpposite.unop_op, dotProduct_smul]
    rw [dotProduct_comm v]
    have : -1 / (2 * σ2) ≤ 0 := div_nonpos_of_nonpos_of_nonneg (by norm_num) (by positivity)
    nlinarith [mul_self_nonneg (W i ⬝ᵥ v)]
  obtain ⟨hq'n, hb⟩ := hq1 q' hq'
  refine ⟨n₁, n₂, q', s, P, T, hu, hq', hs, hq'n, hst, ?_⟩
  have hmθ : Measurable fun x : Ix n c.D → ℝ => pairSiteLogLik n₁ n₂ (unstk x) := by
    simp only [hθ]
    refine Finset.measurable_sum _ fun i _ => ?_
    have := measurable_neighbours (W i) (searchsortedLeft c.inducingTime (X i).2)
    fun_prop
  have h5 := IsBayesPosterior.add_const hmθ (∑ i, -(Y i - mf (X i)) ^ 2 / (2 * σ2)) hb
  convert h5 using 2 with x
  rw [hθ, ← Finset.sum_add_distrib]
  refine Finset.sum_congr rfl fun i _ => ?_
  have := hσ.ne'
  field_simp
  ring

/-- C43: `elbo` of a `SpatioTemporalSparseCVI` is the objective of `C43_elbo` at `q = dist_q`; in particular, if the
returned variances are those of the model, `log p(y) = elbo + KL(q-process ‖ posterior)` on the full data. -/
theorem C43_cvi_elbo {c : STCVI S n M d} {k K} (h : c.Valid k K) (hlik : ExactLikelihood c.likelihood) {q}
    (hq : c.distQ = .ok q) {X : Fin p → S × ℝ} (hp : 0 < p) (hnum : c.numData = none ∨ c.numData = some p)
    (h0 : ∀ j, c.inducingTime 0 ≤ (X j).2) (h1 : ∀ j, (X j).2 ≤ c.inducingTime (Fin.last n)) (Y : Fin p → ℝ)
    (hex : ExactVariances c.kernelSpace k c.inducingSpace ⟨q, K, c.inducingTime, fun _ => 0⟩ X) :
    ∃ (e : ℝ) (ν : Measure _), c.elbo X Y = .ok e ∧ c.loss X Y = .ok (-e) ∧
      IsPredictive (stPrior K c.kernelSpace c.inducingSpace (fun t t' => k t t' 0 0) c.inducingTime X) q.law ν ∧
      ∀ post, IsBayesPosterior (stPrior K c.kernelSpace c.inducingSpace (fun t t' => k t t' 0 0) c.inducingTime X)
          (fun x => stLogLik c.likelihood c.meanFunction X Y x.2) post →
        klDiv ν post ≠ ⊤ ∧
        Real.log (evidence (stLaw (c.meanFunction.getD fun _ => 0) c.kernelSpace (fun t t' => k t t' 0 0) X)
          fun f => ∑ i, c.likelihood.logProb (f i) (Y i)).toReal = e + (klDiv ν post).toReal := by
  obtain ⟨s, hs, hss, hnd, hq1, -⟩ := C43_cvi_dist_q h
  obtain ⟨e, ν, he, hν, hb⟩ := C43_bound h.base (hq1 q hq).1 hss c.meanFunction hlik hp hnum h0 h1 Y hex
  have hc : c.elbo X Y = .ok e := by
    rw [← he]
    unfold STCVI.elbo STCVI.posterior STCVI.kernel
    rw [hq, h.base.kernel, hs]
    rfl
  refine ⟨e, ν, hc, by unfold STCVI.loss; rw [hc]; rfl, hν, fun post hpost => ?_⟩
  exact ⟨(hb post hpost).1, (hb post hpost).2.1⟩

/-- Non-vacuity: a model with a mean function and two data, after the constructor and an update. -/
example : ∃ (kt : Stationary 1 1) (k : ℝ → ℝ → Mat 1 1) (K : Stationary 1 (stDim 1 kt)),
    STValid whiteSpace kt k ![true] K (![0, 1] : Fin 2 → ℝ) ∧ ∃ q c',
    (STCVI.init ![true] ![0, 1] whiteSpace kt (gaussianLikelihood 1) (some fun x => x.2) none 1).distQ = .ok q ∧
    (STCVI.init ![true] ![0, 1] whiteSpace kt (gaussianLikelihood 1) (some fun x => x.2) none 1).updateSites
      ![(true, 1 / 2), (false, 1)] ![3, 4] = .ok c' := by
  obtain ⟨kt, k, v, hi, hv, hq, hks, hZ, hz, -⟩ := st_example 2 two_pos
  have hb : STValid whiteSpace kt k ![true] v.kernel ![0, 1] := by
    have := hv.base
    rw [hks, hZ, hz] at this
    exact this
  obtain ⟨hcv, s, q, hs, hq, -⟩ := C43_cvi_init hb (gaussianLikelihood 1) (some fun x => x.2) none 1
  obtain ⟨n₁, n₂, q', s, P, T, hu, -⟩ := C43_cvi_gaussian hcv hq one_pos rfl rfl
    (X := ![(true, 1 / 2), (false, 1)]) (fun j => by
      show (![0, 1] : Fin 2 → ℝ) 0 ≤ _
      fin_cases j <;> simp) (fun j => by
      show _ ≤ (![0, 1] : Fin 2 → ℝ) 1
      fin_cases j <;> norm_num) ![3, 4]
  exact ⟨kt, k, v.kernel, hb, q, _, hq, hu⟩

end MF
