import Verif.Model.LikelihoodObjects
import Verif.Spec.LikelihoodObjects
import Verif.Spec.Likelihood
import Verif.Props.KalmanFilter
import Verif.Props.Conditionals

/-!
# C40: the likelihood objects
-/

namespace MF
open Matrix Spec MeasureTheory ProbabilityTheory
variable {n o d p : ℕ}

/-! ### multi-stage -/

theorem exp_poissonLog (k : ℕ) {lam : ℝ} (h : 0 < lam) :
    Real.exp (poissonLog k lam) = Real.exp (-lam) * lam ^ k / k.factorial := by
  unfold poissonLog
  rw [Real.Gamma_nat_eq_factorial, sub_sub, Real.exp_sub, Real.exp_add, Real.exp_log (by positivity), mul_comm (k : ℝ),
    Real.exp_mul, Real.exp_log h, Real.rpow_natCast, Real.exp_neg]
  field_simp

theorem MultiStage.exp_logProb (l : MultiStage) (F : Fin 3 → ℝ) (h0 : 0 < l.sigma (F 0)) (h0' : l.sigma (F 0) < 1)
    (h1 : 0 < l.sigma (F 1)) (h1' : l.sigma (F 1) < 1) (h2 : 0 < l.rate (F 2)) :
    Real.exp (l.logProb F 0) = l.sigma (F 0) ∧ Real.exp (l.logProb F 1) = (1 - l.sigma (F 0)) * l.sigma (F 1) ∧
      ∀ k : ℕ, Real.exp (l.logProb F ((k + 2 : ℕ) : ℝ)) = (1 - l.sigma (F 0)) * (1 - l.sigma (F 1)) *
        (Real.exp (-l.rate (F 2)) * l.rate (F 2) ^ k / k.factorial) := by
  refine ⟨?_, ?_, fun k => ?_⟩
  · have : ¬ (2 : ℝ) ≤ 0 := by norm_num
    simp only [MultiStage.logProb, bernoulliLog, if_false, if_true, this, add_zero, zero_ne_one, Real.exp_log h0]
  · have : ¬ (2 : ℝ) ≤ 1 := by norm_num
    simp only [MultiStage.logProb, bernoulliLog, one_ne_zero, if_false, if_true, this, zero_add, add_zero, zero_ne_one]
    rw [Real.exp_add, Real.exp_log (by linarith), Real.exp_log h1]
  · have e0 : ((k + 2 : ℕ) : ℝ) ≠ 0 := by positivity
    have e1 : ((k + 2 : ℕ) : ℝ) ≠ 1 := by
      intro h; have : k + 2 = 1 := by exact_mod_cast h
      omega
    have e2 : (2 : ℝ) ≤ ((k + 2 : ℕ) : ℝ) := by push_cast; linarith [(Nat.cast_nonneg k : (0 : ℝ) ≤ k)]
    simp only [MultiStage.logProb, bernoulliLog, e0, e1, e2, if_false, if_true, zero_add, zero_ne_one]
    rw [show ((k + 2 : ℕ) : ℝ) - 2 = k by push_cast; ring, Real.exp_add, Real.exp_add, Real.exp_log (by linarith),
      Real.exp_log (by linarith), exp_poissonLog k h2]

/-- C40: the probabilities that `log_prob` assigns to the counts `0, 1, 2, …` sum to one, for every latent value and all inverse links
with values in `(0, 1)` and `(0, ∞)`; the first three kinds are those of the documented decision tree. -/
theorem C40_multistage_normalised (l : MultiStage) (F : Fin 3 → ℝ) (h0 : 0 < l.sigma (F 0)) (h0' : l.sigma (F 0) < 1)
    (h1 : 0 < l.sigma (F 1)) (h1' : l.sigma (F 1) < 1) (h2 : 0 < l.rate (F 2)) :
    HasSum (fun k : ℕ => Real.exp (l.logProb F k)) 1 ∧
    Real.exp (l.logProb F 0) = l.sigma (F 0) ∧ Real.exp (l.logProb F 1) = (1 - l.sigma (F 0)) * l.sigma (F 1) ∧
      ∀ k : ℕ, Real.exp (l.logProb F ((k + 2 : ℕ) : ℝ)) = (1 - l.sigma (F 0)) * (1 - l.sigma (F 1)) *
        (Real.exp (-l.rate (F 2)) * l.rate (F 2) ^ k / k.factorial) := by
  obtain ⟨e0, e1, e2⟩ := l.exp_logProb F h0 h0' h1 h1' h2
  refine ⟨?_, e0, e1, e2⟩
  have hs := (hasSum_one_poissonMeasure (l.rate (F 2)).toNNReal).mul_left ((1 - l.sigma (F 0)) * (1 - l.sigma (F 1)))
  rw [Real.coe_toNNReal _ h2.le] at hs
  have h2' : HasSum (fun k : ℕ => Real.exp (l.logProb F ((k + 2 : ℕ) : ℝ))) ((1 - l.sigma (F 0)) * (1 - l.sigma (F 1)) * 1) := by
    exact (funext e2 : (fun k : ℕ => Real.exp (l.logProb F ((k + 2 : ℕ) : ℝ))) = _) ▸ hs
  have := (hasSum_nat_add_iff (f := fun k : ℕ => Real.exp (l.logProb F k)) 2).1 h2'
  simp only [Finset.sum_range_succ, Finset.sum_range_zero, Nat.cast_zero, Nat.cast_one, zero_add, e0, e1] at this
  have e : (1 - l.sigma (F 0)) * (1 - l.sigma (F 1)) * 1 + (l.sigma (F 0) + (1 - l.sigma (F 0)) * l.sigma (F 1)) = 1 := by ring
  rwa [e] at this

/-- C40: `sample_y` draws the count `k` with exactly the probability that `log_prob` assigns to it. -/
theorem C40_multistage_samples (l : MultiStage) (F : Fin 3 → ℝ) (h0 : 0 < l.sigma (F 0)) (h0' : l.sigma (F 0) < 1)
    (h1 : 0 < l.sigma (F 1)) (h1' : l.sigma (F 1) < 1) (h2 : 0 < l.rate (F 2)) (k : ℕ) :
    (stageLaw (l.sigma (F 0)) (l.sigma (F 1)) (l.rate (F 2))).map (fun e => MultiStage.sampleY e.1 e.2.1 e.2.2) {k} =
      ENNReal.ofReal (Real.exp (l.logProb F k)) := by
  obtain ⟨e0, e1, e2⟩ := l.exp_logProb F h0 h0' h1 h1' h2
  have hm : Measurable fun e : ℕ × ℕ × ℕ => MultiStage.sampleY e.1 e.2.1 e.2.2 := Measurable.of_discrete
  rw [Measure.map_apply hm (measurableSet_singleton k)]
  unfold stageLaw
  rw [Measure.prod_apply (hm (measurableSet_singleton k))]
  unfold bernoulliLaw
  rw [lintegral_add_measure, lintegral_smul_measure, lintegral_smul_measure, lintegral_dirac, lintegral_dirac,
    Measure.prod_apply (MeasurableSet.of_discrete), Measure.prod_apply (MeasurableSet.of_discrete), lintegral_add_measure,
    lintegral_add_measure]
  simp only [lintegral_smul_measure, lintegral_dirac, smul_eq_mul]
  have hp : ∀ m : ℕ, poissonMeasure (l.rate (F 2)).toNNReal {m} =
      ENNReal.ofReal (Real.exp (-l.rate (F 2)) * l.rate (F 2) ^ m / m.factorial) := fun m => by
    rw [poissonMeasure_singleton, Real.coe_toNNReal _ h2.le]
  have huniv : poissonMeasure (l.rate (F 2)).toNNReal Set.univ = 1 := measure_univ
  have s00 : ∀ c, MultiStage.sampleY 0 0 c = c + 2 := fun c => by simp [MultiStage.sampleY]
  have s01 : ∀ c, MultiStage.sampleY 0 1 c = 1 := fun c => by simp [MultiStage.sampleY]
  have s1 : ∀ b c, MultiStage.sampleY 1 b c = 0 := fun b c => by simp [MultiStage.sampleY]
  simp only [Set.preimage, Set.mem_singleton_iff, Set.mem_setOf_eq, s00, s01, s1]
  rcases k with _ | _ | k
  · simp only [Nat.add_eq_zero_iff, OfNat.ofNat_ne_zero, and_false, one_ne_zero, Set.setOf_false, measure_empty, mul_zero, add_zero,
      Set.setOf_true, huniv, mul_one, zero_add, Nat.cast_zero]
    rw [← ENNReal.ofReal_add (by linarith) h1.le, sub_add_cancel, ENNReal.ofReal_one, mul_one, e0]
  · have : ∀ c : ℕ, ¬ (c + 2 = 0 + 1) := fun c => by omega
    simp only [this, Set.setOf_false, measure_empty, mul_zero, zero_add, Set.setOf_true, huniv, mul_one, zero_ne_one, add_zero,
      Nat.cast_one, e1]
    rw [← ENNReal.ofReal_mul (by linarith)]
  · have a1 : ∀ c : ℕ, (c + 2 = k + 1 + 1) ↔ c = k := fun c => by omega
    have a2 : ¬ (1 = k + 1 + 1) := by omega
    have a3 : ¬ (0 = k + 1 + 1) := by omega
    simp only [a1, a2, a3, Set.setOf_false, measure_empty, mul_zero, add_zero, Set.setOf_eq_eq_singleton, hp]
    rw [show k + 1 + 1 = k + 2 from rfl, e2, ← ENNReal.ofReal_mul (by linarith), ← ENNReal.ofReal_mul (by linarith), mul_assoc]

/-- C40, negative result: a value that is not a count below two (a fraction or a negative number) gets log probability 0, that is
density 1, instead of being rejected. -/
theorem C40_multistage_invalid_counts (l : MultiStage) (F : Fin 3 → ℝ) (Y : ℝ) (h0 : Y ≠ 0) (h1 : Y ≠ 1) (h2 : Y < 2) :
    l.logProb F Y = 0 := by
  simp [MultiStage.logProb, h0, h1, h2]

/-- C40: the variational expectations of the multi-stage likelihood are the expectation of `log_prob` under independent normal latent
values, for every datum, whenever those of the two GPflow likelihoods are. -/
theorem C40_multistage_variational_expectations (l : MultiStage) (m v : Fin 3 → ℝ) (Y : ℝ)
    (hb : ∀ i : Fin 3, ∀ y, Integrable (fun f => bernoulliLog y (l.sigma f)) (gaussianReal (m i) (v i).toNNReal) ∧
      l.bernVarExp (m i) (v i) y = ∫ f, bernoulliLog y (l.sigma f) ∂gaussianReal (m i) (v i).toNNReal)
    (hp : ∀ y, Integrable (fun f => poissonLog y (l.rate f)) (gaussianReal (m 2) (v 2).toNNReal) ∧
      l.poisVarExp (m 2) (v 2) y = ∫ f, poissonLog y (l.rate f) ∂gaussianReal (m 2) (v 2).toNNReal) :
    l.varExp m v Y = ∫ F, l.logProb F Y ∂Measure.pi fun i => gaussianReal (m i) (v i).toNNReal := by
  have mp := fun i => measurePreserving_eval (fun i : Fin 3 => gaussianReal (m i) (v i).toNNReal) i
  have ib : ∀ (i : Fin 3) y, Integrable (fun F : Fin 3 → ℝ => bernoulliLog y (l.sigma (F i)))
      (Measure.pi fun i => gaussianReal (m i) (v i).toNNReal) := fun i y => (mp i).integrable_comp_of_integrable (hb i y).1
  have ip : ∀ y, Integrable (fun F : Fin 3 → ℝ => poissonLog y (l.rate (F 2)))
      (Measure.pi fun i => gaussianReal (m i) (v i).toNNReal) := fun y => (mp 2).integrable_comp_of_integrable (hp y).1
  have eb : ∀ (i : Fin 3) y, ∫ F : Fin 3 → ℝ, bernoulliLog y (l.sigma (F i)) ∂Measure.pi (fun i => gaussianReal (m i) (v i).toNNReal) =
      l.bernVarExp (m i) (v i) y := fun i y => by
    rw [(hb i y).2]
    have := integral_map (μ := Measure.pi fun i => gaussianReal (m i) (v i).toNNReal) (φ := Function.eval i)
      (mp i).measurable.aemeasurable (f := fun f => bernoulliLog y (l.sigma f)) (by rw [(mp i).map_eq]; exact (hb i y).1.1)
    rw [(mp i).map_eq] at this
    exact this.symm
  have ep : ∀ y, ∫ F : Fin 3 → ℝ, poissonLog y (l.rate (F 2)) ∂Measure.pi (fun i => gaussianReal (m i) (v i).toNNReal) =
      l.poisVarExp (m 2) (v 2) y := fun y => by
    rw [(hp y).2]
    have := integral_map (μ := Measure.pi fun i => gaussianReal (m i) (v i).toNNReal) (φ := Function.eval 2)
      (mp 2).measurable.aemeasurable (f := fun f => poissonLog y (l.rate f)) (by rw [(mp 2).map_eq]; exact (hp y).1.1)
    rw [(mp 2).map_eq] at this
    exact this.symm
  unfold MultiStage.varExp MultiStage.logProb
  by_cases h0 : Y = 0
  · subst h0
    have : ¬ (2 : ℝ) ≤ 0 := by norm_num
    simp only [if_true, this, if_false, add_zero, zero_ne_one, eb]
  · by_cases h1 : Y = 1
    · subst h1
      have : ¬ (2 : ℝ) ≤ 1 := by norm_num
      simp only [h0, if_true, this, if_false, add_zero, zero_add]
      rw [integral_add (ib 0 0) (ib 1 1), eb, eb]
    · by_cases h2 : 2 ≤ Y
      · simp only [h0, h1, h2, if_true, if_false, zero_add]
        have := integral_add ((ib 0 0).add (ib 1 0)) (ip (Y - 2))
        simp only [Pi.add_apply] at this
        rw [this, integral_add (ib 0 0) (ib 1 0), eb, eb, ep]
      · simp [h0, h1, h2]

/-! ### multivariate Gaussian -/

theorem mvn_eq {c : Mat o o} (h : NoiseFactor c) (m y : Vec o) : mvnTriLLogProb m c y = gaussLogDensity m (c * cᵀ) y := by
  unfold mvnTriLLogProb gaussLogDensity
  have e : (c * cᵀ)⁻¹ = (c⁻¹)ᵀ * c⁻¹ := by rw [Matrix.mul_inv_rev, transpose_nonsing_inv]
  have hdet : Real.log (c * cᵀ).det = 2 * ∑ i, Real.log (abs (c i i)) := by
    rw [det_mul, det_transpose, h.1.det, Real.log_mul (Finset.prod_ne_zero_iff.2 fun i _ => h.2 i)
      (Finset.prod_ne_zero_iff.2 fun i _ => h.2 i), Real.log_prod fun i _ => h.2 i, two_mul]
    simp only [Real.log_abs]
  simp only [h.1.tril_eq]
  rw [e, ← mulVec_mulVec, dotProduct_mulVec (y - m), vecMul_transpose, hdet]
  simp only [Fintype.card_fin]
  ring

theorem NoiseFactor.of_isCholesky {M L : Mat o o} (h : IsCholesky M L) : NoiseFactor L := ⟨h.lower, fun i => (h.diag_pos i).ne'⟩

/-- C40: `MultivariateGaussian(chol).log_probability_density(f, y)` is the log density of `N(f, L Lᵀ)` at `y`, where `L` is the lower
triangle of the constructor's argument; as a function of `y` it is the density of that law, so it is normalised. -/
theorem C40_mvg_log_density (chol : Mat o o) (h : ∀ i, chol i i ≠ 0) (f : Vec o) :
    let l := MvGaussian.init chol
    let L : Mat o o := Matrix.of fun i j => if j ≤ i then chol i j else 0
    (L * Lᵀ).PosDef ∧ (∀ y, l.logProb f y = gaussLogDensity f (L * Lᵀ) y) ∧
      gaussLaw f (L * Lᵀ) = (volume : Measure (Vec o)).withDensity fun y => ENNReal.ofReal (Real.exp (l.logProb f y)) := by
  intro l L
  have hL : l.chol = L := rfl
  have hN : NoiseFactor L := ⟨fun i j hij => if_neg (not_le.2 hij), fun i => by simpa [L] using h i⟩
  have e : ∀ y, l.logProb f y = gaussLogDensity f (L * Lᵀ) y := fun y => by
    show mvnTriLLogProb f l.chol y = _
    rw [hL, mvn_eq hN]
  refine ⟨hN.posDef, e, ?_⟩
  rw [gaussLaw_eq_withDensity hN.posDef]
  simp only [e]

/-- C40: `variational_expectations` is the expectation of the log density over latent values distributed `N(m, S)`. -/
theorem C40_mvg_variational_expectations (l : MvGaussian o) (hl : NoiseFactor l.chol) (m y : Vec o) {S : Mat o o}
    (hS : S.PosSemidef) :
    Integrable (fun f => l.logProb f y) (gaussLaw m S) ∧ l.varExp m S y = ∫ f, l.logProb f y ∂gaussLaw m S := by
  have esym : ∀ f : Vec o, l.logProb f y = gaussLogDensity y (l.chol * l.cholᵀ) f := fun f => by
    unfold MvGaussian.logProb
    rw [mvn_eq hl]
    unfold gaussLogDensity
    rw [← neg_sub f y, mulVec_neg, neg_dotProduct_neg]
  simp only [esym]
  constructor
  · unfold gaussLogDensity
    exact (((integrable_quad _ _ _).const_mul _).sub (integrable_const _)).sub (integrable_const _)
  · rw [integral_gaussLogDensity hS]
    have := esym m
    unfold MvGaussian.logProb at this
    unfold MvGaussian.varExp
    rw [this, hl.cholSolve]
    have ht : ((l.chol * l.cholᵀ)⁻¹ * S).trace = ∑ i, ∑ j, (l.chol * l.cholᵀ)⁻¹ i j * S i j := by
      have hs : ∀ i j, S i j = S j i := fun i j => by have := congrFun (congrFun hS.isHermitian j) i; simpa using this
      simp only [trace, diag_apply, mul_apply]
      exact Finset.sum_congr rfl fun i _ => Finset.sum_congr rfl fun j _ => by rw [hs i j]
    rw [ht]
    ring

/-- C40: `predict_density` succeeds and is the log of the expected density over latent values distributed `N(m, S)`, which is the log
density of `N(m, S + Σ)`. -/
theorem C40_mvg_predict_density (l : MvGaussian o) (hl : NoiseFactor l.chol) (m y : Vec o) {S : Mat o o} (hS : S.PosSemidef) :
    ∃ r, l.predictDensity m S y = .ok r ∧ ENNReal.ofReal (Real.exp r) = evidence (gaussLaw m S) (fun f => l.logProb f y) ∧
      r = gaussLogDensity m (S + l.chol * l.cholᵀ) y := by
  have hP : (S + l.chol * l.cholᵀ).PosDef := by rw [add_comm]; exact hl.posDef.add_posSemidef hS
  obtain ⟨L, hL, hC⟩ := tfCholesky_posDef hP
  have hN : NoiseFactor L := NoiseFactor.of_isCholesky hC
  have hr : mvnTriLLogProb m L y = gaussLogDensity m (S + l.chol * l.cholᵀ) y := by
    rw [mvn_eq hN, hC.mul_transpose]
  refine ⟨mvnTriLLogProb m L y, ?_, ?_, hr⟩
  · simp only [MvGaussian.predictDensity, hL, bind, Except.bind, pure, Except.pure]
  · obtain ⟨C, hCC, hlaw⟩ := gaussLaw_eq_map hS
    have hb := bayes_evidence (K := (1 : Mat o o)) (R := l.chol * l.cholᵀ) PosDef.one hl.posDef C (0 : Vec o) (y - m)
    have h1 : gaussLaw (0 : Vec o) (1 : Mat o o) = stdNormal (Fin o) := by
      have := stdNormal_map_affine (0 : Vec o) (1 : Mat o o)
      simpa using this.symm
    have hsh : ∀ e : Vec o, l.logProb (m + C *ᵥ e) y = gaussLogDensity (C *ᵥ e) (l.chol * l.cholᵀ) (y - m) := fun e => by
      unfold MvGaussian.logProb
      rw [mvn_eq hl]
      unfold gaussLogDensity
      rw [sub_sub y m]
    have hm : Measurable fun f : Vec o => ENNReal.ofReal (Real.exp (l.logProb f y)) := by
      have : (fun f : Vec o => l.logProb f y) = fun f => gaussLogDensity y (l.chol * l.cholᵀ) f := funext fun f => by
        unfold MvGaussian.logProb
        rw [mvn_eq hl]
        unfold gaussLogDensity
        rw [← neg_sub f y, mulVec_neg, neg_dotProduct_neg]
      have h2 := measurable_dens (m := y) (K := l.chol * l.cholᵀ)
      simpa only [congrFun this] using h2
    unfold evidence at hb ⊢
    rw [hlaw, lintegral_map hm (measurable_affine m C)]
    simp only [hsh]
    rw [← h1, hb, hr]
    congr 2
    rw [Matrix.mul_one, hCC, mulVec_zero]
    unfold gaussLogDensity
    rw [sub_zero]

theorem gaussLaw_add_noise {S R : Mat o o} (hS : S.PosSemidef) (hR : R.PosSemidef) (m : Vec o) :
    ((gaussLaw m S).prod (gaussLaw (0 : Vec o) R)).map (fun x => x.1 + x.2) = gaussLaw m (R + S) := by
  rw [gaussLaw_prod hS hR, Measure.map_map (by fun_prop) measurable_splitV]
  have h := gaussLaw_map_affine (posSemidef_blockdiag hS hR) (Sum.elim m 0) (0 : Vec o) (fromCols (1 : Mat o o) (1 : Mat o o))
  have e1 : ((fun x : Vec o × Vec o => x.1 + x.2) ∘ splitV) = fun x : Fin o ⊕ Fin o → ℝ => 0 + fromCols (1 : Mat o o) (1 : Mat o o) *ᵥ x := by
    funext x
    simp only [Function.comp, splitV, zero_add]
    rw [← Sum.elim_comp_inl_inr x, fromCols_mulVec_sumElim, one_mulVec, one_mulVec]
    rfl
  rw [e1, h, zero_add, fromCols_mulVec_sumElim, one_mulVec, mulVec_zero, add_zero]
  congr 1
  ext i j
  simp [mul_apply, fromBlocks, fromCols, Fintype.sum_sum_type, one_apply, add_comm]

/-- C40: `predict_mean_and_var` on full covariances is the law of latent value plus independent noise. -/
theorem C40_mvg_predict_mean_var (l : MvGaussian o) (m : Vec o) {S : Mat o o} (hS : S.PosSemidef) :
    ((gaussLaw m S).prod (gaussLaw (0 : Vec o) (l.chol * l.cholᵀ))).map (fun x => x.1 + x.2) =
      gaussLaw (l.predictMeanVar m S).1 (l.predictMeanVar m S).2 :=
  gaussLaw_add_noise hS (posSemidef_mul_transpose _) m

/-- C40: `predict_y(new, full_output_cov=True)` of a posterior with a multivariate Gaussian likelihood succeeds whenever `predict_f` does
and returns the law of the predicted latent value plus independent noise. -/
theorem C40_predict_y {c : CondProcess n o d} {k} (hK : Builds c.kernel k) (hq : c.q.Nondegenerate) (hn : 0 < n)
    (hts : Monotone c.times) {new : Fin p → ℝ} (h0 : ∀ j, -10000000000 < new j) (h1 : ∀ j, new j ≤ 10000000000) (l : MvGaussian o)
    {s} (h : c.predictState new = .ok s) :
    ∃ f y, c.predictF new = .ok f ∧ l.predictY c new = .ok y ∧ ∀ j,
      ((gaussLaw (f j).1 (f j).2).prod (gaussLaw (0 : Vec o) (l.chol * l.cholᵀ))).map (fun x => x.1 + x.2) =
        gaussLaw (y j).1 (y j).2 := by
  obtain ⟨⟨f, hf, hfv⟩, -⟩ := C45_formulas h 0
  refine ⟨f, fun q => l.predictMeanVar (f q).1 (f q).2, hf, ?_, fun j => ?_⟩
  · simp only [MvGaussian.predictY, hf, bind, Except.bind, pure, Except.pure]
  · have hps := C45_state_psd hK hq hn hts h0 h1 h j
    refine C40_mvg_predict_mean_var l _ ?_
    rw [(hfv j).2]
    have := hps.mul_mul_conjTranspose_same (c.kernel.emission (new j))
    rwa [conjTranspose_eq_transpose_of_trivial] at this

/-- C40, negative result: `predict_y(new)` with the default `full_output_cov=False` adds the whole `[o, o]` noise covariance to the
`[p, o]` variances. For one output it is right (`Σ₀₀` added to every variance); for more outputs it raises unless the number of new
points is 1 or `o`; and for `p = o` new points the variance of output `i` at point `q` gets `Σ_qi` instead of `Σ_ii`. -/
theorem C40_predict_y_default {c : CondProcess n o d} {new : Fin p → ℝ} (l : MvGaussian o) {f}
    (hf : c.predictFDiag new = .ok f) :
    (o = 1 → ∃ v, l.predictYDiag c new = .ok (fun q => (f q).1, ⟨p, v⟩) ∧
      ∀ q i, v q i = (f q).2 i + (l.chol * l.cholᵀ) i i) ∧
    (o ≠ 1 → p ≠ 1 → p ≠ o → l.predictYDiag c new = .error .invalidArgument) ∧
    (∀ h : p = o, ∃ v, l.predictYDiag c new = .ok (fun q => (f q).1, ⟨p, v⟩) ∧
      ∀ q i, v q i = (f q).2 i + (l.chol * l.cholᵀ) (q.cast h) i) := by
  simp only [MvGaussian.predictYDiag, hf, bind, Except.bind, pure, Except.pure, MvGaussian.addVariances]
  refine ⟨fun h => ?_, fun h1 h2 h3 => ?_, fun h => ?_⟩
  · subst h
    by_cases hp : p = 1
    · subst hp
      simp only [dite_true]
      refine ⟨_, rfl, fun q i => ?_⟩
      rw [Subsingleton.elim q i, add_comm]
    · simp only [hp, dite_false, dite_true]
      refine ⟨_, rfl, fun q i => ?_⟩
      rw [Subsingleton.elim i 0, add_comm]; rfl
  · simp only [h1, h2, h3, dite_false]
  · subst h
    simp only [dite_true]
    exact ⟨_, rfl, fun q i => add_comm _ _⟩

/-- The hypotheses of `C40_mvg_*` hold for a correlated two-output likelihood and a singular latent covariance, and there the default
`predict_y` variance of two points differs from the right one. -/
example : ∃ (l : MvGaussian 2) (S : Mat 2 2), NoiseFactor l.chol ∧ S.PosSemidef ∧ S.det = 0 ∧
    (l.chol * l.cholᵀ) 0 1 ≠ (l.chol * l.cholᵀ) 1 1 ∧ l = MvGaussian.init !![1, 5; 2, 3] := by
  refine ⟨.init !![1, 5; 2, 3], !![1, 1; 1, 1], ⟨fun i j h => if_neg (not_le.2 h), fun i => ?_⟩, ?_, by simp, ?_, rfl⟩
  · fin_cases i <;> simp [MvGaussian.init, tril]
  · have := posSemidef_mul_transpose (!![1, 0; 1, 0] : Mat 2 2)
    convert this using 1
    ext i j; fin_cases i <;> fin_cases j <;> simp [mul_apply]
  · simp [MvGaussian.init, tril, mul_apply, Fin.sum_univ_two]
    norm_num

/-- The hypotheses of `C40_multistage_*` hold for a logistic link and an exponential rate. -/
example : ∃ (l : MultiStage) (F : Fin 3 → ℝ), 0 < l.sigma (F 0) ∧ l.sigma (F 0) < 1 ∧ 0 < l.sigma (F 1) ∧ l.sigma (F 1) < 1 ∧
    0 < l.rate (F 2) ∧ l.sigma 0 ≠ l.sigma 1 := by
  refine ⟨⟨fun x => 1 / (1 + Real.exp (-x)), Real.exp, fun _ _ _ => 0, fun _ _ _ => 0⟩, ![0, 1, 2], ?_⟩
  have hs : ∀ x : ℝ, 0 < 1 / (1 + Real.exp (-x)) ∧ 1 / (1 + Real.exp (-x)) < 1 := fun x => by
    have := Real.exp_pos (-x)
    exact ⟨by positivity, by rw [div_lt_one (by positivity)]; linarith⟩
  refine ⟨(hs _).1, (hs _).2, (hs _).1, (hs _).2, Real.exp_pos _, fun h => ?_⟩
  have h' : 1 / (1 + Real.exp (-0)) = 1 / (1 + Real.exp (-1)) := h
  rw [div_eq_div_iff (by positivity) (by positivity)] at h'
  have : Real.exp (-1) < Real.exp (-0) := Real.exp_lt_exp.2 (by norm_num)
  linarith

end MF
