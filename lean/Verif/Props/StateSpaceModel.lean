import Verif.Lemmas.SSMLaw
import Verif.Lemmas.SSMFrom

/-!
# Properties C08–C15: state space models

Specification vocabulary: `IsMeans`, `IsCovs`, `IsJointCov`, `IsTrajectory` (`Spec/GaussMarkov`),
`trajLaw` = the law of the simulated chain, `gaussLaw` = Mathlib's multivariate Gaussian,
`InformationTheory.klDiv` = Mathlib's Kullback–Leibler divergence (`Spec/Gauss`).

`SSM.Nondegenerate` (`Lemmas/SSM`): the initial and process noise Cholesky factors are lower
triangular with non-zero diagonal, i.e. the initial covariance and all process covariances are
positive definite.
-/

namespace MF
open Matrix Spec MeasureTheory ProbabilityTheory

variable {n d : ℕ}

/-- A 2-step, 2-dimensional model used for the non-vacuity examples. -/
def exSSM : SSM 2 2 where
  mu0 := ![1, 2]
  cholP0 := !![1, 0; 3, 2]
  A := fun _ => !![1, 2; 0, 1]
  b := fun _ => ![0, 1]
  cholQ := fun _ => !![2, 0; 1, 1]

theorem exSSM_nondegenerate : exSSM.Nondegenerate := by
  intro b
  refine Fin.cases ⟨?_, ?_⟩ (fun k => ⟨?_, ?_⟩) b
  · intro i j h
    fin_cases i <;> fin_cases j <;> simp_all [SSM.concatChol, exSSM]
  · intro i
    fin_cases i <;> simp [SSM.concatChol, exSSM]
  · intro i j h
    fin_cases i <;> fin_cases j <;> simp_all [SSM.concatChol, exSSM]
  · intro i
    fin_cases i <;> simp [SSM.concatChol, exSSM]

/-! ### C08 -/

/-- C08: `marginal_means` follows the recursion and is the expectation of the trajectory, whatever
the noise factors (also zero ones). -/
theorem C08_marginal_means (s : SSM n d) (hn : 0 < n) :
    ∃ μ, s.marginalMeans = .ok μ ∧ IsMeans s.mu0 s.A s.b μ ∧
      ∀ k i, ∫ x, x (k, i) ∂(trajLaw s.mu0 s.cholP0 s.A s.b s.cholQ) = μ k i := by
  refine ⟨s.mus, SSM.marginalMeans_eq hn, SSM.mus_isMeans, fun k i => ?_⟩
  have : trajLaw s.mu0 s.cholP0 s.A s.b s.cholQ = gaussLaw (stk s.mus) s.Kd := SSM.law_eq_gauss
  rw [this, integral_eval_gaussLaw]
  rfl

/-- C08 (single time point): a model with no transitions cannot compute its marginal means. -/
theorem C08_no_transitions (s : SSM 0 d) :
    s.marginalMeans = .error .invalidArgument ∧ s.precision = .error .invalidArgument ∧
      ∀ e, s.sample e = .error .invalidArgument := by
  refine ⟨rfl, rfl, fun e => rfl⟩

example : 0 < 2 ∧ exSSM.A 0 ≠ 0 := by
  refine ⟨by norm_num, fun h => ?_⟩
  have := congrFun (congrFun h 0) 0
  simp [exSSM] at this

/-! ### C09 -/

/-- C09: `marginal_covariances` and `covariance_blocks` are those of the trajectory. -/
theorem C09_covariances (s : SSM n d) (h : s.Nondegenerate) (hn : 0 < n) (hd : 0 < d) :
    ∃ S C, s.marginalCovariances = .ok S ∧ s.covarianceBlocks = .ok (S, C) ∧
      IsCovs (s.cholP0 * s.cholP0ᵀ) s.A (fun k => s.cholQ k * (s.cholQ k)ᵀ) S ∧
      (∀ k, C k = s.A k * S k.castSucc) ∧
      (∀ k i j, cov[fun x => x (k, i), fun x => x (k, j);
        trajLaw s.mu0 s.cholP0 s.A s.b s.cholQ] = S k i j) ∧
      (∀ (k : Fin n) i j, cov[fun x => x (k.succ, i), fun x => x (k.castSucc, j);
        trajLaw s.mu0 s.cholP0 s.A s.b s.cholQ] = C k i j) := by
  have hl : trajLaw s.mu0 s.cholP0 s.A s.b s.cholQ = gaussLaw (stk s.mus) s.Kd := SSM.law_eq_gauss
  refine ⟨fun b => blk s.Kd b b, s.subsequentCovariances fun b => blk s.Kd b b,
    SSM.marginalCovariances_eq h hn hd, ?_, SSM.covs_isCovs, fun k => rfl, ?_, ?_⟩
  · unfold SSM.covarianceBlocks
    rw [SSM.marginalCovariances_eq h hn hd]; rfl
  · intro k i j
    rw [hl, covariance_eval_gaussLaw SSM.Kd_posSemidef]; rfl
  · intro k i j
    rw [hl, covariance_eval_gaussLaw SSM.Kd_posSemidef, SSM.subsequent_eq]; rfl

/-- C09: `marginals` pairs the two. -/
theorem C09_marginals (s : SSM n d) (h : s.Nondegenerate) (hn : 0 < n) (hd : 0 < d) :
    ∃ μ S, s.marginals = .ok (μ, S) ∧ IsMeans s.mu0 s.A s.b μ ∧
      IsCovs (s.cholP0 * s.cholP0ᵀ) s.A (fun k => s.cholQ k * (s.cholQ k)ᵀ) S := by
  refine ⟨s.mus, _, ?_, SSM.mus_isMeans, SSM.covs_isCovs⟩
  unfold SSM.marginals
  rw [SSM.marginalMeans_eq hn, SSM.marginalCovariances_eq h hn hd]; rfl

example : exSSM.Nondegenerate ∧ 0 < 2 := ⟨exSSM_nondegenerate, by norm_num⟩

/-! ### C10 -/

/-- C10: the precision is the inverse of the joint covariance, with the right log determinant, and
its Cholesky factorisation never raises. -/
theorem C10_precision (s : SSM n d) (h : s.Nondegenerate) (hn : 0 < n) (hd : 0 < d) :
    ∃ P C, s.precision = .ok P ∧ (unflat P.toDense).PosDef ∧
      (∀ K, IsJointCov (s.cholP0 * s.cholP0ᵀ) s.A (fun k => s.cholQ k * (s.cholQ k)ᵀ) K →
        unflat P.toDense * K = 1 ∧ K * unflat P.toDense = 1) ∧
      (∀ p q, cov[fun x => x p, fun x => x q; trajLaw s.mu0 s.cholP0 s.A s.b s.cholQ] =
        (unflat P.toDense)⁻¹ p q) ∧
      s.logDetPrecision = Real.log (unflat P.toDense).det ∧
      P.cholesky = .ok C ∧ unflat C.toDense * (unflat C.toDense)ᵀ = unflat P.toDense := by
  have hl : trajLaw s.mu0 s.cholP0 s.A s.b s.cholQ = gaussLaw (stk s.mus) s.Kd := SSM.law_eq_gauss
  obtain ⟨c, hc, hcc⟩ := SSM.precision_cholesky h hn hd
  refine ⟨_, c, SSM.precision_eq h hn, ?_, ?_, ?_, ?_, hc, ?_⟩
  · rw [SSM.unflat_prec h]; exact SSM.Pd_posDef h
  · intro K hK
    obtain rfl : K = s.Kd := SSM.IsJointCov.unique hK SSM.Kd_isJointCov
    rw [SSM.unflat_prec h]
    exact ⟨SSM.Pd_mul_Kd h, SSM.Kd_mul_Pd h⟩
  · intro p q
    rw [hl, covariance_eval_gaussLaw SSM.Kd_posSemidef, SSM.unflat_prec h, SSM.Pd_inv h]
  · rw [SSM.unflat_prec h, SSM.logdet_Pd h]
  · rw [hcc, SSM.unflat_prec h]

/-- Such a joint covariance exists (and is unique). -/
theorem C10_joint_cov_exists (s : SSM n d) :
    ∃! K, IsJointCov (s.cholP0 * s.cholP0ᵀ) s.A (fun k => s.cholQ k * (s.cholQ k)ᵀ) K :=
  ⟨s.Kd, SSM.Kd_isJointCov, fun _ h => SSM.IsJointCov.unique h SSM.Kd_isJointCov⟩

/-! ### C11 -/

/-- C11: `exp (log_pdf x)` is the Lebesgue density of the trajectory's law, and `log_pdf` is the
dense Gaussian log density. Holds with no transitions as well. -/
theorem C11_log_pdf (s : SSM n d) (h : s.Nondegenerate) :
    trajLaw s.mu0 s.cholP0 s.A s.b s.cholQ =
      (volume : Measure (Ix n d → ℝ)).withDensity
        (fun x => ENNReal.ofReal (Real.exp (s.logPdf (unstk x)))) ∧
    ∀ μ K, IsMeans s.mu0 s.A s.b μ →
      IsJointCov (s.cholP0 * s.cholP0ᵀ) s.A (fun k => s.cholQ k * (s.cholQ k)ᵀ) K →
      ∀ x, s.logPdf x = gaussLogDensity (stk μ) K (stk x) := by
  have hl : trajLaw s.mu0 s.cholP0 s.A s.b s.cholQ = gaussLaw (stk s.mus) s.Kd := SSM.law_eq_gauss
  constructor
  · rw [hl, gaussLaw_eq_withDensity (SSM.Kd_posDef h)]
    congr 1
    funext x
    rw [SSM.logPdf_eq h]
    rfl
  · intro μ K hμ hK x
    obtain rfl : K = s.Kd := SSM.IsJointCov.unique hK SSM.Kd_isJointCov
    obtain rfl : μ = s.mus := SSM.IsMeans.unique hμ SSM.mus_isMeans
    exact SSM.logPdf_eq h x

/-! ### C12 -/

/-- C12: fed with iid standard normal noise, `sample` draws from the trajectory's law; that law is
the multivariate Gaussian with the model's means and joint covariance. No non-degeneracy needed. -/
theorem C12_sample (s : SSM n d) (hn : 0 < n) :
    ∃ X : (Fin (n + 1) → Vec d) → (Fin (n + 1) → Vec d),
      (∀ e, s.sample e = .ok (X e)) ∧
      (∀ e, (X e) 0 = s.mu0 + s.cholP0 *ᵥ e 0) ∧
      (∀ e (k : Fin n), (X e) k.succ = s.A k *ᵥ (X e) k.castSucc + s.b k + s.cholQ k *ᵥ e k.succ) ∧
      (stdNormal (Ix n d)).map (fun e => stk (X (unstk e))) =
        trajLaw s.mu0 s.cholP0 s.A s.b s.cholQ ∧
      ∀ μ K, IsMeans s.mu0 s.A s.b μ →
        IsJointCov (s.cholP0 * s.cholP0ᵀ) s.A (fun k => s.cholQ k * (s.cholQ k)ᵀ) K →
        trajLaw s.mu0 s.cholP0 s.A s.b s.cholQ = gaussLaw (stk μ) K := by
  have ht := fun e : Fin (n + 1) → Vec d =>
    simulate_isTrajectory s.mu0 s.A s.b (fun k => s.concatChol k *ᵥ e k)
  refine ⟨fun e => simulate s.mu0 s.A s.b (fun k => s.concatChol k *ᵥ e k),
    fun e => SSM.sample_simulate hn e, fun e => (ht e).zero, fun e k => (ht e).succ k, ?_, ?_⟩
  · unfold trajLaw
    simp only [SSM.noise_eq]
  · intro μ K hμ hK
    obtain rfl : K = s.Kd := SSM.IsJointCov.unique hK SSM.Kd_isJointCov
    obtain rfl : μ = s.mus := SSM.IsMeans.unique hμ SSM.mus_isMeans
    exact SSM.law_eq_gauss

/-! ### C13 -/

/-- C13: `kl_divergence` is the Kullback–Leibler divergence between the trajectory laws, is
non-negative, and vanishes exactly when the laws agree. -/
theorem C13_kl_divergence (q p : SSM n d) (hq : q.Nondegenerate) (hp : p.Nondegenerate)
    (hn : 0 < n) (hd : 0 < d) :
    ∃ r, q.klDivergence p = .ok r ∧
      InformationTheory.klDiv (trajLaw q.mu0 q.cholP0 q.A q.b q.cholQ)
        (trajLaw p.mu0 p.cholP0 p.A p.b p.cholQ) = ENNReal.ofReal r ∧
      0 ≤ r ∧
      (r = 0 ↔ trajLaw q.mu0 q.cholP0 q.A q.b q.cholQ = trajLaw p.mu0 p.cholP0 p.A p.b p.cholQ) := by
  have hlq : trajLaw q.mu0 q.cholP0 q.A q.b q.cholQ = gaussLaw (stk q.mus) q.Kd :=
    SSM.law_eq_gauss
  have hlp : trajLaw p.mu0 p.cholP0 p.A p.b p.cholQ = gaussLaw (stk p.mus) p.Kd :=
    SSM.law_eq_gauss
  have hKq := SSM.Kd_posDef hq
  have hKp := SSM.Kd_posDef hp
  refine ⟨_, SSM.kl_eq hq hp hn hd, ?_, gaussKL_nonneg hKq hKp, ?_⟩
  · rw [hlq, hlp, klDiv_gaussLaw hKq hKp]
  · rw [gaussKL_eq_zero_iff hKq hKp, hlq, hlp, SSM.gaussLaw_inj hKq.posSemidef hKp.posSemidef]

/-- C13 (dense formula). -/
theorem C13_dense_formula (q p : SSM n d) (hq : q.Nondegenerate) (hp : p.Nondegenerate)
    (hn : 0 < n) (hd : 0 < d) (μq μp : Fin (n + 1) → Vec d) (Kq Kp : Matrix (Ix n d) (Ix n d) ℝ)
    (hμq : IsMeans q.mu0 q.A q.b μq) (hμp : IsMeans p.mu0 p.A p.b μp)
    (hKq : IsJointCov (q.cholP0 * q.cholP0ᵀ) q.A (fun k => q.cholQ k * (q.cholQ k)ᵀ) Kq)
    (hKp : IsJointCov (p.cholP0 * p.cholP0ᵀ) p.A (fun k => p.cholQ k * (p.cholQ k)ᵀ) Kp) :
    q.klDivergence p = .ok (gaussKL (stk μq) Kq (stk μp) Kp) := by
  obtain rfl : Kq = q.Kd := SSM.IsJointCov.unique hKq SSM.Kd_isJointCov
  obtain rfl : μq = q.mus := SSM.IsMeans.unique hμq SSM.mus_isMeans
  obtain rfl : Kp = p.Kd := SSM.IsJointCov.unique hKp SSM.Kd_isJointCov
  obtain rfl : μp = p.mus := SSM.IsMeans.unique hμp SSM.mus_isMeans
  exact SSM.kl_eq hq hp hn hd

/-! ### C14 -/

/-- C14: `log_pdf(x) = μᵀ P x - xᵀ P x / 2 - normalizer()` with `P` the precision returned by the
model, and `exp(normalizer())` is the integral of `exp(μᵀ P x - xᵀ P x / 2)`. -/
theorem C14_normalizer (s : SSM n d) (h : s.Nondegenerate) (hn : 0 < n) (hd : 0 < d) :
    ∃ z P μ, s.normalizer = .ok z ∧ s.precision = .ok P ∧ s.marginalMeans = .ok μ ∧
      (∀ x, s.logPdf x = stk μ ⬝ᵥ (unflat P.toDense *ᵥ stk x)
        - (1 / 2) * (stk x ⬝ᵥ (unflat P.toDense *ᵥ stk x)) - z) ∧
      ENNReal.ofReal (Real.exp z) = ∫⁻ x : Ix n d → ℝ, ENNReal.ofReal (Real.exp
        (stk μ ⬝ᵥ (unflat P.toDense *ᵥ x) - (1 / 2) * (x ⬝ᵥ (unflat P.toDense *ᵥ x)))) := by
  have hlog : ∀ x, s.logPdf x = stk s.mus ⬝ᵥ (s.Pd *ᵥ stk x)
        - (1 / 2) * (stk x ⬝ᵥ (s.Pd *ᵥ stk x)) - ((1 / 2) * (((n + 1) * d : ℕ) *
        Real.log (2 * Real.pi) - s.logDetPrecision + stk s.mus ⬝ᵥ (s.Pd *ᵥ stk s.mus))) := by
    intro x
    rw [SSM.logPdf_eq h, gaussLogDensity, SSM.Kd_inv h, SSM.logdet_Kd h]
    have hsym : stk x ⬝ᵥ (s.Pd *ᵥ stk s.mus) = stk s.mus ⬝ᵥ (s.Pd *ᵥ stk x) := by
      have hP : s.Pdᵀ = s.Pd := by
        have := (SSM.Pd_posDef h).isHermitian
        rwa [Matrix.IsHermitian, conjTranspose_eq_transpose_of_trivial] at this
      rw [dotProduct_mulVec, ← mulVec_transpose, hP, dotProduct_comm]
    have hcard : Fintype.card (Ix n d) = (n + 1) * d := by simp [Ix]
    rw [mulVec_sub, dotProduct_sub, sub_dotProduct, sub_dotProduct, hsym, hcard]
    ring
  refine ⟨_, _, _, SSM.normalizer_eq h hn hd, SSM.precision_eq h hn, SSM.marginalMeans_eq hn, ?_,
    ?_⟩
  · rw [SSM.unflat_prec h]; exact hlog
  · rw [SSM.unflat_prec h]
    set z := (1 / 2 : ℝ) * (((n + 1) * d : ℕ) *
        Real.log (2 * Real.pi) - s.logDetPrecision + stk s.mus ⬝ᵥ (s.Pd *ᵥ stk s.mus)) with hz
    have h1 : (trajLaw s.mu0 s.cholP0 s.A s.b s.cholQ) Set.univ = 1 := by
      have hl : trajLaw s.mu0 s.cholP0 s.A s.b s.cholQ = gaussLaw (stk s.mus) s.Kd :=
        SSM.law_eq_gauss
      rw [hl, measure_univ]
    rw [(C11_log_pdf s h).1, withDensity_apply _ MeasurableSet.univ, setLIntegral_univ] at h1
    have h2 : ∀ x : Ix n d → ℝ, ENNReal.ofReal (Real.exp
        (stk s.mus ⬝ᵥ (s.Pd *ᵥ x) - (1 / 2) * (x ⬝ᵥ (s.Pd *ᵥ x)))) =
        ENNReal.ofReal (Real.exp z) * ENNReal.ofReal (Real.exp (s.logPdf (unstk x))) := by
      intro x
      rw [← ENNReal.ofReal_mul (Real.exp_pos _).le, ← Real.exp_add, hlog]
      congr 2
      have : stk (unstk x) = x := rfl
      rw [this]
      ring
    simp only [h2]
    rw [lintegral_const_mul' _ _ ENNReal.ofReal_ne_top, h1, mul_one]

/-! ### C15 -/

/-- C15 (success): when every covariance is positive definite or exactly zero, the constructor
succeeds and the model's covariances are exactly the given ones. -/
theorem C15_from_covariances (m0 : Vec d) (P0 : Mat d d) (A : Fin n → Mat d d)
    (b : Fin n → Vec d) (Q : Fin n → Mat d d) (hn : 0 < n) (hd : 0 < d)
    (hP : P0 = 0 ∨ P0.PosDef) (hQ : ∀ k, Q k = 0 ∨ (Q k).PosDef) :
    ∃ s, ssmFromCovariances m0 P0 A b Q = .ok s ∧ s.mu0 = m0 ∧ s.A = A ∧ s.b = b ∧
      s.cholP0 * s.cholP0ᵀ = P0 ∧ (∀ k, s.cholQ k * (s.cholQ k)ᵀ = Q k) ∧
      (P0.PosDef → (∀ k, (Q k).PosDef) → s.Nondegenerate) := by
  obtain ⟨c0, h0, h0'⟩ := choleskyOrZero_ok hd hP
  obtain ⟨cs, h1, h1'⟩ := choleskyOrZeros_ok hd hQ
  refine ⟨⟨m0, c0, A, b, cs⟩, ?_, rfl, rfl, rfl, ?_, ?_, ?_⟩
  · unfold ssmFromCovariances
    rw [if_neg (by omega), h0, h1]; rfl
  · rcases h0' with ⟨h, h'⟩ | ⟨h, h'⟩
    · simp [h, h']
    · exact h'.mul_transpose
  · intro k
    rcases h1' k with ⟨h, h'⟩ | ⟨h, h'⟩
    · simp [h, h']
    · exact h'.mul_transpose
  · intro hP' hQ'
    have hz : ¬ (0 : Mat d d).PosDef := fun h => lt_irrefl _ (h.diag_pos (i := (⟨0, hd⟩ : Fin d)))
    intro k
    refine Fin.cases ?_ (fun k => ?_) k
    · rcases h0' with ⟨h, h'⟩ | ⟨h, h'⟩
      · rw [h] at hP'; exact absurd hP' hz
      · exact ⟨h'.lower, fun i => (h'.diag_pos i).ne'⟩
    · rcases h1' k with ⟨h, h'⟩ | ⟨h, h'⟩
      · have := hQ' k
        rw [h] at this; exact absurd this hz
      · exact ⟨h'.lower, fun i => (h'.diag_pos i).ne'⟩

/-- C15 (failure): for symmetric input, anything else raises. -/
theorem C15_from_covariances_raises (m0 : Vec d) (P0 : Mat d d) (A : Fin n → Mat d d)
    (b : Fin n → Vec d) (Q : Fin n → Mat d d) (hP : P0ᵀ = P0) (hQ : ∀ k, (Q k)ᵀ = Q k)
    (hbad : (¬ (P0 = 0 ∨ P0.PosDef)) ∨ ∃ k, ¬ (Q k = 0 ∨ (Q k).PosDef)) :
    ssmFromCovariances m0 P0 A b Q = .error .invalidArgument := by
  unfold ssmFromCovariances
  by_cases h : n = 0 ∨ d = 0
  · rw [if_pos h]; rfl
  rw [if_neg h]
  have hd : 0 < d := by omega
  by_cases hP0 : P0 = 0 ∨ P0.PosDef
  · obtain ⟨c0, h0, -⟩ := choleskyOrZero_ok hd hP0
    have h1 := choleskyOrZeros_error hd hQ (hbad.resolve_left (not_not.2 hP0))
    rw [h0, h1]; rfl
  · rw [choleskyOrZero_error hP hP0]; rfl

/-- C15: and so does a model without transitions. -/
theorem C15_no_transitions (m0 : Vec d) (P0 : Mat d d) (A : Fin 0 → Mat d d)
    (b : Fin 0 → Vec d) (Q : Fin 0 → Mat d d) :
    ssmFromCovariances m0 P0 A b Q = .error .invalidArgument := by
  unfold ssmFromCovariances
  rw [if_pos (Or.inl rfl)]; rfl

/-- Non-vacuity of C15: a mix of zero and positive definite covariances. -/
example : ∃ (P0 : Mat 2 2) (Q : Fin 2 → Mat 2 2), (P0 = 0 ∨ P0.PosDef) ∧
    (∀ k, Q k = 0 ∨ (Q k).PosDef) ∧ Q 0 ≠ Q 1 :=
  ⟨1, ![0, 1], Or.inr PosDef.one, by
    intro k; fin_cases k
    · exact Or.inl rfl
    · exact Or.inr PosDef.one, by simp⟩

/-- Non-vacuity of C15 (failure): `-1`. -/
example : ¬ ((-1 : Mat 2 2) = 0 ∨ (-1 : Mat 2 2).PosDef) := by
  rintro (h | h)
  · have := congrFun (congrFun h 0) 0; norm_num at this
  · have := h.diag_pos (i := 0); norm_num at this

/-! ### C46 -/

/-- C46: the non-trainable copy has the same trajectory law, always; the trainable copy has it for lower
triangular Cholesky factors, and then all five tensors are unchanged. -/
theorem C46_copies (s : SSM n d) :
    s.createNonTrainableCopy.law = s.law ∧
    (LowerTri s.cholP0 → (∀ k, LowerTri (s.cholQ k)) → s.createTrainableCopy.law = s.law ∧
      s.createTrainableCopy.mu0 = s.mu0 ∧ s.createTrainableCopy.cholP0 = s.cholP0 ∧
      s.createTrainableCopy.A = s.A ∧ s.createTrainableCopy.b = s.b ∧
      s.createTrainableCopy.cholQ = s.cholQ) ∧
    LowerTri s.createTrainableCopy.cholP0 ∧ ∀ k, LowerTri (s.createTrainableCopy.cholQ k) := by
  refine ⟨rfl, fun h0 hQ => ?_, ?_, ?_⟩
  · have e : s.createTrainableCopy = s := by
      unfold SSM.createTrainableCopy
      rw [h0.tril_eq, show (fun k => tril (s.cholQ k)) = s.cholQ from funext fun k => (hQ k).tril_eq]
    rw [e]
    exact ⟨rfl, rfl, rfl, rfl, rfl, rfl⟩
  · exact tril_lower _
  · exact fun k => tril_lower _

/-- Non-vacuity for C46: the example model, whose factors are not diagonal. -/
example : LowerTri exSSM.cholP0 ∧ ∀ k, LowerTri (exSSM.cholQ k) :=
  ⟨(exSSM_nondegenerate 0).1, fun k => (exSSM_nondegenerate k.succ).1⟩

end MF
