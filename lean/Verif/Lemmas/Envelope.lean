import Verif.Lemmas.FullGaussian
import Verif.Lemmas.HyperGrad

/-!
# The optimal value of a variational bound as a function of the prior covariance
-/

namespace MF
open Matrix MF.Spec Filter Topology

/-- A function squeezed between `ℓ` and `ℓ + r` where `r` vanishes to first order has the derivative of `ℓ`. -/
theorem hasDerivAt_sandwich {f ℓ r : ℝ → ℝ} {D θ : ℝ} (hℓ : HasDerivAt ℓ D θ) (hr : HasDerivAt r 0 θ) (hr0 : r θ = 0)
    (h : ∀ᶠ x in 𝓝 θ, ℓ x ≤ f x ∧ f x ≤ ℓ x + r x) : HasDerivAt f D θ := by
  have h0 : f θ = ℓ θ := by
    have := h.self_of_nhds
    rw [hr0, add_zero] at this
    exact le_antisymm this.2 this.1
  have hz : HasDerivAt (fun x => f x - ℓ x) 0 θ := by
    rw [hasDerivAt_iff_isLittleO] at hr ⊢
    refine Asymptotics.IsBigO.trans_isLittleO ?_ hr
    refine Asymptotics.IsBigO.of_bound 1 (h.mono fun x hx => ?_)
    simp only [smul_zero, sub_zero, hr0, h0, sub_self, one_mul, Real.norm_eq_abs]
    rw [abs_of_nonneg (by linarith [hx.1]), abs_of_nonneg (by linarith [hx.1, hx.2])]
    linarith [hx.2]
  exact ((hz.add hℓ).congr_of_eventuallyEq (Filter.Eventually.of_forall fun x => by simp)).congr_deriv (by simp)

section dense
variable {ι : Type*} [Fintype ι] [DecidableEq ι]

/-- The gain in the covariance that a change of the prior allows is of second order. -/
theorem trace_complete {R B E K1 : Matrix ι ι ℝ} (hR : Rᵀ = R) (hB : Bᵀ = B) (hE : Eᵀ = E) (hK1 : K1.PosDef) :
    (E * (R * B * R)).trace - 1 / 2 * (K1⁻¹ * (R * (B * B) * R)).trace ≤ 1 / 2 * (E * (R * R) * E * K1).trace := by
  have u := isUnit_det' hK1.isUnit
  have hs : K1ᵀ = K1 := posDef_tr hK1
  have h0 := (posSemidef_conj' hK1.inv.posSemidef (B * R - R * E * K1)).trace_nonneg
  have ht : (B * R - R * E * K1)ᵀ = R * B - K1 * E * R := by
    simp only [transpose_sub, transpose_mul, hR, hB, hE, hs, Matrix.mul_assoc]
  rw [ht, Matrix.sub_mul, Matrix.mul_assoc (R * E) K1, mul_nonsing_inv _ u, Matrix.mul_one, Matrix.sub_mul, Matrix.mul_sub, Matrix.mul_sub] at h0
  have e1 : (B * R * K1⁻¹ * (R * B)).trace = (K1⁻¹ * (R * (B * B) * R)).trace := by
    rw [Matrix.mul_assoc (B * R), trace_mul_comm]
    simp only [Matrix.mul_assoc]
  have e2 : (B * R * K1⁻¹ * (K1 * E * R)).trace = (E * (R * B * R)).trace := by
    rw [Matrix.mul_assoc K1, Matrix.mul_assoc (B * R), ← Matrix.mul_assoc K1⁻¹, nonsing_inv_mul _ u, Matrix.one_mul, trace_mul_comm]
    simp only [Matrix.mul_assoc]
  have e3 : (R * E * (R * B)).trace = (E * (R * B * R)).trace := by
    rw [Matrix.mul_assoc R, trace_mul_comm]
    simp only [Matrix.mul_assoc]
  have e4 : (R * E * (K1 * E * R)).trace = (E * (R * R) * E * K1).trace := by
    rw [Matrix.mul_assoc R, trace_mul_comm, show E * (K1 * E * R) * R = (E * K1) * (E * (R * R)) by simp only [Matrix.mul_assoc], trace_mul_comm]
    simp only [Matrix.mul_assoc]
  rw [trace_sub, trace_sub, trace_sub, e1, e2, e3, e4] at h0
  linarith

/-- The same for the mean. -/
theorem quad_complete {K1 : Matrix ι ι ℝ} (hK1 : K1.PosDef) (x z : ι → ℝ) :
    x ⬝ᵥ z - 1 / 2 * (x ⬝ᵥ (K1⁻¹ *ᵥ x)) ≤ 1 / 2 * (z ⬝ᵥ (K1 *ᵥ z)) := by
  have u := isUnit_det' hK1.isUnit
  have hs : K1ᵀ = K1 := posDef_tr hK1
  have h0 := hK1.inv.posSemidef.dotProduct_mulVec_nonneg (x - K1 *ᵥ z)
  rw [star_trivial, quad_sub (posDef_tr hK1.inv), mulVec_mulVec z, nonsing_inv_mul _ u, one_mulVec] at h0
  have e1 : (K1 *ᵥ z) ⬝ᵥ (K1⁻¹ *ᵥ x) = x ⬝ᵥ z := by
    rw [dotProduct_mulVec, ← mulVec_transpose, posDef_tr hK1.inv, mulVec_mulVec, nonsing_inv_mul _ u, one_mulVec, dotProduct_comm]
  rw [e1, dotProduct_comm (K1 *ᵥ z)] at h0
  linarith

/-- If `N(μ, K)` is the stationary point of a bound with concave likelihood terms for the prior `N(μ0, K0)`, then for any other prior `N(μ1, K1)` no
Gaussian has a bound better than that of `N(μ, K)` by more than a quadratic in the changes of the natural parameters. -/
theorem dense_perturb {lik : ScalarLikelihood} (he : ExactLikelihood lik) (hl : LogConcaveLikelihood lik) (hd : DifferentiableVarExp lik)
    {K0 K K1 : Matrix ι ι ℝ} (hK0 : K0.PosDef) (hK : K.PosDef) (hK1 : K1.PosDef) {μ μ0 μ1 y : ι → ℝ} {g : ι → ℝ × ℝ}
    (hg1 : ∀ i, (g i).1 = deriv (fun x => lik.varExp x (K i i) (y i)) (μ i))
    (hg2 : ∀ i, (g i).2 = deriv (fun x => lik.varExp (μ i) x (y i)) (K i i))
    (h : K⁻¹ = K0⁻¹ + Matrix.diagonal fun i => -2 * (g i).2) (hm : K0⁻¹ *ᵥ (μ - μ0) = fun i => (g i).1) (μ' : ι → ℝ) {K' : Matrix ι ι ℝ}
    (hK' : K'.PosDef) :
    (∑ i, lik.varExp (μ' i) (K' i i) (y i)) - gaussKL μ' K' μ1 K1 ≤
      (∑ i, lik.varExp (μ i) (K i i) (y i)) - gaussKL μ K μ1 K1 +
        1 / 2 * ((K0⁻¹ *ᵥ (μ - μ0) - K1⁻¹ *ᵥ (μ - μ1)) ⬝ᵥ (K1 *ᵥ (K0⁻¹ *ᵥ (μ - μ0) - K1⁻¹ *ᵥ (μ - μ1))) +
          ((K0⁻¹ - K1⁻¹) * K * (K0⁻¹ - K1⁻¹) * K1).trace) := by
  obtain ⟨R, hR, hRR⟩ := exists_sqrt hK
  have hRu := isUnit_det' hR.isUnit
  have hRt : Rᵀ = R := posDef_tr hR
  have hM : (R⁻¹ * K' * R⁻¹).PosDef := by
    have := hK'.conjTranspose_mul_mul_same (B := R⁻¹) (by
      rw [Matrix.mulVec_injective_iff_isUnit]
      exact (Matrix.isUnit_nonsing_inv_iff).2 hR.isUnit)
    rwa [conjTranspose_eq_transpose_of_trivial, transpose_nonsing_inv, hRt] at this
  obtain ⟨A, hA, hAA⟩ := exists_sqrt hM
  have hAt : Aᵀ = A := posDef_tr hA
  have eK' : K' = R * (A * A) * R := by
    rw [hAA, ← Matrix.mul_assoc, ← Matrix.mul_assoc, mul_nonsing_inv _ hRu, Matrix.one_mul, Matrix.mul_assoc, nonsing_inv_mul _ hRu, Matrix.mul_one]
  have eKi : K⁻¹ = R⁻¹ * R⁻¹ := by rw [← hRR, Matrix.mul_inv_rev]
  set E := K0⁻¹ - K1⁻¹ with hE
  have hEt : Eᵀ = E := by rw [hE, transpose_sub, posDef_tr hK0.inv, posDef_tr hK1.inv]
  set B := A - 1 with hB
  have hBt : Bᵀ = B := by rw [hB, transpose_sub, hAt, transpose_one]
  have hAB : A * A = B * B + (2 : ℝ) • B + 1 := by
    rw [hB, Matrix.sub_mul, Matrix.mul_sub, Matrix.one_mul, Matrix.mul_one, smul_sub, two_smul, two_smul]
    abel
  have c1 := trace_complete hRt hBt hEt hK1
  rw [hRR] at c1
  have c2 := quad_complete hK1 (μ' - μ) (K0⁻¹ *ᵥ (μ - μ0) - K1⁻¹ *ᵥ (μ - μ1))
  obtain ⟨c3, -⟩ := trace_sub_logdet_nonneg hA
  -- tangents
  have hw : ∀ M : Matrix ι ι ℝ, Mᵀ = M → ∀ i, (R * (M * M) * R) i i = ∑ j, (M * R) j i ^ 2 := fun M hMt i => by
    have : R * (M * M) * R = (M * R)ᵀ * (M * R) := by rw [transpose_mul, hRt, hMt]; simp only [Matrix.mul_assoc]
    rw [this, Matrix.mul_apply]
    exact Finset.sum_congr rfl fun j _ => by rw [transpose_apply, sq]
  have hK1' : ∀ i, K i i = ∑ j, R j i ^ 2 := fun i => by
    have := hw 1 transpose_one i
    rwa [Matrix.mul_one, Matrix.mul_one, Matrix.one_mul, hRR] at this
  have hc : ∀ i, ((R * A * R) i i) ^ 2 ≤ K i i * K' i i := fun i => by
    rw [hK1', eK', hw A hAt]
    have : (R * A * R) i i = ∑ j, R j i * (A * R) j i := by
      rw [Matrix.mul_assoc, Matrix.mul_apply]
      exact Finset.sum_congr rfl fun j _ => by rw [← transpose_apply R, hRt]
    rw [this]
    exact Finset.sum_mul_sq_le_sq_mul_sq _ _ _
  have htan : ∑ i, lik.varExp (μ' i) (K' i i) (y i) ≤ (∑ i, lik.varExp (μ i) (K i i) (y i)) +
      (∑ i, (g i).1 * (μ' i - μ i)) + ∑ i, (g i).2 * (2 * (R * B * R) i i) := by
    rw [← Finset.sum_add_distrib, ← Finset.sum_add_distrib]
    refine Finset.sum_le_sum fun i _ => ?_
    have ht := tangent_ineq he hl hd (m := μ i) (m' := μ' i) (y := y i) (hK.diag_pos (i := i)) (hK'.diag_pos (i := i)).le (hc i)
    have hRB : (R * B * R) i i = (R * A * R) i i - K i i := by
      rw [hB, Matrix.mul_sub, Matrix.sub_mul, Matrix.mul_one, hRR, Matrix.sub_apply]
    rw [hg1, hRB, hg2]
    nlinarith [ht]
  have hmean : ∑ i, (g i).1 * (μ' i - μ i) = (μ' - μ) ⬝ᵥ (K0⁻¹ *ᵥ (μ - μ0)) := by
    rw [hm]
    exact Finset.sum_congr rfl fun i _ => by rw [Pi.sub_apply, mul_comm]
  have hcov : ∑ i, (g i).2 * (2 * (R * B * R) i i) = (K0⁻¹ * (R * B * R)).trace - B.trace := by
    have e : (K⁻¹ * (R * B * R)).trace = B.trace := by
      rw [eKi, trace_mul_comm, Matrix.mul_assoc, ← Matrix.mul_assoc R R⁻¹, mul_nonsing_inv _ hRu, Matrix.one_mul, trace_mul_comm,
        ← Matrix.mul_assoc, nonsing_inv_mul _ hRu, Matrix.one_mul]
    have e' : K0⁻¹ = K⁻¹ + Matrix.diagonal fun i => 2 * (g i).2 := by
      rw [h, add_assoc, diagonal_add]
      simp
    rw [e', Matrix.add_mul, trace_add, e, add_sub_cancel_left, Matrix.trace]
    exact Finset.sum_congr rfl fun i _ => by rw [diag_apply, diagonal_mul]; ring
  have e6 : Real.log K'.det = Real.log K.det + 2 * Real.log A.det := by
    have a0 := hA.det_pos
    have r0 := hR.det_pos
    rw [eK', ← hRR]
    simp only [det_mul]
    rw [Real.log_mul (by positivity) (by positivity), Real.log_mul (by positivity) (by positivity), Real.log_mul (by positivity) (by positivity),
      Real.log_mul (by positivity) (by positivity)]
    ring
  have e7 : (K1⁻¹ * K').trace = (K1⁻¹ * (R * (B * B) * R)).trace + 2 * (K1⁻¹ * (R * B * R)).trace + (K1⁻¹ * K).trace := by
    rw [eK', hAB, Matrix.mul_add, Matrix.mul_add, Matrix.add_mul, Matrix.add_mul, Matrix.mul_one, hRR, Matrix.mul_add, Matrix.mul_add, trace_add,
      trace_add, Matrix.mul_smul, Matrix.smul_mul, Matrix.mul_smul, trace_smul, smul_eq_mul]
  have e8 : (μ1 - μ') ⬝ᵥ (K1⁻¹ *ᵥ (μ1 - μ')) = (μ' - μ) ⬝ᵥ (K1⁻¹ *ᵥ (μ' - μ)) + 2 * ((μ' - μ) ⬝ᵥ (K1⁻¹ *ᵥ (μ - μ1))) +
      (μ1 - μ) ⬝ᵥ (K1⁻¹ *ᵥ (μ1 - μ)) := by
    have e : μ1 - μ' = (μ1 - μ) - (μ' - μ) := by abel
    have e' : μ - μ1 = -(μ1 - μ) := by abel
    rw [e, quad_sub (posDef_tr hK1.inv), e', mulVec_neg, dotProduct_neg]
    ring
  have e9 : B.trace = A.trace - Fintype.card ι := by rw [hB, trace_sub, trace_one]
  have e10 : (E * (R * B * R)).trace = (K0⁻¹ * (R * B * R)).trace - (K1⁻¹ * (R * B * R)).trace := by rw [hE, Matrix.sub_mul, trace_sub]
  have e11 : (μ' - μ) ⬝ᵥ (K0⁻¹ *ᵥ (μ - μ0) - K1⁻¹ *ᵥ (μ - μ1)) = (μ' - μ) ⬝ᵥ (K0⁻¹ *ᵥ (μ - μ0)) - (μ' - μ) ⬝ᵥ (K1⁻¹ *ᵥ (μ - μ1)) := by
    rw [dotProduct_sub]
  rw [hmean, hcov] at htan
  unfold gaussKL
  rw [e7, e6, e8]
  rw [e10] at c1
  rw [e11] at c2
  linarith

/-- The derivative of the divergence of Gaussians in the parameters of the second. -/
theorem hasDerivAt_gaussKL_prior {C : ℝ → Matrix ι ι ℝ} {C' : Matrix ι ι ℝ} {b : ℝ → ι → ℝ} {b' : ι → ℝ} {θ : ℝ}
    (h : ∀ i j, HasDerivAt (fun x => C x i j) (C' i j) θ) (hb : ∀ i, HasDerivAt (fun x => b x i) (b' i) θ)
    (hC : (C θ).PosDef) (m : ι → ℝ) (S : Matrix ι ι ℝ) :
    HasDerivAt (fun x => -gaussKL m S (b x) (C x))
      (1 / 2 * (((C θ)⁻¹ *ᵥ (m - b θ)) ⬝ᵥ (C' *ᵥ ((C θ)⁻¹ *ᵥ (m - b θ)))) - 1 / 2 * (((C θ)⁻¹ - (C θ)⁻¹ * S * (C θ)⁻¹) * C').trace +
        ((C θ)⁻¹ *ᵥ (m - b θ)) ⬝ᵥ b') θ := by
  have hd : (C θ).det ≠ 0 := hC.det_pos.ne'
  have hI := hasDeriv_matrix_inv h hd
  set I := (C θ)⁻¹ with hId
  have h1 : HasDerivAt (fun x => ((C x)⁻¹ * S).trace) (-(I * C' * I) * S).trace θ := by
    have : HasDerivAt (fun x => ∑ i, ∑ j, (C x)⁻¹ i j * S j i) (∑ i, ∑ j, (-(I * C' * I)) i j * S j i) θ :=
      HasDerivAt.fun_sum fun i _ => HasDerivAt.fun_sum fun j _ => (hI i j).mul_const (S j i)
    exact this
  have h2 := hasDerivAt_gaussLogDensity h hb hC m
  have h3 := (h2.sub (h1.const_mul (1 / 2 : ℝ))).add_const
    ((1 / 2 : ℝ) * Fintype.card ι + 1 / 2 * Real.log S.det + (Fintype.card ι / 2 : ℝ) * Real.log (2 * Real.pi))
  refine (h3.congr_of_eventuallyEq (Filter.Eventually.of_forall fun x => ?_)).congr_deriv ?_
  · have e : b x - m = -(m - b x) := by abel
    simp only [gaussKL, gaussLogDensity, Pi.sub_apply, e, mulVec_neg, neg_dotProduct_neg]
    ring
  · have a3 : (I * C' * I * S).trace = (I * S * I * C').trace := by
      rw [Matrix.mul_assoc, trace_mul_comm]
      simp only [Matrix.mul_assoc]
    rw [Matrix.neg_mul, trace_neg, a3, Matrix.sub_mul, trace_sub]
    ring

/-- A remainder that is quadratic in quantities that vanish has derivative zero. -/
theorem hasDerivAt_remainder {C E : ℝ → Matrix ι ι ℝ} {C' E' : Matrix ι ι ℝ} {z : ℝ → ι → ℝ} {z' : ι → ℝ} {θ : ℝ}
    (h : ∀ i j, HasDerivAt (fun x => C x i j) (C' i j) θ) (hE : ∀ i j, HasDerivAt (fun x => E x i j) (E' i j) θ)
    (hz : ∀ i, HasDerivAt (fun x => z x i) (z' i) θ) (hE0 : E θ = 0) (hz0 : z θ = 0) (S : Matrix ι ι ℝ) :
    HasDerivAt (fun x => 1 / 2 * (z x ⬝ᵥ (C x *ᵥ z x) + (E x * S * E x * C x).trace)) 0 θ := by
  have hE0' : ∀ i j, E θ i j = 0 := fun i j => by rw [hE0]; rfl
  have hz0' : ∀ i, z θ i = 0 := fun i => by rw [hz0]; rfl
  have h1 : HasDerivAt (fun x => ∑ i, z x i * ∑ j, C x i j * z x j) 0 θ := by
    refine (HasDerivAt.fun_sum fun i _ => (hz i).mul (HasDerivAt.fun_sum fun j _ => (h i j).mul (hz j))).congr_deriv ?_
    simp only [Pi.mul_apply, hz0', mul_zero, zero_mul, Finset.sum_const_zero, add_zero]
  have h2 : HasDerivAt (fun x => ∑ i, ∑ j, (∑ l, (∑ l', E x i l' * S l' l) * E x l j) * C x j i) 0 θ := by
    refine (HasDerivAt.fun_sum fun i _ => HasDerivAt.fun_sum fun j _ => (HasDerivAt.fun_sum fun l _ =>
      (HasDerivAt.fun_sum fun l' _ => (hE i l').mul_const (S l' l)).mul (hE l j)).mul (h j i)).congr_deriv ?_
    simp only [Pi.mul_apply, hE0', mul_zero, zero_mul, Finset.sum_const_zero, add_zero]
  have h3 := (h1.add h2).const_mul (1 / 2 : ℝ)
  rw [add_zero, mul_zero] at h3
  refine h3.congr_of_eventuallyEq (Filter.Eventually.of_forall fun x => ?_)
  simp only [dotProduct, mulVec, Matrix.trace, diag_apply, Matrix.mul_apply, Pi.add_apply]

theorem hasDerivAt_mulVec {C : ℝ → Matrix ι ι ℝ} {C' : Matrix ι ι ℝ} {z : ℝ → ι → ℝ} {z' : ι → ℝ} {θ : ℝ}
    (h : ∀ i j, HasDerivAt (fun x => C x i j) (C' i j) θ) (hz : ∀ i, HasDerivAt (fun x => z x i) (z' i) θ) (i : ι) :
    HasDerivAt (fun x => (C x *ᵥ z x) i) ((C' *ᵥ z θ + C θ *ᵥ z') i) θ := by
  have : HasDerivAt (fun x => ∑ j, C x i j * z x j) (∑ j, (C' i j * z θ j + C θ i j * z' j)) θ :=
    HasDerivAt.fun_sum fun j _ => (h i j).mul (hz j)
  refine this.congr_deriv ?_
  rw [Finset.sum_add_distrib]
  rfl

/-- The best value of the bound over all Gaussians, as a function of the prior, has the derivative that it has with the best Gaussian held fixed. -/
theorem hasDerivAt_best {lik : ScalarLikelihood} (he : ExactLikelihood lik) (hl : LogConcaveLikelihood lik) (hd : DifferentiableVarExp lik)
    {C : ℝ → Matrix ι ι ℝ} {C' : Matrix ι ι ℝ} {b : ℝ → ι → ℝ} {b' : ι → ℝ} {θ : ℝ}
    (h : ∀ i j, HasDerivAt (fun x => C x i j) (C' i j) θ) (hb : ∀ i, HasDerivAt (fun x => b x i) (b' i) θ)
    (hC : ∀ᶠ x in 𝓝 θ, (C x).PosDef) {m y : ι → ℝ} {S : Matrix ι ι ℝ} (hS : S.PosDef) {g : ι → ℝ × ℝ}
    (hg1 : ∀ i, (g i).1 = deriv (fun x => lik.varExp x (S i i) (y i)) (m i))
    (hg2 : ∀ i, (g i).2 = deriv (fun x => lik.varExp (m i) x (y i)) (S i i))
    (hSi : S⁻¹ = (C θ)⁻¹ + Matrix.diagonal fun i => -2 * (g i).2) (hm : (C θ)⁻¹ *ᵥ (m - b θ) = fun i => (g i).1) {f : ℝ → ℝ}
    (hf1 : ∀ᶠ x in 𝓝 θ, (∑ i, lik.varExp (m i) (S i i) (y i)) - gaussKL m S (b x) (C x) ≤ f x)
    (hf2 : ∀ᶠ x in 𝓝 θ, ∃ m' S', S'.PosDef ∧ f x = (∑ i, lik.varExp (m' i) (S' i i) (y i)) - gaussKL m' S' (b x) (C x)) :
    HasDerivAt f (1 / 2 * (((C θ)⁻¹ *ᵥ (m - b θ)) ⬝ᵥ (C' *ᵥ ((C θ)⁻¹ *ᵥ (m - b θ)))) -
      1 / 2 * (((C θ)⁻¹ - (C θ)⁻¹ * S * (C θ)⁻¹) * C').trace + ((C θ)⁻¹ *ᵥ (m - b θ)) ⬝ᵥ b') θ := by
  have hCθ := hC.self_of_nhds
  have hI := hasDeriv_matrix_inv h hCθ.det_pos.ne'
  have hℓ := (hasDerivAt_gaussKL_prior h hb hCθ m S).const_add (∑ i, lik.varExp (m i) (S i i) (y i))
  have hr := hasDerivAt_remainder (E := fun x => (C θ)⁻¹ - (C x)⁻¹) (z := fun x => (C θ)⁻¹ *ᵥ (m - b θ) - (C x)⁻¹ *ᵥ (m - b x)) h
    (fun i j => (hI i j).const_sub ((C θ)⁻¹ i j))
    (fun i => (hasDerivAt_mulVec hI (z := fun x => m - b x) (fun i => (hb i).const_sub (m i)) i).const_sub (((C θ)⁻¹ *ᵥ (m - b θ)) i))
    (sub_self _) (sub_self _) S
  refine hasDerivAt_sandwich hℓ hr (by simp) ?_
  filter_upwards [hC, hf1, hf2] with x hCx h1 h2
  obtain ⟨m', S', hS', e⟩ := h2
  refine ⟨by linarith, ?_⟩
  rw [e]
  have := dense_perturb he hl hd hCθ hS hCx (μ1 := b x) hg1 hg2 hSi hm m' hS'
  linarith

/-- Evidence, divergence and posterior moments when the likelihood is replaced by Gaussian factors with precisions `b` and first natural parameters `g`. -/
theorem dense_site_identity {G S b : Matrix ι ι ℝ} (hG : G.PosDef) (hS : S.PosDef) (hb : b.PosDef) {m g : ι → ℝ} (h : S⁻¹ = G⁻¹ + b) (hm : S⁻¹ *ᵥ m = g) :
    (G + b⁻¹)⁻¹ *ᵥ (b⁻¹ *ᵥ g) = G⁻¹ *ᵥ m ∧ (G + b⁻¹)⁻¹ = G⁻¹ - G⁻¹ * S * G⁻¹ ∧
    gaussLogDensity 0 (G + b⁻¹) (b⁻¹ *ᵥ g) + gaussKL m S 0 G = g ⬝ᵥ m - 1 / 2 * ((b * S).trace + m ⬝ᵥ (b *ᵥ m)) -
      1 / 2 * (g ⬝ᵥ (b⁻¹ *ᵥ g)) - 1 / 2 * Real.log b⁻¹.det - (Fintype.card ι / 2 : ℝ) * Real.log (2 * Real.pi) := by
  have uG := isUnit_det' hG.isUnit
  have uS := isUnit_det' hS.isUnit
  have ub := isUnit_det' hb.isUnit
  have hC : (G + b⁻¹).PosDef := hG.add hb.inv
  have uC := isUnit_det' hC.isUnit
  have hinv : (G + b⁻¹)⁻¹ = G⁻¹ - G⁻¹ * S * G⁻¹ := by
    refine Matrix.inv_eq_right_inv ?_
    have e : b⁻¹ * (G⁻¹ - G⁻¹ * S * G⁻¹) = S * G⁻¹ := by
      have : G⁻¹ - G⁻¹ * S * G⁻¹ = b * (S * G⁻¹) := by
        have hb' : b = S⁻¹ - G⁻¹ := by rw [h]; abel
        rw [hb', Matrix.sub_mul, ← Matrix.mul_assoc, nonsing_inv_mul _ uS, Matrix.one_mul, Matrix.mul_assoc]
      rw [this, ← Matrix.mul_assoc, nonsing_inv_mul _ ub, Matrix.one_mul]
    rw [Matrix.add_mul, e, Matrix.mul_sub, mul_nonsing_inv _ uG, Matrix.mul_assoc, ← Matrix.mul_assoc G, mul_nonsing_inv _ uG, Matrix.one_mul,
      sub_add_cancel]
  have hz : (G + b⁻¹)⁻¹ *ᵥ (b⁻¹ *ᵥ g) = G⁻¹ *ᵥ m := by
    have : b⁻¹ *ᵥ g = (G + b⁻¹) *ᵥ (G⁻¹ *ᵥ m) := by
      have e : g = G⁻¹ *ᵥ m + b *ᵥ m := by rw [← hm, h, add_mulVec]
      rw [add_mulVec, mulVec_mulVec m G, mul_nonsing_inv _ uG, one_mulVec, e, mulVec_add, mulVec_mulVec m b⁻¹ b, nonsing_inv_mul _ ub, one_mulVec, add_comm]
    rw [this, mulVec_mulVec, nonsing_inv_mul _ uC, one_mulVec]
  refine ⟨hz, hinv, ?_⟩
  have hk := gaussKL_site (E := (1 : Matrix ι ι ℝ)) (K0 := G) hS (b := b) (g := g) (μ := m)
    (by rw [transpose_one, Matrix.one_mul, Matrix.mul_one, h]) (by rw [transpose_one, one_mulVec, hm])
  have hdt := det_site (E := (1 : Matrix ι ι ℝ)) hG hS (b := b) (by rw [transpose_one, Matrix.one_mul, Matrix.mul_one, h])
  simp only [transpose_one, Matrix.one_mul, Matrix.mul_one, one_mulVec] at hk hdt
  have hdet : (G + b⁻¹).det = b⁻¹.det * (1 + b * G).det := by
    rw [← det_mul, Matrix.mul_add, Matrix.mul_one, ← Matrix.mul_assoc, nonsing_inv_mul _ ub, Matrix.one_mul, add_comm]
  have p0 := hG.det_pos
  have p1 := hS.det_pos
  have p2 := hb.inv.det_pos
  have p3 : 0 < (1 + b * G).det := by
    rw [hdt] at p0
    exact (pos_iff_pos_of_mul_pos p0).1 p1
  have hq : (b⁻¹ *ᵥ g) ⬝ᵥ (G⁻¹ *ᵥ m) = g ⬝ᵥ (b⁻¹ *ᵥ g) - g ⬝ᵥ m := by
    have e : G⁻¹ *ᵥ m = g - b *ᵥ m := by rw [← hm, h, add_mulVec]; abel
    rw [e, dotProduct_sub, dotProduct_comm, dotProduct_mulVec (b⁻¹ *ᵥ g), ← mulVec_transpose, posDef_tr hb, mulVec_mulVec, mul_nonsing_inv _ ub, one_mulVec]
  unfold gaussLogDensity
  rw [hk, sub_zero, hz, hq, hdet, Real.log_mul p2.ne' p3.ne', hdt, Real.log_mul p1.ne' p3.ne', dotProduct_comm m g]
  ring

end dense

end MF
