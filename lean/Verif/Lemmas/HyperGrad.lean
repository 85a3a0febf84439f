import Verif.Lemmas.Jitter
import Mathlib.Analysis.Calculus.Deriv.Slope
import Mathlib.Analysis.Calculus.Deriv.Mul
import Mathlib.Analysis.Calculus.ContDiff.Operations
import Mathlib.Analysis.SpecialFunctions.Log.Deriv
import Mathlib.Analysis.SpecialFunctions.ExpDeriv

/-! # Derivatives of the Gaussian log density in its covariance -/

namespace MF
open Matrix Spec Filter Topology

section
variable {ι κ : Type*} [Fintype ι] [DecidableEq ι] [Fintype κ] [DecidableEq κ]

/-- Entrywise differentiability of a matrix-valued curve, as a limit of difference quotients. -/
theorem hasDeriv_matrix_iff {C : ℝ → Matrix ι κ ℝ} {C' : Matrix ι κ ℝ} {θ : ℝ} :
    (∀ i j, HasDerivAt (fun x => C x i j) (C' i j) θ) ↔
      Tendsto (fun x => (x - θ)⁻¹ • (C x - C θ)) (𝓝[≠] θ) (𝓝 C') := by
  simp only [hasDerivAt_iff_tendsto_slope]
  refine ⟨fun h => tendsto_pi_nhds.2 fun i => tendsto_pi_nhds.2 fun j => ?_, fun h i j => ?_⟩
  · exact h i j
  · exact tendsto_pi_nhds.1 (tendsto_pi_nhds.1 h i) j

/-- Jacobi's formula. -/
theorem hasDerivAt_det {C : ℝ → Matrix ι ι ℝ} {C' : Matrix ι ι ℝ} {θ : ℝ} (h : ∀ i j, HasDerivAt (fun x => C x i j) (C' i j) θ) :
    HasDerivAt (fun x => (C x).det) (((C θ).adjugate * C').trace) θ := by
  have e : ((C θ).adjugate * C').trace = ∑ σ : Equiv.Perm ι, (Equiv.Perm.sign σ : ℤ) •
      ∑ i, (∏ j ∈ Finset.univ.erase i, C θ (σ j) j) • C' (σ i) i := by
    have e1 : ∀ i, ((C θ).adjugate * C') i i = ((C θ).updateCol i (fun k => C' k i)).det := fun i => by
      rw [← cramer_apply, cramer_eq_adjugate_mulVec]; rfl
    simp only [trace, diag_apply, e1, det_apply]
    rw [Finset.sum_comm]
    refine Finset.sum_congr rfl fun σ _ => ?_
    rw [Finset.smul_sum]
    refine Finset.sum_congr rfl fun i _ => ?_
    rw [← Finset.mul_prod_erase _ _ (Finset.mem_univ i), updateCol_self, smul_eq_mul, mul_comm (C' _ _)]
    show _ = (Equiv.Perm.sign σ : ℤ) • _
    rw [Units.smul_def]
    congr 2
    refine Finset.prod_congr rfl fun j hj => ?_
    rw [updateCol_ne (Finset.ne_of_mem_erase hj)]
  rw [e]
  simp only [det_apply]
  refine HasDerivAt.fun_sum fun σ _ => ?_
  have := (HasDerivAt.fun_finsetProd (u := Finset.univ) (f := fun i x => C x (σ i) i) (f' := fun i => C' (σ i) i) fun i _ => h (σ i) i)
  have := this.const_mul ((Equiv.Perm.sign σ : ℤ) : ℝ)
  simp only [Units.smul_def, zsmul_eq_mul]
  exact this

theorem hasDerivAt_logdet {C : ℝ → Matrix ι ι ℝ} {C' : Matrix ι ι ℝ} {θ : ℝ} (h : ∀ i j, HasDerivAt (fun x => C x i j) (C' i j) θ)
    (hd : (C θ).det ≠ 0) : HasDerivAt (fun x => Real.log (C x).det) (((C θ)⁻¹ * C').trace) θ := by
  have := (hasDerivAt_det h).log hd
  convert this using 1
  rw [Matrix.inv_def, Ring.inverse_eq_inv', Matrix.smul_mul, trace_smul, smul_eq_mul, inv_mul_eq_div]

theorem hasDeriv_matrix_inv {C : ℝ → Matrix ι ι ℝ} {C' : Matrix ι ι ℝ} {θ : ℝ} (h : ∀ i j, HasDerivAt (fun x => C x i j) (C' i j) θ)
    (hd : (C θ).det ≠ 0) (i j) : HasDerivAt (fun x => (C x)⁻¹ i j) ((-((C θ)⁻¹ * C' * (C θ)⁻¹)) i j) θ := by
  revert i j
  rw [hasDeriv_matrix_iff (C := fun x => (C x)⁻¹)]
  have hC : Tendsto C (𝓝 θ) (𝓝 (C θ)) :=
    tendsto_pi_nhds.2 fun i => tendsto_pi_nhds.2 fun j => (h i j).continuousAt
  have hi : Tendsto (fun x => (C x)⁻¹) (𝓝[≠] θ) (𝓝 (C θ)⁻¹) := (tendsto_matrix_inv hC hd).mono_left nhdsWithin_le_nhds
  have hs := hasDeriv_matrix_iff.1 h
  have hne : ∀ᶠ x in 𝓝[≠] θ, (C x).det ≠ 0 := by
    have := ((continuous_id.matrix_det.tendsto (C θ)).comp hC).eventually_ne hd
    exact this.filter_mono nhdsWithin_le_nhds
  have hl := (Tendsto.matrix_mul' (Tendsto.matrix_mul' hi hs) (tendsto_const_nhds (x := (C θ)⁻¹))).neg
  refine hl.congr' (hne.mono fun x hx => ?_)
  have u : IsUnit (C x).det := isUnit_iff_ne_zero.2 hx
  have u0 : IsUnit (C θ).det := isUnit_iff_ne_zero.2 hd
  rw [Matrix.mul_smul, Matrix.smul_mul, ← smul_neg, Matrix.mul_sub, Matrix.sub_mul, nonsing_inv_mul _ u, Matrix.one_mul,
    Matrix.mul_assoc, mul_nonsing_inv _ u0, Matrix.mul_one, neg_sub]

/-- The derivative of the Gaussian log density in its mean and covariance. -/
theorem hasDerivAt_gaussLogDensity {C : ℝ → Matrix ι ι ℝ} {C' : Matrix ι ι ℝ} {m : ℝ → ι → ℝ} {m' : ι → ℝ} {θ : ℝ}
    (h : ∀ i j, HasDerivAt (fun x => C x i j) (C' i j) θ) (hm : ∀ i, HasDerivAt (fun x => m x i) (m' i) θ) (hC : (C θ).PosDef)
    (y : ι → ℝ) :
    HasDerivAt (fun x => gaussLogDensity (m x) (C x) y)
      (1 / 2 * (((C θ)⁻¹ *ᵥ (y - m θ)) ⬝ᵥ (C' *ᵥ ((C θ)⁻¹ *ᵥ (y - m θ)))) - 1 / 2 * ((C θ)⁻¹ * C').trace +
        ((C θ)⁻¹ *ᵥ (y - m θ)) ⬝ᵥ m') θ := by
  have hd : (C θ).det ≠ 0 := hC.det_pos.ne'
  have hs : (C θ)⁻¹ᵀ = (C θ)⁻¹ := by
    have := hC.inv.isHermitian
    simpa [IsHermitian, conjTranspose_eq_transpose_of_trivial] using this
  have hI := hasDeriv_matrix_inv h hd
  have hr : ∀ i, HasDerivAt (fun x => (y - m x) i) ((-m') i) θ := fun i => (hm i).const_sub (y i)
  have hq : HasDerivAt (fun x => (y - m x) ⬝ᵥ ((C x)⁻¹ *ᵥ (y - m x)))
      (-m' ⬝ᵥ ((C θ)⁻¹ *ᵥ (y - m θ)) + (y - m θ) ⬝ᵥ (-((C θ)⁻¹ * C' * (C θ)⁻¹) *ᵥ (y - m θ) + (C θ)⁻¹ *ᵥ (-m'))) θ := by
    have : HasDerivAt (fun x => ∑ i, (y - m x) i * ∑ j, (C x)⁻¹ i j * (y - m x) j)
        (∑ i, ((-m') i * ∑ j, (C θ)⁻¹ i j * (y - m θ) j + (y - m θ) i * ∑ j, ((-((C θ)⁻¹ * C' * (C θ)⁻¹)) i j * (y - m θ) j +
          (C θ)⁻¹ i j * (-m') j))) θ :=
      HasDerivAt.fun_sum fun i _ => (hr i).mul (HasDerivAt.fun_sum fun j _ => (hI i j).mul (hr j))
    refine this.congr_deriv ?_
    simp only [dotProduct, mulVec, Pi.add_apply, Finset.sum_add_distrib, mul_add]
  have := ((hq.const_mul (-(1 / 2) : ℝ)).sub ((hasDerivAt_logdet h hd).const_mul (1 / 2 : ℝ))).sub_const
    ((Fintype.card ι / 2 : ℝ) * Real.log (2 * Real.pi))
  refine this.congr_deriv ?_
  set r := y - m θ with hrd
  set I := (C θ)⁻¹ with hId
  have a1 : r ⬝ᵥ (I *ᵥ m') = (I *ᵥ r) ⬝ᵥ m' := by rw [dotProduct_mulVec, ← mulVec_transpose, hs]
  have a2 : r ⬝ᵥ ((I * C' * I) *ᵥ r) = (I *ᵥ r) ⬝ᵥ (C' *ᵥ (I *ᵥ r)) := by
    rw [← mulVec_mulVec, ← mulVec_mulVec, dotProduct_mulVec, ← mulVec_transpose, hs]
  rw [dotProduct_add, neg_mulVec, dotProduct_neg, mulVec_neg, dotProduct_neg, neg_dotProduct, a1, a2, dotProduct_comm m']
  ring

/-! ### higher smoothness -/

variable {E : Type*} [NormedAddCommGroup E] [NormedSpace ℝ E] {N : WithTop ℕ∞}

theorem contDiffAt_det {C : E → Matrix ι ι ℝ} {θ : E} (h : ∀ i j, ContDiffAt ℝ N (fun x => C x i j) θ) :
    ContDiffAt ℝ N (fun x => (C x).det) θ := by
  simp only [det_apply]
  refine ContDiffAt.sum fun σ _ => ?_
  simp only [Units.smul_def, zsmul_eq_mul]
  exact contDiffAt_const.mul (contDiffAt_prod fun i _ => h _ _)

theorem contDiffAt_inv {C : E → Matrix ι ι ℝ} {θ : E} (h : ∀ i j, ContDiffAt ℝ N (fun x => C x i j) θ) (hd : (C θ).det ≠ 0) (i j) :
    ContDiffAt ℝ N (fun x => (C x)⁻¹ i j) θ := by
  have ha : ContDiffAt ℝ N (fun x => (C x).adjugate i j) θ := by
    simp only [adjugate_apply]
    refine contDiffAt_det fun a b => ?_
    by_cases hab : a = j
    · subst hab; simp only [updateRow_self]; exact contDiffAt_const
    · simp only [updateRow_ne hab]; exact h a b
  simp only [Matrix.inv_def, Ring.inverse_eq_inv', Matrix.smul_apply, smul_eq_mul]
  exact ((contDiffAt_det h).inv hd).mul ha

theorem contDiffAt_gaussLogDensity {C : E → Matrix ι ι ℝ} {m : E → ι → ℝ} {θ : E} (h : ∀ i j, ContDiffAt ℝ N (fun x => C x i j) θ)
    (hm : ∀ i, ContDiffAt ℝ N (fun x => m x i) θ) (hd : (C θ).det ≠ 0) (y : ι → ℝ) :
    ContDiffAt ℝ N (fun x => gaussLogDensity (m x) (C x) y) θ := by
  unfold gaussLogDensity
  simp only [dotProduct, mulVec]
  have hr : ∀ i, ContDiffAt ℝ N (fun x => (y - m x) i) θ := fun i => contDiffAt_const.sub (hm i)
  exact ((contDiffAt_const.mul (ContDiffAt.sum fun i _ => (hr i).mul (ContDiffAt.sum fun j _ => (contDiffAt_inv h hd i j).mul (hr j)))).sub
    (contDiffAt_const.mul ((contDiffAt_det h).log hd))).sub contDiffAt_const

end

end MF
