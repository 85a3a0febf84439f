import Verif.Spec.Gauss
import Verif.Lemmas.Cholesky
import Mathlib.InformationTheory.KullbackLeibler.Basic
import Mathlib.MeasureTheory.Measure.Lebesgue.Basic

/-! # Gaussian laws: affine images, densities, moments -/

namespace MF
open Matrix Spec MeasureTheory ProbabilityTheory
open scoped ENNReal

variable {ι κ : Type*} [Fintype ι] [DecidableEq ι] [Fintype κ] [DecidableEq κ]

instance : IsProbabilityMeasure (stdNormal ι) := by unfold stdNormal; infer_instance

instance (m : ι → ℝ) (K : Matrix ι ι ℝ) : IsProbabilityMeasure (gaussLaw m K) := by
  unfold gaussLaw
  exact Measure.isProbabilityMeasure_map (by fun_prop)

theorem measurable_mulVec (M : Matrix ι κ ℝ) : Measurable fun e : κ → ℝ => M *ᵥ e :=
  measurable_pi_lambda _ fun i => by
    unfold mulVec dotProduct
    exact Finset.measurable_sum _ fun j _ => by fun_prop

theorem measurable_affine (m : ι → ℝ) (M : Matrix ι κ ℝ) :
    Measurable fun e : κ → ℝ => m + M *ᵥ e := (measurable_mulVec M).const_add m

theorem gaussLaw_map_toLp (m : ι → ℝ) (K : Matrix ι ι ℝ) :
    (gaussLaw m K).map (WithLp.toLp 2) = multivariateGaussian (WithLp.toLp 2 m) K := by
  unfold gaussLaw
  rw [Measure.map_map (by fun_prop) (by fun_prop)]
  exact Measure.map_id

theorem map_toLp_inj {μ ν : Measure (ι → ℝ)}
    (h : μ.map (WithLp.toLp 2) = ν.map (WithLp.toLp 2)) : μ = ν := by
  have := congrArg (fun ρ : Measure (EuclideanSpace ℝ ι) => ρ.map WithLp.ofLp) h
  simp only at this
  rw [Measure.map_map (by fun_prop) (by fun_prop), Measure.map_map (by fun_prop) (by fun_prop)]
    at this
  have e : (WithLp.ofLp ∘ WithLp.toLp 2 : (ι → ℝ) → (ι → ℝ)) = id := rfl
  rwa [e, Measure.map_id, Measure.map_id] at this

theorem posSemidef_mul_transpose (M : Matrix ι κ ℝ) : (M * Mᵀ).PosSemidef := by
  have := Matrix.posSemidef_self_mul_conjTranspose M
  rwa [conjTranspose_eq_transpose_of_trivial] at this

/-- An affine image of iid standard normals is Gaussian. -/
theorem stdNormal_map_affine (m : ι → ℝ) (M : Matrix ι κ ℝ) :
    (stdNormal κ).map (fun e => m + M *ᵥ e) = gaussLaw m (M * Mᵀ) := by
  apply map_toLp_inj
  rw [gaussLaw_map_toLp, Measure.map_map (by fun_prop) (measurable_affine m M)]
  apply Measure.ext_of_charFun (E := EuclideanSpace ℝ ι)
  funext t
  rw [charFun_multivariateGaussian (posSemidef_mul_transpose M)]
  have key : charFun ((stdNormal κ).map ((WithLp.toLp 2) ∘ fun e : κ → ℝ => m + M *ᵥ e)) t
      = Complex.exp ((m ⬝ᵥ t.ofLp : ℝ) * Complex.I) *
        charFun ((stdNormal κ).map (WithLp.toLp 2)) (WithLp.toLp 2 (Mᵀ *ᵥ t.ofLp)) := by
    rw [charFun_apply, charFun_apply, integral_map
      ((by fun_prop : Measurable (WithLp.toLp 2)).comp (measurable_affine m M)).aemeasurable
      (by fun_prop), integral_map (by fun_prop) (by fun_prop), ← integral_const_mul]
    congr 1
    funext e
    rw [← Complex.exp_add, ← add_mul, ← Complex.ofReal_add]
    congr 3
    simp only [Function.comp, PiLp.inner_apply, RCLike.inner_apply, conj_trivial]
    have h1 : ∑ i, t.ofLp i * (m + M *ᵥ e) i = (m + M *ᵥ e) ⬝ᵥ t.ofLp := by
      rw [dotProduct_comm]; rfl
    have h2 : ∑ i, (Mᵀ *ᵥ t.ofLp) i * e i = (M *ᵥ e) ⬝ᵥ t.ofLp := by
      rw [dotProduct_comm, dotProduct_mulVec, ← mulVec_transpose]; rfl
    rw [h1, h2, add_dotProduct]
  rw [key, stdNormal, map_pi_eq_stdGaussian, charFun_stdGaussian, ← Complex.exp_add]
  congr 1
  rw [← Complex.ofReal_pow, EuclideanSpace.real_norm_sq_eq]
  have h3 : ∑ i, (Mᵀ *ᵥ t.ofLp) i ^ 2 = t.ofLp ⬝ᵥ (M * Mᵀ) *ᵥ t.ofLp := by
    rw [← mulVec_mulVec, dotProduct_mulVec, ← mulVec_transpose]
    simp only [dotProduct, sq]
  rw [h3]
  have h4 : inner ℝ t (WithLp.toLp 2 m) = m ⬝ᵥ t.ofLp := by
    simp only [PiLp.inner_apply, RCLike.inner_apply, conj_trivial]; rfl
  rw [h4]
  push_cast
  ring

open scoped MatrixOrder in
theorem exists_mul_transpose {K : Matrix ι ι ℝ} (hK : K.PosSemidef) :
    ∃ C : Matrix ι ι ℝ, C * Cᵀ = K := by
  refine ⟨CFC.sqrt K, ?_⟩
  have h : (CFC.sqrt K)ᵀ = CFC.sqrt K := by
    have := (CFC.sqrt_nonneg K).isSelfAdjoint
    rwa [isSelfAdjoint_iff, star_eq_conjTranspose, conjTranspose_eq_transpose_of_trivial] at this
  rw [h, CFC.sqrt_mul_sqrt_self _ hK.nonneg]

theorem gaussLaw_eq_map {K : Matrix ι ι ℝ} (hK : K.PosSemidef) :
    ∃ C : Matrix ι ι ℝ, C * Cᵀ = K ∧
      ∀ m, gaussLaw m K = (stdNormal ι).map (fun e => m + C *ᵥ e) := by
  obtain ⟨C, hC⟩ := exists_mul_transpose hK
  exact ⟨C, hC, fun m => by rw [stdNormal_map_affine, hC]⟩

/-- An affine image of a Gaussian is Gaussian. -/
theorem gaussLaw_map_affine {K : Matrix ι ι ℝ} (hK : K.PosSemidef) (m : ι → ℝ) (c : κ → ℝ)
    (G : Matrix κ ι ℝ) :
    (gaussLaw m K).map (fun x => c + G *ᵥ x) = gaussLaw (c + G *ᵥ m) (G * K * Gᵀ) := by
  obtain ⟨C, hC, h⟩ := gaussLaw_eq_map hK
  rw [h, Measure.map_map (measurable_affine c G) (measurable_affine m C)]
  have : ((fun x => c + G *ᵥ x) ∘ fun e => m + C *ᵥ e) =
      fun e => (c + G *ᵥ m) + (G * C) *ᵥ e := by
    funext e
    simp only [Function.comp, mulVec_add, mulVec_mulVec, add_assoc]
  rw [this, stdNormal_map_affine, transpose_mul, ← hC]
  simp only [Matrix.mul_assoc]

/-! ### moments -/

theorem aesm_eval (i : ι) (μ : Measure (ι → ℝ)) :
    AEStronglyMeasurable (fun x : ι → ℝ => x i) μ := (measurable_pi_apply i).aestronglyMeasurable

theorem integrable_eval_gaussLaw {K : Matrix ι ι ℝ} (m : ι → ℝ) (i : ι) :
    MemLp (fun x : ι → ℝ => x i) 2 (gaussLaw m K) := by
  unfold gaussLaw
  rw [memLp_map_measure_iff (aesm_eval i _) (by fun_prop)]
  have := (IsGaussian.memLp_two_id (μ := multivariateGaussian (WithLp.toLp 2 m) K))
  exact (EuclideanSpace.proj (𝕜 := ℝ) i).comp_memLp' this

theorem integral_eval_gaussLaw (m : ι → ℝ) (K : Matrix ι ι ℝ) (i : ι) :
    ∫ x, x i ∂(gaussLaw m K) = m i := by
  unfold gaussLaw
  rw [integral_map (by fun_prop) (aesm_eval i _)]
  have h := (EuclideanSpace.proj (𝕜 := ℝ) i).integral_comp_id_comm
    (IsGaussian.integrable_id (μ := multivariateGaussian (WithLp.toLp 2 m) K))
  simp only [id_eq, integral_id_multivariateGaussian] at h
  exact h

theorem covariance_eval_gaussLaw {K : Matrix ι ι ℝ} (hK : K.PosSemidef) (m : ι → ℝ) (i j : ι) :
    cov[fun x => x i, fun x => x j; gaussLaw m K] = K i j := by
  unfold gaussLaw
  rw [covariance_map (aesm_eval i _)
    (aesm_eval j _) (by fun_prop)]
  exact covariance_eval_multivariateGaussian hK i j

/-- One coordinate of a Gaussian vector. -/
theorem gaussLaw_eval {K : Matrix ι ι ℝ} (hK : K.PosSemidef) (m : ι → ℝ) (i : ι) :
    (gaussLaw m K).map (fun x => x i) = gaussianReal (m i) (K i i).toNNReal := by
  have h1 : (gaussLaw m K).map (fun x => x i) =
      (multivariateGaussian (WithLp.toLp 2 m) K).map (EuclideanSpace.proj (𝕜 := ℝ) i) := by
    unfold gaussLaw
    rw [Measure.map_map (by fun_prop) (by fun_prop)]
    rfl
  rw [h1, IsGaussian.map_eq_gaussianReal]
  congr 1
  · have h2 := integral_eval_gaussLaw m K i
    unfold gaussLaw at h2
    rw [integral_map (by fun_prop) (aesm_eval i _)] at h2
    exact h2
  · have h2 := covariance_eval_gaussLaw hK m i i
    unfold gaussLaw at h2
    rw [covariance_map (aesm_eval i _) (aesm_eval i _) (by fun_prop), covariance_self (by fun_prop)] at h2
    exact congrArg Real.toNNReal h2

theorem integral_mul_eval_gaussLaw {K : Matrix ι ι ℝ} (hK : K.PosSemidef) (m : ι → ℝ) (i j : ι) :
    ∫ x, x i * x j ∂(gaussLaw m K) = K i j + m i * m j := by
  have h := covariance_eq_sub (integrable_eval_gaussLaw (K := K) m i)
    (integrable_eval_gaussLaw (K := K) m j)
  rw [covariance_eval_gaussLaw hK, integral_eval_gaussLaw, integral_eval_gaussLaw] at h
  simp only [Pi.mul_apply] at h
  linarith

/-! ### densities -/

theorem exp_gaussLogDensity_zero_one (x : ι → ℝ) :
    Real.exp (gaussLogDensity 0 (1 : Matrix ι ι ℝ) x) = ∏ i, gaussianPDFReal 0 1 (x i) := by
  unfold gaussLogDensity
  rw [inv_one, one_mulVec, det_one, Real.log_one, sub_zero]
  simp only [gaussianPDFReal_def, NNReal.coe_one, mul_one, sub_zero, Finset.prod_mul_distrib]
  rw [← Real.exp_sum, Finset.prod_const, Finset.card_univ, Real.exp_sub]
  have h1 : Real.exp (Fintype.card ι / 2 * Real.log (2 * Real.pi)) =
      (√(2 * Real.pi)) ^ Fintype.card ι := by
    rw [Real.sqrt_eq_rpow, ← Real.rpow_natCast, ← Real.rpow_mul (by positivity),
      Real.rpow_def_of_pos (by positivity)]
    congr 1; ring
  rw [h1, inv_pow, div_eq_inv_mul]
  congr 2
  simp only [mul_zero, dotProduct, Pi.sub_apply, Pi.zero_apply, sub_zero]
  rw [Finset.mul_sum]
  refine Finset.sum_congr rfl fun i _ => by ring

theorem measurable_gaussLogDensity (m : ι → ℝ) (K : Matrix ι ι ℝ) :
    Measurable (gaussLogDensity m K) := by
  unfold gaussLogDensity
  have h1 : Measurable fun x : ι → ℝ => (x - m) := by fun_prop
  have h2 : Measurable fun x : ι → ℝ => K⁻¹ *ᵥ (x - m) := (measurable_mulVec _).comp h1
  have h3 : Measurable fun x : ι → ℝ => (x - m) ⬝ᵥ (K⁻¹ *ᵥ (x - m)) := by
    unfold dotProduct
    exact Finset.measurable_sum _ fun j _ =>
      ((measurable_pi_apply j).comp h1).mul ((measurable_pi_apply j).comp h2)
  fun_prop

theorem stdNormal_eq_withDensity : stdNormal ι = (volume : Measure (ι → ℝ)).withDensity
    fun x => ENNReal.ofReal (Real.exp (gaussLogDensity 0 (1 : Matrix ι ι ℝ) x)) := by
  unfold stdNormal
  refine (Measure.pi_eq fun s hs => ?_)
  rw [withDensity_apply _ (MeasurableSet.univ_pi hs)]
  simp only [exp_gaussLogDensity_zero_one]
  have hr : (volume : Measure (ι → ℝ)).restrict (Set.univ.pi s) =
      Measure.pi fun i => (volume : Measure ℝ).restrict (s i) := by
    rw [volume_pi, Measure.restrict_pi_pi]
  have hint : ∀ i, Integrable (gaussianPDFReal 0 1) ((volume : Measure ℝ).restrict (s i)) :=
    fun i => (integrable_gaussianPDFReal 0 1).restrict
  rw [hr, ← ofReal_integral_eq_lintegral_ofReal (Integrable.fintype_prod hint)
    (ae_of_all _ fun x => Finset.prod_nonneg fun i _ => gaussianPDFReal_nonneg _ _ _),
    integral_fintype_prod_eq_prod (fun _ => gaussianPDFReal 0 1), ENNReal.ofReal_prod_of_nonneg]
  · refine Finset.prod_congr rfl fun i _ => ?_
    rw [gaussianReal_apply_eq_integral _ one_ne_zero]
  · exact fun i _ => integral_nonneg fun x => gaussianPDFReal_nonneg _ _ _

theorem gaussLaw_eq_withDensity {K : Matrix ι ι ℝ} (hK : K.PosDef) (m : ι → ℝ) :
    gaussLaw m K = (volume : Measure (ι → ℝ)).withDensity
      fun x => ENNReal.ofReal (Real.exp (gaussLogDensity m K x)) := by
  obtain ⟨C, hC, h⟩ := gaussLaw_eq_map hK.posSemidef
  have hdet : C.det * C.det = K.det := by
    rw [← hC, det_mul, det_transpose]
  have hC0 : C.det ≠ 0 := by
    intro h0; rw [h0, mul_zero] at hdet; exact hK.det_pos.ne hdet
  have hCu : IsUnit C.det := isUnit_iff_ne_zero.2 hC0
  rw [h]
  ext s hs
  rw [Measure.map_apply (measurable_affine m C) hs, withDensity_apply _ hs,
    stdNormal_eq_withDensity, withDensity_apply _ (measurable_affine m C hs)]
  -- change variables x = m + C e
  let f : (ι → ℝ) → ℝ≥0∞ := fun x => s.indicator
    (fun x => ENNReal.ofReal (Real.exp (gaussLogDensity m K x))) x
  have hf : Measurable f :=
    ((Real.measurable_exp.comp (measurable_gaussLogDensity m K)).ennreal_ofReal).indicator hs
  have hvol : (volume : Measure (ι → ℝ)).map (fun e => m + C *ᵥ e) =
      ENNReal.ofReal (abs (C.det)⁻¹) • volume := by
    have h1 := Real.map_matrix_volume_pi_eq_smul_volume_pi hC0
    have h2 : (fun e : ι → ℝ => m + C *ᵥ e) = (fun x => m + x) ∘ (toLin' C) := by
      funext e; simp [toLin'_apply]
    rw [h2, ← Measure.map_map (by fun_prop) (LinearMap.continuous_on_pi _).measurable, h1,
      Measure.map_smul, map_add_left_eq_self]
  have h3 : ∫⁻ x, f x = ENNReal.ofReal (abs C.det) * ∫⁻ e, f (m + C *ᵥ e) := by
    rw [← lintegral_map hf (measurable_affine m C), hvol, lintegral_smul_measure, smul_eq_mul,
      ← mul_assoc, ← ENNReal.ofReal_mul (abs_nonneg _), ← abs_mul, mul_inv_cancel₀ hC0, abs_one,
      ENNReal.ofReal_one, one_mul]
  have h4 : ∫⁻ x in s, ENNReal.ofReal (Real.exp (gaussLogDensity m K x)) = ∫⁻ x, f x :=
    (lintegral_indicator hs _).symm
  rw [h4, h3, ← lintegral_indicator (measurable_affine m C hs), ← lintegral_const_mul
    (f := fun e => f (m + C *ᵥ e)) _ (hf.comp (measurable_affine m C))]
  congr 1
  funext e
  have hfe : f (m + C *ᵥ e) = s.indicator
    (fun x => ENNReal.ofReal (Real.exp (gaussLogDensity m K x))) (m + C *ᵥ e) := rfl
  rw [hfe]
  by_cases he : m + C *ᵥ e ∈ s
  · rw [Set.indicator_of_mem he, Set.indicator_of_mem (by exact he), ← ENNReal.ofReal_mul (abs_nonneg _)]
    congr 1
    have hKi : K⁻¹ = (C⁻¹)ᵀ * C⁻¹ := by
      rw [← hC, Matrix.mul_inv_rev, transpose_nonsing_inv]
    have hq : (m + C *ᵥ e - m) ⬝ᵥ (K⁻¹ *ᵥ (m + C *ᵥ e - m)) = e ⬝ᵥ e := by
      have e1 : C⁻¹ *ᵥ (C *ᵥ e) = e := by
        rw [mulVec_mulVec, nonsing_inv_mul _ hCu, one_mulVec]
      rw [add_sub_cancel_left, hKi, ← mulVec_mulVec, e1, dotProduct_mulVec, vecMul_transpose, e1]
    have hld : Real.log K.det = 2 * Real.log (abs C.det) := by
      rw [← hdet, Real.log_mul hC0 hC0, Real.log_abs]; ring
    unfold gaussLogDensity
    rw [hq, hld, inv_one, one_mulVec, sub_zero, det_one, Real.log_one]
    nth_rewrite 1 [← Real.exp_log (abs_pos.2 hC0)]
    rw [← Real.exp_add]
    congr 1; ring
  · rw [Set.indicator_of_notMem he, Set.indicator_of_notMem (by exact he), mul_zero]

/-! ### quadratic forms and KL -/

theorem memLp_sub_gaussLaw {K : Matrix ι ι ℝ} (m c : ι → ℝ) (i : ι) :
    MemLp (fun x : ι → ℝ => (x - c) i) 2 (gaussLaw m K) :=
  (integrable_eval_gaussLaw m i).sub (memLp_const (c i))

theorem integrable_sub_mul_sub {K : Matrix ι ι ℝ} (m c : ι → ℝ) (i j : ι) :
    Integrable (fun x : ι → ℝ => (x - c) i * (x - c) j) (gaussLaw m K) :=
  (memLp_sub_gaussLaw m c i).integrable_mul (memLp_sub_gaussLaw m c j)

theorem integral_sub_mul_sub {K : Matrix ι ι ℝ} (hK : K.PosSemidef) (m c : ι → ℝ) (i j : ι) :
    ∫ x, (x - c) i * (x - c) j ∂(gaussLaw m K) = K i j + (m - c) i * (m - c) j := by
  have h := covariance_eq_sub (memLp_sub_gaussLaw (K := K) m c i)
    (memLp_sub_gaussLaw (K := K) m c j)
  have hi : ∀ i, ∫ x, (x - c) i ∂(gaussLaw m K) = (m - c) i := by
    intro i
    simp only [Pi.sub_apply]
    rw [integral_sub ((integrable_eval_gaussLaw m i).integrable one_le_two) (integrable_const _),
      integral_eval_gaussLaw]
    simp
  have hc : cov[fun x : ι → ℝ => (x - c) i, fun x => (x - c) j; gaussLaw m K] = K i j := by
    simp only [Pi.sub_apply]
    rw [covariance_sub_const_left ((integrable_eval_gaussLaw m i).integrable one_le_two),
      covariance_sub_const_right ((integrable_eval_gaussLaw m j).integrable one_le_two),
      covariance_eval_gaussLaw hK]
  rw [hc, hi, hi] at h
  simp only [Pi.mul_apply] at h
  linarith

theorem quad_eq_sum (A : Matrix ι ι ℝ) (v : ι → ℝ) :
    v ⬝ᵥ (A *ᵥ v) = ∑ i, ∑ j, A i j * (v i * v j) := by
  simp only [dotProduct, mulVec, Finset.mul_sum]
  exact Finset.sum_congr rfl fun i _ => Finset.sum_congr rfl fun j _ => by ring

theorem integrable_quad {K : Matrix ι ι ℝ} (A : Matrix ι ι ℝ) (m c : ι → ℝ) :
    Integrable (fun x : ι → ℝ => (x - c) ⬝ᵥ (A *ᵥ (x - c))) (gaussLaw m K) := by
  simp only [quad_eq_sum]
  exact integrable_finsetSum _ fun i _ => integrable_finsetSum _ fun j _ =>
    (integrable_sub_mul_sub m c i j).const_mul _

theorem integral_quad {K : Matrix ι ι ℝ} (hK : K.PosSemidef) (A : Matrix ι ι ℝ) (m c : ι → ℝ) :
    ∫ x, (x - c) ⬝ᵥ (A *ᵥ (x - c)) ∂(gaussLaw m K) =
      (A * K).trace + (m - c) ⬝ᵥ (A *ᵥ (m - c)) := by
  have hI2 : ∀ i j, Integrable (fun x : ι → ℝ => A i j * ((x - c) i * (x - c) j))
      (gaussLaw m K) := fun i j => (integrable_sub_mul_sub m c i j).const_mul _
  have hI1 : ∀ i, Integrable (fun x : ι → ℝ => ∑ j, A i j * ((x - c) i * (x - c) j))
      (gaussLaw m K) := fun i => integrable_finsetSum _ fun j _ => hI2 i j
  simp only [quad_eq_sum]
  refine (integral_finsetSum _ fun i _ => hI1 i).trans ?_
  have : (A * K).trace = ∑ i, ∑ j, A i j * K i j := by
    simp only [trace, diag_apply, Matrix.mul_apply]
    refine Finset.sum_congr rfl fun i _ => Finset.sum_congr rfl fun j _ => ?_
    have := congrFun (congrFun hK.isHermitian i) j
    rw [conjTranspose_apply, star_trivial] at this
    rw [this]
  rw [this, ← Finset.sum_add_distrib]
  refine Finset.sum_congr rfl fun i _ => ?_
  refine (integral_finsetSum _ fun j _ => hI2 i j).trans ?_
  rw [← Finset.sum_add_distrib]
  refine Finset.sum_congr rfl fun j _ => ?_
  rw [integral_const_mul, integral_sub_mul_sub hK]
  ring

theorem integrable_gaussLogDensity {K : Matrix ι ι ℝ} (m m' : ι → ℝ) (K' : Matrix ι ι ℝ) :
    Integrable (gaussLogDensity m' K') (gaussLaw m K) := by
  unfold gaussLogDensity
  exact (((integrable_quad _ m m').const_mul _).sub (integrable_const _)).sub (integrable_const _)

/-- Expected Gaussian log density (cross entropy). -/
theorem integral_gaussLogDensity {K : Matrix ι ι ℝ} (hK : K.PosSemidef) (m m' : ι → ℝ)
    (K' : Matrix ι ι ℝ) :
    ∫ x, gaussLogDensity m' K' x ∂(gaussLaw m K) =
      gaussLogDensity m' K' m - (1 / 2) * (K'⁻¹ * K).trace := by
  unfold gaussLogDensity
  rw [integral_sub, integral_sub, integral_const_mul, integral_quad hK]
  · simp only [integral_const, probReal_univ, one_smul]; ring
  · exact (integrable_quad _ m m').const_mul _
  · exact integrable_const _
  · exact ((integrable_quad _ m m').const_mul _).sub (integrable_const _)
  · exact integrable_const _

theorem measurable_dens (m : ι → ℝ) (K : Matrix ι ι ℝ) :
    Measurable fun x => ENNReal.ofReal (Real.exp (gaussLogDensity m K x)) :=
  (Real.measurable_exp.comp (measurable_gaussLogDensity m K)).ennreal_ofReal

theorem gaussLaw_ac_volume {K : Matrix ι ι ℝ} (hK : K.PosDef) (m : ι → ℝ) :
    gaussLaw m K ≪ volume := by
  rw [gaussLaw_eq_withDensity hK]; exact withDensity_absolutelyContinuous _ _

theorem volume_ac_gaussLaw {K : Matrix ι ι ℝ} (hK : K.PosDef) (m : ι → ℝ) :
    (volume : Measure (ι → ℝ)) ≪ gaussLaw m K := by
  rw [gaussLaw_eq_withDensity hK]
  exact withDensity_absolutelyContinuous' (measurable_dens m K).aemeasurable
    (ae_of_all _ fun x => by simp [Real.exp_pos])

theorem llr_gaussLaw {K₁ K₂ : Matrix ι ι ℝ} (h₁ : K₁.PosDef) (h₂ : K₂.PosDef) (m₁ m₂ : ι → ℝ) :
    llr (gaussLaw m₁ K₁) (gaussLaw m₂ K₂) =ᵐ[volume]
      fun x => gaussLogDensity m₁ K₁ x - gaussLogDensity m₂ K₂ x := by
  have e1 : (gaussLaw m₁ K₁).rnDeriv (gaussLaw m₂ K₂) =ᵐ[volume] fun x =>
      (ENNReal.ofReal (Real.exp (gaussLogDensity m₂ K₂ x)))⁻¹ *
        (gaussLaw m₁ K₁).rnDeriv volume x := by
    conv_lhs => rw [gaussLaw_eq_withDensity h₂ m₂]
    exact Measure.rnDeriv_withDensity_right _ _ (measurable_dens _ _).aemeasurable
      (ae_of_all _ fun x => by simp [Real.exp_pos]) (ae_of_all _ fun x => ENNReal.ofReal_ne_top)
  have e2 : (gaussLaw m₁ K₁).rnDeriv volume =ᵐ[volume] fun x =>
      ENNReal.ofReal (Real.exp (gaussLogDensity m₁ K₁ x)) := by
    rw [gaussLaw_eq_withDensity h₁ m₁]
    exact Measure.rnDeriv_withDensity _ (measurable_dens _ _)
  filter_upwards [e1, e2] with x hx1 hx2
  rw [llr_def]
  simp only
  rw [hx1, hx2, ENNReal.toReal_mul, ENNReal.toReal_inv, ENNReal.toReal_ofReal (Real.exp_pos _).le,
    ENNReal.toReal_ofReal (Real.exp_pos _).le, ← Real.exp_neg, ← Real.exp_add, Real.log_exp]
  ring

/-- `gaussKL` is the Kullback–Leibler divergence of the Gaussian measures. -/
theorem klDiv_gaussLaw {K₁ K₂ : Matrix ι ι ℝ} (h₁ : K₁.PosDef) (h₂ : K₂.PosDef)
    (m₁ m₂ : ι → ℝ) :
    InformationTheory.klDiv (gaussLaw m₁ K₁) (gaussLaw m₂ K₂) =
      ENNReal.ofReal (gaussKL m₁ K₁ m₂ K₂) := by
  have hac : gaussLaw m₁ K₁ ≪ gaussLaw m₂ K₂ :=
    (gaussLaw_ac_volume h₁ m₁).trans (volume_ac_gaussLaw h₂ m₂)
  have hllr := (gaussLaw_ac_volume h₁ m₁).ae_le (llr_gaussLaw h₁ h₂ m₁ m₂)
  have hint : Integrable (fun x => gaussLogDensity m₁ K₁ x - gaussLogDensity m₂ K₂ x)
      (gaussLaw m₁ K₁) :=
    (integrable_gaussLogDensity _ _ _).sub (integrable_gaussLogDensity _ _ _)
  rw [InformationTheory.klDiv_of_ac_of_integrable hac ((integrable_congr hllr).2 hint),
    integral_congr_ae hllr, integral_sub (integrable_gaussLogDensity _ _ _)
      (integrable_gaussLogDensity _ _ _), integral_gaussLogDensity h₁.posSemidef,
    integral_gaussLogDensity h₁.posSemidef]
  congr 1
  simp only [probReal_univ]
  have ht : (K₁⁻¹ * K₁).trace = Fintype.card ι := by
    rw [nonsing_inv_mul _ (isUnit_iff_ne_zero.2 h₁.det_pos.ne'), trace_one]
  unfold gaussLogDensity gaussKL
  rw [ht, sub_self, zero_dotProduct]
  have : (m₁ - m₂) ⬝ᵥ (K₂⁻¹ *ᵥ (m₁ - m₂)) = (m₂ - m₁) ⬝ᵥ (K₂⁻¹ *ᵥ (m₂ - m₁)) := by
    rw [← neg_sub m₂ m₁, mulVec_neg, neg_dotProduct, dotProduct_neg, neg_neg]
  rw [this]
  ring

end MF
