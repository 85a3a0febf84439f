import Verif.Lemmas.LogConcave
import Verif.Lemmas.GaussKL
import Verif.Lemmas.CVINatGrad
import Verif.Lemmas.Descent
import Verif.Spec.SiteNaturals
import Verif.Spec.LogConcave

/-!
# A stationary point of the variational bound is its global maximum when the likelihood is log-concave

Transport inequality between Gaussians, and the tangent inequality of Gaussian averages of concave functions along couplings.
-/

namespace MF
open Matrix Spec MeasureTheory ProbabilityTheory InformationTheory Filter Topology

section dense
variable {ι : Type*} [Fintype ι] [DecidableEq ι]

open scoped MatrixOrder in
theorem exists_sqrt {K : Matrix ι ι ℝ} (hK : K.PosDef) : ∃ R : Matrix ι ι ℝ, R.PosDef ∧ R * R = K := by
  have h1 : CFC.sqrt K * CFC.sqrt K = K := CFC.sqrt_mul_sqrt_self _ hK.posSemidef.nonneg
  refine ⟨CFC.sqrt K, ?_, h1⟩
  refine (CFC.sqrt_nonneg K).posSemidef.posDef_iff_isUnit.2 ?_
  have hu := (Matrix.isUnit_iff_isUnit_det _).1 hK.isUnit
  rw [← h1, Matrix.det_mul] at hu
  exact (Matrix.isUnit_iff_isUnit_det _).2 (isUnit_of_mul_isUnit_left hu)

omit [DecidableEq ι] in
/-- A quadratic form of a sum of rank one matrices. -/
theorem quad_sum_vecMulVec {D : Type*} [Fintype D] (w : D → ι → ℝ) (l : D → ℝ) (e : ι → ℝ) :
    e ⬝ᵥ ((∑ i, l i • vecMulVec (w i) (w i)) *ᵥ e) = ∑ i, l i * (w i ⬝ᵥ e) ^ 2 := by
  rw [sum_mulVec, dotProduct_sum]
  refine Finset.sum_congr rfl fun i _ => ?_
  rw [smul_mulVec, dotProduct_smul, vecMulVec_mulVec, dotProduct_smul, smul_eq_mul, MulOpposite.smul_eq_mul_unop, MulOpposite.unop_op,
    dotProduct_comm e]
  ring

omit [DecidableEq ι] in
theorem trace_sum_vecMulVec {D : Type*} [Fintype D] (w : D → ι → ℝ) (l : D → ℝ) (S : Matrix ι ι ℝ) :
    ((∑ i, l i • vecMulVec (w i) (w i)) * S).trace = ∑ i, l i * (w i ⬝ᵥ (S *ᵥ w i)) := by
  rw [Finset.sum_mul, trace_sum]
  refine Finset.sum_congr rfl fun i _ => ?_
  rw [Matrix.smul_mul, trace_smul, smul_eq_mul, vecMulVec_mul, trace_vecMulVec, dotProduct_comm, ← dotProduct_mulVec, dotProduct_comm]

/-- Transport inequality: if the precision of `N(μ, K)` is that of a prior plus rank one terms, there is a coupling (with covariances `c i` between the
linear functionals `w i` of the two Gaussians) whose cost, weighted with the rank one terms, is at most the divergence. -/
theorem coupling_kl {K0 K K' : Matrix ι ι ℝ} (hK0 : K0.PosDef) (hK : K.PosDef) (hK' : K'.PosDef) {D : Type*} [Fintype D] (w : D → ι → ℝ)
    (l : D → ℝ) (h : K⁻¹ = K0⁻¹ - (2 : ℝ) • ∑ i, l i • vecMulVec (w i) (w i)) (μ μ' : ι → ℝ) :
    ∃ c : D → ℝ, (∀ i, c i ^ 2 ≤ (w i ⬝ᵥ (K *ᵥ w i)) * (w i ⬝ᵥ (K' *ᵥ w i))) ∧
      0 ≤ gaussKL μ' K' μ K + ∑ i, l i * ((w i ⬝ᵥ μ' - w i ⬝ᵥ μ) ^ 2 + w i ⬝ᵥ (K' *ᵥ w i) + w i ⬝ᵥ (K *ᵥ w i) - 2 * c i) ∧
      (gaussKL μ' K' μ K + ∑ i, l i * ((w i ⬝ᵥ μ' - w i ⬝ᵥ μ) ^ 2 + w i ⬝ᵥ (K' *ᵥ w i) + w i ⬝ᵥ (K *ᵥ w i) - 2 * c i) = 0 →
        μ' = μ ∧ K' = K) := by
  obtain ⟨R, hR, hRR⟩ := exists_sqrt hK
  have hRu := isUnit_det' hR.isUnit
  have hRt : Rᵀ = R := posDef_tr hR
  have hM : (R⁻¹ * K' * R⁻¹).PosDef := by
    have := hK'.conjTranspose_mul_mul_same (B := R⁻¹) (by
      rw [Matrix.mulVec_injective_iff_isUnit]
      exact (Matrix.isUnit_nonsing_inv_iff).2 hR.isUnit)
    rwa [conjTranspose_eq_transpose_of_trivial, transpose_nonsing_inv, hRt] at this
  obtain ⟨A, hA, hAA⟩ := exists_sqrt hM
  have hAt : Aᵀ = A := posDef_tr hA
  have eK' : K' = R * (A * A) * R := by
    rw [hAA, ← Matrix.mul_assoc, ← Matrix.mul_assoc, mul_nonsing_inv _ hRu, Matrix.one_mul, Matrix.mul_assoc, nonsing_inv_mul _ hRu, Matrix.mul_one]
  have eKi : K⁻¹ = R⁻¹ * R⁻¹ := by rw [← hRR, Matrix.mul_inv_rev]
  set S := ∑ i, l i • vecMulVec (w i) (w i) with hS
  set e := μ' - μ with he
  have hw : ∀ i, w i ⬝ᵥ (K *ᵥ w i) = (R *ᵥ w i) ⬝ᵥ (R *ᵥ w i) := fun i => by
    rw [← hRR, ← mulVec_mulVec, dotProduct_mulVec, ← mulVec_transpose, hRt]
  have hw' : ∀ i, w i ⬝ᵥ (K' *ᵥ w i) = (A *ᵥ (R *ᵥ w i)) ⬝ᵥ (A *ᵥ (R *ᵥ w i)) := fun i => by
    rw [eK', ← mulVec_mulVec, ← mulVec_mulVec, ← mulVec_mulVec, dotProduct_mulVec, ← mulVec_transpose, hRt, dotProduct_mulVec, ← mulVec_transpose, hAt]
  refine ⟨fun i => (R *ᵥ w i) ⬝ᵥ (A *ᵥ (R *ᵥ w i)), fun i => ?_, ?_⟩
  · rw [hw, hw']
    simp only [dotProduct, ← sq]
    exact Finset.sum_mul_sq_le_sq_mul_sq _ _ _
  · have e1 : ∑ i, l i * ((w i ⬝ᵥ μ' - w i ⬝ᵥ μ) ^ 2 + w i ⬝ᵥ (K' *ᵥ w i) + w i ⬝ᵥ (K *ᵥ w i) - 2 * ((R *ᵥ w i) ⬝ᵥ (A *ᵥ (R *ᵥ w i)))) =
        e ⬝ᵥ (S *ᵥ e) + (S * (R * ((A - 1) * (A - 1)) * R)).trace := by
      rw [hS, quad_sum_vecMulVec, trace_sum_vecMulVec, ← Finset.sum_add_distrib]
      refine Finset.sum_congr rfl fun i _ => ?_
      rw [← mul_add, hw, hw', he, dotProduct_sub]
      have : w i ⬝ᵥ ((R * ((A - 1) * (A - 1)) * R) *ᵥ w i) = (A *ᵥ (R *ᵥ w i)) ⬝ᵥ (A *ᵥ (R *ᵥ w i)) + (R *ᵥ w i) ⬝ᵥ (R *ᵥ w i) -
          2 * ((R *ᵥ w i) ⬝ᵥ (A *ᵥ (R *ᵥ w i))) := by
        have ht : (A - 1)ᵀ = A - 1 := by rw [transpose_sub, hAt, transpose_one]
        rw [← mulVec_mulVec, ← mulVec_mulVec, ← mulVec_mulVec, dotProduct_mulVec, ← mulVec_transpose, hRt, dotProduct_mulVec, ← mulVec_transpose, ht,
          sub_mulVec, one_mulVec, sub_dotProduct, dotProduct_sub, dotProduct_sub, dotProduct_comm (A *ᵥ (R *ᵥ w i)) (R *ᵥ w i)]
        ring
      rw [this]
      ring
    have e2 : S = (1 / 2 : ℝ) • (K0⁻¹ - K⁻¹) := by
      rw [h, sub_sub_cancel, smul_smul]; norm_num
    have e3 : e ⬝ᵥ (S *ᵥ e) = 1 / 2 * (e ⬝ᵥ (K0⁻¹ *ᵥ e)) - 1 / 2 * (e ⬝ᵥ (K⁻¹ *ᵥ e)) := by
      rw [e2, smul_mulVec, sub_mulVec, dotProduct_smul, dotProduct_sub, smul_eq_mul]; ring
    have e4 : (S * (R * ((A - 1) * (A - 1)) * R)).trace =
        1 / 2 * (K0⁻¹ * (R * ((A - 1) * (A - 1)) * R)).trace - 1 / 2 * ((A * A).trace - 2 * A.trace + Fintype.card ι) := by
      rw [e2, Matrix.smul_mul, Matrix.sub_mul, trace_smul, trace_sub, smul_eq_mul, mul_sub]
      congr 2
      rw [eKi, trace_mul_comm, Matrix.mul_assoc, ← Matrix.mul_assoc R R⁻¹, mul_nonsing_inv _ hRu, Matrix.one_mul, trace_mul_comm, ← Matrix.mul_assoc,
        nonsing_inv_mul _ hRu, Matrix.one_mul, Matrix.sub_mul, Matrix.mul_sub, Matrix.mul_sub, Matrix.one_mul, Matrix.mul_one, Matrix.one_mul]
      simp only [trace_sub, trace_one]
      ring
    have e5 : (K⁻¹ * K').trace = (A * A).trace := by
      rw [eKi, eK', trace_mul_comm, Matrix.mul_assoc, ← Matrix.mul_assoc R R⁻¹, mul_nonsing_inv _ hRu, Matrix.one_mul, trace_mul_comm,
        ← Matrix.mul_assoc, nonsing_inv_mul _ hRu, Matrix.one_mul]
    have e6 : Real.log K'.det = Real.log K.det + 2 * Real.log A.det := by
      have a0 := hA.det_pos
      have r0 := hR.det_pos
      rw [eK', ← hRR]
      simp only [det_mul]
      rw [Real.log_mul (by positivity) (by positivity), Real.log_mul (by positivity) (by positivity), Real.log_mul (by positivity) (by positivity),
        Real.log_mul (by positivity) (by positivity)]
      ring
    have key : gaussKL μ' K' μ K + ∑ i, l i * ((w i ⬝ᵥ μ' - w i ⬝ᵥ μ) ^ 2 + w i ⬝ᵥ (K' *ᵥ w i) + w i ⬝ᵥ (K *ᵥ w i) -
        2 * ((R *ᵥ w i) ⬝ᵥ (A *ᵥ (R *ᵥ w i)))) =
        1 / 2 * (e ⬝ᵥ (K0⁻¹ *ᵥ e)) + 1 / 2 * (K0⁻¹ * (R * ((A - 1) * (A - 1)) * R)).trace + (A.trace - Fintype.card ι - Real.log A.det) := by
      rw [e1, e3, e4, gaussKL, e5, e6, show μ - μ' = -e by rw [he]; abel, mulVec_neg, neg_dotProduct_neg]
      ring
    have p1 := hK0.inv.posSemidef.dotProduct_mulVec_nonneg e
    rw [star_trivial] at p1
    obtain ⟨p3, p4⟩ := trace_sub_logdet_nonneg hA
    have p2 : 0 ≤ (K0⁻¹ * (R * ((A - 1) * (A - 1)) * R)).trace := by
      have ht : (A - 1)ᵀ = A - 1 := by rw [transpose_sub, hAt, transpose_one]
      have := (posSemidef_conj' hK0.inv.posSemidef ((A - 1) * R)).trace_nonneg
      rw [transpose_mul, hRt, ht, trace_mul_comm, ← Matrix.mul_assoc, trace_mul_comm] at this
      simpa only [Matrix.mul_assoc] using this
    rw [key]
    refine ⟨by linarith, fun hz => ?_⟩
    constructor
    · by_contra hne
      have := hK0.inv.dotProduct_mulVec_pos (x := e) (fun h0 => hne (sub_eq_zero.1 h0))
      rw [star_trivial] at this
      linarith
    · rw [eK', p4 (by linarith), Matrix.mul_one, Matrix.mul_one, hRR]

end dense

/-! ### the tangent inequality -/

theorem gaussian_linear (m a b : ℝ) : ((gaussianReal 0 1).prod (gaussianReal 0 1)).map (fun p : ℝ × ℝ => m + (a * p.1 + b * p.2)) =
    gaussianReal m (a ^ 2 + b ^ 2).toNNReal := by
  have e1 : (gaussianReal 0 1).map (fun x => a * x) = gaussianReal 0 (a ^ 2).toNNReal := by
    rw [gaussianReal_map_const_mul]
    congr 1
    · simp
    · ext; simp [sq_nonneg]
  have e2 : (gaussianReal 0 1).map (fun x => b * x) = gaussianReal 0 (b ^ 2).toNNReal := by
    rw [gaussianReal_map_const_mul]
    congr 1
    · simp
    · ext; simp [sq_nonneg]
  have e3 : ((gaussianReal 0 1).prod (gaussianReal 0 1)).map (fun p : ℝ × ℝ => a * p.1 + b * p.2) = gaussianReal 0 (a ^ 2 + b ^ 2).toNNReal := by
    rw [Real.toNNReal_add (sq_nonneg a) (sq_nonneg b), ← add_zero (0 : ℝ), ← gaussianReal_conv_gaussianReal, add_zero, ← e1, ← e2, Measure.conv,
      Measure.map_prod_map _ _ (by fun_prop) (by fun_prop), Measure.map_map (by fun_prop) (by fun_prop)]
    rfl
  rw [show (fun p : ℝ × ℝ => m + (a * p.1 + b * p.2)) = (m + ·) ∘ fun p : ℝ × ℝ => a * p.1 + b * p.2 from rfl,
    ← Measure.map_map (by fun_prop) (by fun_prop), e3, gaussianReal_map_const_add, zero_add]

/-- Gaussian averages of a concave function are concave along every coupling. -/
theorem concave_along_coupling {g : ℝ → ℝ} (hg : ConcaveOn ℝ Set.univ g) (hi : ∀ m v : ℝ, Integrable g (gaussianReal m v.toNNReal))
    {m v m' v' c : ℝ} (hv : 0 < v) (hc : c ^ 2 ≤ v * v') {s : ℝ} (h0 : 0 ≤ s) (h1 : s ≤ 1) :
    (1 - s) * ∫ f, g f ∂gaussianReal m v.toNNReal + s * ∫ f, g f ∂gaussianReal m' v'.toNNReal ≤
      ∫ f, g f ∂gaussianReal (m + s * (m' - m)) (v + s * (2 * c - 2 * v) + s ^ 2 * (v + v' - 2 * c)).toNNReal := by
  have hgc : Continuous g := continuousOn_univ.1 (hg.continuousOn isOpen_univ)
  set σ := Real.sqrt v with hσ
  have hσ0 : 0 < σ := Real.sqrt_pos.2 hv
  have hσ2 : σ ^ 2 = v := Real.sq_sqrt hv.le
  set a := c / σ with ha
  have haσ : a * σ = c := div_mul_cancel₀ _ hσ0.ne'
  have ha2 : a ^ 2 ≤ v' := by
    rw [ha, div_pow, hσ2, div_le_iff₀ hv]; linarith
  set b := Real.sqrt (v' - a ^ 2) with hb
  have hb2 : b ^ 2 = v' - a ^ 2 := Real.sq_sqrt (by linarith)
  have l1 := gaussian_linear m σ 0
  have l2 := gaussian_linear m' a b
  have l3 := gaussian_linear (m + s * (m' - m)) ((1 - s) * σ + s * a) (s * b)
  rw [show σ ^ 2 + 0 ^ 2 = v by rw [hσ2]; ring] at l1
  rw [show a ^ 2 + b ^ 2 = v' by rw [hb2]; ring] at l2
  rw [show ((1 - s) * σ + s * a) ^ 2 + (s * b) ^ 2 = v + s * (2 * c - 2 * v) + s ^ 2 * (v + v' - 2 * c) by
    rw [mul_pow s b, hb2, ← haσ, ← hσ2]; ring] at l3
  have i1 := hi m v
  have i2 := hi m' v'
  have i3 := hi (m + s * (m' - m)) (v + s * (2 * c - 2 * v) + s ^ 2 * (v + v' - 2 * c))
  rw [← l1] at i1 ⊢
  rw [← l2] at i2 ⊢
  rw [← l3] at i3 ⊢
  rw [integral_map (by fun_prop) hgc.aestronglyMeasurable, integral_map (by fun_prop) hgc.aestronglyMeasurable,
    integral_map (by fun_prop) hgc.aestronglyMeasurable]
  have j1 := (integrable_map_measure hgc.aestronglyMeasurable (by fun_prop)).1 i1
  have j2 := (integrable_map_measure hgc.aestronglyMeasurable (by fun_prop)).1 i2
  have j3 := (integrable_map_measure hgc.aestronglyMeasurable (by fun_prop)).1 i3
  simp only [Function.comp_def] at j1 j2 j3
  rw [← integral_const_mul, ← integral_const_mul, ← integral_add (j1.const_mul _) (j2.const_mul _)]
  refine integral_mono ((j1.const_mul _).add (j2.const_mul _)) j3 fun p => ?_
  have := hg.2 (Set.mem_univ (m + (σ * p.1 + 0 * p.2))) (Set.mem_univ (m' + (a * p.1 + b * p.2))) (sub_nonneg.2 h1) h0 (by ring)
  simp only [smul_eq_mul] at this
  refine this.trans (le_of_eq ?_)
  congr 1
  ring

theorem tangent_ineq {lik : ScalarLikelihood} (he : ExactLikelihood lik) (hl : LogConcaveLikelihood lik) (hd : DifferentiableVarExp lik)
    {m v m' v' c y : ℝ} (hv : 0 < v) (hv' : 0 ≤ v') (hc : c ^ 2 ≤ v * v') :
    lik.varExp m' v' y ≤ lik.varExp m v y + deriv (fun x => lik.varExp x v y) m * (m' - m) +
      deriv (fun x => lik.varExp m x y) v * (2 * c - 2 * v) := by
  set γ : ℝ → ℝ × ℝ := fun s => (m + s * (m' - m), v + s * (2 * c - 2 * v) + s ^ 2 * (v + v' - 2 * c)) with hγ
  have hpos : ∀ s, 0 ≤ s → s ≤ 1 → 0 ≤ (γ s).2 := fun s h0 h1 => by
    have : 0 ≤ v * (v + s * (2 * c - 2 * v) + s ^ 2 * (v + v' - 2 * c)) := by
      nlinarith [sq_nonneg ((1 - s) * v + s * c), mul_nonneg (sq_nonneg s) (sub_nonneg.2 hc)]
    exact nonneg_of_mul_nonneg_right this hv
  have hφ : ∀ s, 0 ≤ s → s ≤ 1 → s * (lik.varExp m' v' y - lik.varExp m v y) ≤ lik.varExp (γ s).1 (γ s).2 y - lik.varExp m v y := fun s h0 h1 => by
    have := concave_along_coupling (hl y) (fun m v => he.integrable m v y) hv hc (m := m) (m' := m') h0 h1
    rw [← he.varExp _ _ _ hv.le, ← he.varExp _ _ _ hv', ← he.varExp _ _ _ (hpos s h0 h1)] at this
    simp only [hγ]
    linarith
  have hγ' : HasDerivAt γ (m' - m, 2 * c - 2 * v) 0 := by
    refine HasDerivAt.prodMk ?_ ?_
    · simpa using ((hasDerivAt_id (0 : ℝ)).mul_const (m' - m)).const_add m
    · have := (((hasDerivAt_id (0 : ℝ)).mul_const (2 * c - 2 * v)).const_add v).add (((hasDerivAt_id (0 : ℝ)).pow 2).mul_const (v + v' - 2 * c))
      simp only [id_eq, one_mul, Nat.cast_ofNat, Nat.add_one_sub_one, pow_one, mul_zero, zero_mul, mul_one, add_zero] at this
      exact this
  have hγ0 : γ 0 = (m, v) := by simp [hγ]
  have hfd := (hd m v y hv).hasFDerivAt
  set L := fderiv ℝ (fun x : ℝ × ℝ => lik.varExp x.1 x.2 y) (m, v) with hL
  have hcomp : HasDerivAt (fun s => lik.varExp (γ s).1 (γ s).2 y) (L (m' - m, 2 * c - 2 * v)) 0 := by
    have := HasFDerivAt.comp_hasDerivAt (f := γ) (l := fun x : ℝ × ℝ => lik.varExp x.1 x.2 y) (l' := L) 0 (by rw [hγ0]; exact hfd) hγ'
    exact this
  have d1 : deriv (fun x => lik.varExp x v y) m = L (1, 0) := by
    have : HasDerivAt (fun x => lik.varExp x v y) (L (1, 0)) m :=
      HasFDerivAt.comp_hasDerivAt (f := fun x : ℝ => (x, v)) (l := fun x : ℝ × ℝ => lik.varExp x.1 x.2 y) m hfd
        ((hasDerivAt_id m).prodMk (hasDerivAt_const m v))
    exact this.deriv
  have d2 : deriv (fun x => lik.varExp m x y) v = L (0, 1) := by
    have : HasDerivAt (fun x => lik.varExp m x y) (L (0, 1)) v :=
      HasFDerivAt.comp_hasDerivAt (f := fun x : ℝ => (m, x)) (l := fun x : ℝ × ℝ => lik.varExp x.1 x.2 y) v hfd
        ((hasDerivAt_const v m).prodMk (hasDerivAt_id v))
    exact this.deriv
  have hLe : L (m' - m, 2 * c - 2 * v) = deriv (fun x => lik.varExp x v y) m * (m' - m) + deriv (fun x => lik.varExp m x y) v * (2 * c - 2 * v) := by
    rw [d1, d2, show ((m' - m, 2 * c - 2 * v) : ℝ × ℝ) = (m' - m) • ((1, 0) : ℝ × ℝ) + (2 * c - 2 * v) • ((0, 1) : ℝ × ℝ) by ext <;> simp,
      map_add, map_smul, map_smul, smul_eq_mul, smul_eq_mul]
    ring
  have hge : lik.varExp m' v' y - lik.varExp m v y ≤ L (m' - m, 2 * c - 2 * v) := by
    have ht := hcomp.tendsto_slope_zero_right
    refine ge_of_tendsto ht ?_
    filter_upwards [Ioo_mem_nhdsGT (zero_lt_one' ℝ)] with s hs
    have := hφ s hs.1.le hs.2.le
    rw [zero_add, hγ0, smul_eq_mul, inv_mul_eq_div, le_div_iff₀ hs.1]
    linarith
  rw [hLe] at hge
  linarith

end MF
