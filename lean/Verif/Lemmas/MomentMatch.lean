import Verif.Lemmas.PEP
import Mathlib.Probability.Moments.Tilted

/-!
# Derivatives of `m ↦ log ∫ e^ℓ dN(m,v)` and the moments of the tilted distribution
-/

namespace MF
open Matrix Spec MeasureTheory ProbabilityTheory

theorem gaussLogDensity_one {v : ℝ} (hv : 0 < v) (m : ℝ) :
    gaussLogDensity (fun _ : Fin 1 => m) (diagonal fun _ => v) 0 =
      -PEP.logNormaliser m v - 1 / 2 * Real.log (2 * Real.pi) := by
  have hinv : (diagonal fun _ : Fin 1 => v)⁻¹ = diagonal fun _ => 1 / v := by
    apply inv_eq_right_inv
    rw [diagonal_mul_diagonal, ← diagonal_one]
    congr 1; funext i
    exact mul_one_div_cancel hv.ne'
  unfold gaussLogDensity PEP.logNormaliser
  rw [hinv]
  simp only [dotProduct, mulVec_diagonal, Finset.univ_unique, Finset.sum_singleton, Fin.default_eq_zero, Pi.sub_apply,
    Pi.zero_apply, det_diagonal, Finset.prod_singleton, Fintype.card_fin]
  push_cast
  field_simp
  ring

/-- One-dimensional Gaussian times the site `exp (L1 f + L2 f²)`. -/
theorem gaussianReal_site {m v m' v' L1 L2 : ℝ} (hv : 0 < v) (hv' : 0 < v') (h : 1 / v' = 1 / v - 2 * L2)
    (hm : m' / v' = m / v + L1) :
    IsBayesPosterior (gaussianReal m v.toNNReal) (fun f => L1 * f + L2 * f ^ 2) (gaussianReal m' v'.toNNReal) ∧
    evidence (gaussianReal m v.toNNReal) (fun f => L1 * f + L2 * f ^ 2) =
      ENNReal.ofReal (Real.exp (PEP.logNormaliser m' v' - PEP.logNormaliser m v)) := by
  have hpd : ∀ {a : ℝ}, 0 < a → (diagonal fun _ : Fin 1 => a).PosDef := fun ha =>
    Matrix.PosDef.diagonal fun _ => ha
  have hinv : ∀ {a : ℝ}, 0 < a → (diagonal fun _ : Fin 1 => a)⁻¹ = diagonal fun _ => 1 / a := fun {a} ha => by
    apply inv_eq_right_inv
    rw [diagonal_mul_diagonal, ← diagonal_one]
    congr 1; funext i
    exact mul_one_div_cancel ha.ne'
  obtain ⟨hb, he⟩ := (bayes_natural (hpd hv) (hpd hv') (M := diagonal fun _ => L2) (μ := fun _ => m) (μ' := fun _ => m')
    (l := fun _ => L1) (by
      rw [hinv hv, hinv hv', ← diagonal_smul, diagonal_sub, h]
      rfl) (by
      rw [hinv hv, hinv hv']
      funext i
      simp only [mulVec_diagonal, Pi.add_apply]
      rw [one_div_mul_eq_div, one_div_mul_eq_div, hm]))
  have hq : ∀ x : Fin 1 → ℝ, (fun _ => L1) ⬝ᵥ x + x ⬝ᵥ ((diagonal fun _ => L2) *ᵥ x) = L1 * x 0 + L2 * x 0 ^ 2 := by
    intro x
    simp only [dotProduct, mulVec_diagonal, Finset.univ_unique, Finset.sum_singleton, Fin.default_eq_zero]
    ring
  simp only [hq] at hb he
  have hmap := IsBayesPosterior.map (f := fun x : Fin 1 → ℝ => x 0) (measurable_pi_apply 0)
    (ℓ := fun f => L1 * f + L2 * f ^ 2) (by fun_prop) hb
  rw [gaussLaw_eval (hpd hv).posSemidef, gaussLaw_eval (hpd hv').posSemidef] at hmap
  refine ⟨by simpa using hmap, ?_⟩
  have hev : evidence (gaussLaw (fun _ => m) (diagonal fun _ : Fin 1 => v)) (fun x => L1 * x 0 + L2 * x 0 ^ 2) =
      evidence (gaussianReal m v.toNNReal) (fun f => L1 * f + L2 * f ^ 2) := by
    have hg := gaussLaw_eval (hpd hv).posSemidef (fun _ : Fin 1 => m) 0
    rw [diagonal_apply_eq] at hg
    unfold evidence
    rw [← hg, lintegral_map (by fun_prop) (by fun_prop)]
  rw [← hev, he, gaussLogDensity_one hv, gaussLogDensity_one hv']
  congr 2
  ring

/-- How the marginal of `f_t` and the cavity are related. -/
theorem PEP.cavity_marginal {n d : ℕ} {c : PEP n d} {k} (h : c.toBase.Valid k) {q} (hq : c.distQ = .ok q) {m v}
    (hmv : c.computeCavity = .ok (m, v)) {t : Fin (n + 1)} (hv : 0 < v t 0) :
    0 < c.row t ⬝ᵥ (blk q.Kd t t *ᵥ c.row t) ∧
    1 / (c.row t ⬝ᵥ (blk q.Kd t t *ᵥ c.row t)) = 1 / v t 0 - 2 * (c.alpha * c.sites.nat2 t 0 0) ∧
    c.row t ⬝ᵥ q.mus t / (c.row t ⬝ᵥ (blk q.Kd t t *ᵥ c.row t)) = m t 0 / v t 0 + c.alpha * c.sites.nat1 t 0 := by
  obtain ⟨s, hs, hq1, -⟩ := C34_dist_q h
  have hqn := (hq1 q hq).1
  obtain ⟨hco, -, -⟩ := Builds.good h.builds
  have hcc : c.computeCavity = c.cavityFromMarginals (q.mus, fun t => blk q.Kd t t) := by
    unfold PEP.computeCavity
    rw [hq]
    simp only [bind, Except.bind, SSM.marginals_eq hqn h.two hco.pos]
  obtain ⟨h1, h2⟩ := c.cavity_cases hqn
  rw [← hcc] at h1 h2
  have hp : ∀ t, (c.cavPrec q t).PosDef := by
    by_contra hp
    rw [h2 hp] at hmv; cases hmv
  have e := Except.ok.inj ((h1 hp).symm.trans hmv)
  obtain ⟨rfl, rfl⟩ := Prod.mk.inj e
  beta_reduce at hv ⊢
  set w := c.row t with hw
  set C := blk q.Kd t t with hCdef
  set P := c.cavPrec q t with hPdef
  have hC : C.PosDef := posDef_blk (SSM.Kd_posDef hqn) t
  have hPp : P.PosDef := hp t
  have hCu := isUnit_det' hC.isUnit
  have hPu := isUnit_det' hPp.isUnit
  have hw0 : w ≠ 0 := by
    rintro h0
    rw [h0] at hv
    simp at hv
  have hvq : 0 < w ⬝ᵥ (C *ᵥ w) := by simpa using hC.dotProduct_mulVec_pos hw0
  set a : ℝ := 2 * c.alpha * c.sites.nat2 t 0 0 with ha
  have hP : P = C⁻¹ + a • vecMulVec w w := rfl
  -- `P C w = w + a (w·Cw) w`
  have k1 : P *ᵥ (C *ᵥ w) = (1 + a * (w ⬝ᵥ (C *ᵥ w))) • w := by
    rw [hP, add_mulVec, mulVec_mulVec, nonsing_inv_mul _ hCu, one_mulVec, smul_mulVec, vecMulVec_mulVec]
    funext i
    simp only [Pi.add_apply, Pi.smul_apply, MulOpposite.smul_eq_mul_unop, MulOpposite.unop_op, smul_eq_mul]
    ring
  have k2 : C *ᵥ w = (1 + a * (w ⬝ᵥ (C *ᵥ w))) • (P⁻¹ *ᵥ w) := by
    rw [← mulVec_smul, ← k1, mulVec_mulVec, nonsing_inv_mul _ hPu, one_mulVec]
  have k3 : w ⬝ᵥ (C *ᵥ w) = (1 + a * (w ⬝ᵥ (C *ᵥ w))) * (w ⬝ᵥ (P⁻¹ *ᵥ w)) := by
    conv_lhs => rw [k2]
    rw [dotProduct_smul, smul_eq_mul]
  -- the mean
  have k4 : w ⬝ᵥ (P⁻¹ *ᵥ c.cavLin q t) * (1 + a * (w ⬝ᵥ (C *ᵥ w))) =
      w ⬝ᵥ q.mus t - c.alpha * c.sites.nat1 t 0 * (w ⬝ᵥ (C *ᵥ w)) := by
    have hPs : (P⁻¹)ᵀ = P⁻¹ := posDef_tr hPp.inv
    have hCs : Cᵀ = C := posDef_tr hC
    have e1 : w ⬝ᵥ (P⁻¹ *ᵥ c.cavLin q t) * (1 + a * (w ⬝ᵥ (C *ᵥ w))) = (C *ᵥ w) ⬝ᵥ c.cavLin q t := by
      conv_rhs => rw [k2]
      rw [smul_dotProduct, smul_eq_mul, dotProduct_mulVec, ← mulVec_transpose, hPs, mul_comm]
    rw [e1, PEP.cavLin, dotProduct_sub, dotProduct_smul, smul_eq_mul]
    congr 1
    · rw [dotProduct_mulVec, ← mulVec_transpose, posDef_tr hC.inv, mulVec_mulVec, nonsing_inv_mul _ hCu, one_mulVec]
    · rw [dotProduct_comm (C *ᵥ w)]
  set V := w ⬝ᵥ (C *ᵥ w) with hV
  set Vc := w ⬝ᵥ (P⁻¹ *ᵥ w) with hVc
  set M := w ⬝ᵥ (P⁻¹ *ᵥ c.cavLin q t) with hM
  set Mq := w ⬝ᵥ q.mus t with hMq
  refine ⟨hvq, ?_, ?_⟩
  · field_simp
    rw [ha] at k3
    linear_combination -k3
  · field_simp
    have h1 : (1 + a * V) = V / Vc := by field_simp; linear_combination -k3
    rw [h1] at k4
    field_simp at k4
    linear_combination -k4

/-- `N(m, v)` is an exponential tilt of `N(0, v)`. -/
theorem gaussianReal_eq_tilted {v : ℝ} (hv : 0 < v) (m : ℝ) :
    gaussianReal m v.toNNReal = (gaussianReal 0 v.toNNReal).tilted (fun f => m / v * f) := by
  have := (gaussianReal_site (m := 0) (m' := m) (L1 := m / v) (L2 := 0) hv hv (by ring) (by ring)).1
  simp only [zero_mul, add_zero] at this
  exact IsBayesPosterior.tilted (by fun_prop) this

theorem integrable_exp_gaussianReal (v : NNReal) (m t : ℝ) : Integrable (fun f => Real.exp (t * f)) (gaussianReal m v) := by
  have h := integrableExpSet_id_gaussianReal (μ := m) (v := v)
  have : t ∈ integrableExpSet id (gaussianReal m v) := by rw [h]; trivial
  exact this

/-- The first two derivatives in `m` of `log ∫ e^ℓ dN(m,v)` are the moments of the tilted distribution. -/
theorem tilted_moments {ℓ : ℝ → ℝ} (hℓ : Measurable ℓ) {B : ℝ} (hB : ∀ f, ℓ f ≤ B) {v : ℝ} (hv : 0 < v) (m : ℝ)
    {τ : Measure ℝ} (hτ : IsBayesPosterior (gaussianReal m v.toNNReal) ℓ τ) :
    m + v * deriv (fun m => Real.log (∫ f, Real.exp (ℓ f) ∂gaussianReal m v.toNNReal)) m = ∫ f, f ∂τ ∧
    v + v ^ 2 * deriv (deriv fun m => Real.log (∫ f, Real.exp (ℓ f) ∂gaussianReal m v.toNNReal)) m = Var[id; τ] ∧
    0 < Var[id; τ] := by
  set N0 := gaussianReal 0 v.toNNReal with hN0
  have hexp : ∀ t, Integrable (fun f => Real.exp (t * f)) N0 := integrable_exp_gaussianReal _ 0
  have hboth : ∀ t, Integrable (fun f => Real.exp (ℓ f) * Real.exp (t * f)) N0 := fun t =>
    (hexp t).bdd_mul (c := Real.exp B) (Real.measurable_exp.comp hℓ).aestronglyMeasurable
      (Filter.Eventually.of_forall fun f => by
        rw [Real.norm_eq_abs, abs_of_pos (Real.exp_pos _)]; exact Real.exp_le_exp.2 (hB f))
  have hℓi : Integrable (fun f => Real.exp (ℓ f)) N0 := by simpa using hboth 0
  set ρ := N0.tilted ℓ with hρ
  have hρp : IsProbabilityMeasure ρ := isProbabilityMeasure_tilted hℓi
  have hset : integrableExpSet id ρ = Set.univ := by
    ext t
    simp only [Set.mem_univ, iff_true, integrableExpSet, Set.mem_setOf_eq, id_eq]
    rw [hρ, integrable_tilted_iff hℓi]
    exact hboth t
  have hmem : ∀ t, t ∈ interior (integrableExpSet id ρ) := fun t => by rw [hset, interior_univ]; trivial
  have hZ0 : 0 < ∫ f, Real.exp (ℓ f) ∂N0 := integral_exp_pos hℓi
  have hlog : ∀ m, Real.log (∫ f, Real.exp (ℓ f) ∂gaussianReal m v.toNNReal) =
      cgf id ρ (m / v) + Real.log (∫ f, Real.exp (ℓ f) ∂N0) - m ^ 2 / (2 * v) := by
    intro m
    have hg : ∫ f, Real.exp (m / v * f) ∂N0 = Real.exp (m ^ 2 / (2 * v)) := by
      have := congrFun (mgf_id_gaussianReal (μ := 0) (v := v.toNNReal)) (m / v)
      simp only [mgf, id_eq, zero_mul, zero_add, Real.coe_toNNReal v hv.le] at this
      rw [this]
      congr 1
      field_simp
    have hpos : 0 < ∫ f, Real.exp (ℓ f) * Real.exp (m / v * f) ∂N0 := by
      have := integral_exp_pos (μ := N0) (f := fun f => ℓ f + m / v * f) (by simpa only [Real.exp_add] using hboth (m / v))
      simpa only [Real.exp_add] using this
    rw [gaussianReal_eq_tilted hv m, integral_tilted, hg, cgf, mgf, hρ, integral_tilted]
    simp only [smul_eq_mul, id_eq, div_mul_eq_mul_div, integral_div]
    rw [← hN0]
    have e : ∫ f, Real.exp (m * f / v) * Real.exp (ℓ f) ∂N0 = ∫ f, Real.exp (ℓ f) * Real.exp (m * f / v) ∂N0 :=
      integral_congr_ae (Filter.Eventually.of_forall fun f => mul_comm _ _)
    have hpos' : 0 < ∫ f, Real.exp (ℓ f) * Real.exp (m * f / v) ∂N0 := by
      simpa only [div_mul_eq_mul_div] using hpos
    rw [e, Real.log_div hpos'.ne' (Real.exp_pos _).ne', Real.log_exp, Real.log_div hpos'.ne' hZ0.ne']
    ring
  have hd : ∀ t, HasDerivAt (cgf id ρ) (deriv (cgf id ρ) t) t := fun t =>
    (analyticAt_cgf (hmem t)).differentiableAt.hasDerivAt
  have hd2 : ∀ t, HasDerivAt (deriv (cgf id ρ)) (iteratedDeriv 2 (cgf id ρ) t) t := fun t => by
    rw [iteratedDeriv_succ, iteratedDeriv_one]
    exact (analyticAt_cgf (hmem t)).deriv.differentiableAt.hasDerivAt
  have hdm : ∀ m : ℝ, HasDerivAt (fun m => m / v) (1 / v) m := fun m => (hasDerivAt_id m).div_const v
  have hg1 : ∀ m, HasDerivAt (fun m => Real.log (∫ f, Real.exp (ℓ f) ∂gaussianReal m v.toNNReal))
      (deriv (cgf id ρ) (m / v) * (1 / v) - m / v) m := fun m => by
    simp only [hlog]
    have h1 := (hd (m / v)).comp m (hdm m)
    have h2 := ((hasDerivAt_pow 2 m).div_const (2 * v))
    refine ((h1.add_const _).sub h2).congr_deriv ?_
    congr 1
    norm_num
    field_simp
  have hg2 : HasDerivAt (deriv fun m => Real.log (∫ f, Real.exp (ℓ f) ∂gaussianReal m v.toNNReal))
      (iteratedDeriv 2 (cgf id ρ) (m / v) * (1 / v) * (1 / v) - 1 / v) m := by
    rw [funext fun m => (hg1 m).deriv]
    exact (((hd2 (m / v)).comp m (hdm m)).mul_const (1 / v)).sub (hdm m)
  have hτe : τ = ρ.tilted (m / v * id ·) := by
    rw [IsBayesPosterior.tilted hℓ hτ, gaussianReal_eq_tilted hv m, tilted_tilted (hexp _), hρ, tilted_tilted hℓi]
    congr 1
    funext f
    simp only [Pi.add_apply, id_eq]
    ring
  have hvar : Var[id; τ] = iteratedDeriv 2 (cgf id ρ) (m / v) := by
    rw [hτe]; exact variance_tilted_mul (hmem _)
  refine ⟨?_, ?_, ?_⟩
  · rw [(hg1 m).deriv]
    have := integral_tilted_mul_self (hmem (m / v))
    rw [← hτe] at this
    simp only [id_eq] at this
    rw [this]
    field_simp
    ring
  · rw [hg2.deriv, hvar]
    field_simp
    ring
  · refine lt_of_le_of_ne (variance_nonneg _ _) fun h0 => ?_
    have hτp : IsProbabilityMeasure τ := by
      rw [hτe]
      exact isProbabilityMeasure_tilted (by
        have : m / v ∈ integrableExpSet id ρ := by rw [hset]; trivial
        exact this)
    have hmem2 : MemLp id 2 τ := by rw [hτe]; exact_mod_cast memLp_tilted_mul (hmem _) 2
    have hae := ae_eq_integral_of_variance_eq_zero hmem2 h0.symm
    have hac : gaussianReal m v.toNNReal ≪ τ := by
      rw [IsBayesPosterior.tilted hℓ hτ]
      exact absolutelyContinuous_tilted (IsBayesPosterior.integrable_exp hℓ hτ)
    have hae' := hac.ae_le hae
    have hna : NullSingletonClass (gaussianReal m v.toNNReal) := noAtoms_gaussianReal (by
      rw [ne_eq, Real.toNNReal_eq_zero]; exact not_le.2 hv)
    have h0' : gaussianReal m v.toNNReal {∫ f, id f ∂τ}ᶜ = 0 := hae'
    have h1 := measure_singleton (μ := gaussianReal m v.toNNReal) (∫ f, id f ∂τ)
    have := measure_add_measure_compl (μ := gaussianReal m v.toNNReal) (measurableSet_singleton (∫ f, id f ∂τ))
    rw [h1, h0', measure_univ] at this
    simp at this

end MF
