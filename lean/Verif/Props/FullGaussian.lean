import Verif.Spec.FullGaussian
import Verif.Lemmas.FullGaussian
import Verif.Props.GlobalOptimum
import Verif.Props.NoiseLimits

/-!
# C78: the optimal Markov approximation is the optimal Gaussian approximation of the Gaussian process
-/

namespace MF
open Matrix Spec MeasureTheory ProbabilityTheory InformationTheory Filter Topology
variable {n o d d' p : ℕ}

/-- The optimum of the bound has the natural parameters of the prior plus sites on the outputs, given by the derivatives of the variational
expectations. -/
theorem VGP.optimum_sites {v : VGP n o d} {k} (h : v.Valid k) (hd : DifferentiableVarExp v.likelihood)
    (hem : ∀ t a, v.kernel.emission (v.times t) a ≠ 0) (hbest : ∀ s : SSM n d, s.Nondegenerate → v.lossOf v.q ≤ v.lossOf s) :
    ∃ (p : SSM n d) (g : Fin (n + 1) × Fin o → ℝ × ℝ), v.kernel.stateSpaceModel v.times = .ok p ∧ p.Nondegenerate ∧ stk p.mus = 0 ∧
      v.q.Kd⁻¹ = p.Kd⁻¹ + (outMat v.kernel v.times)ᵀ * Matrix.diagonal (fun i => -2 * (g i).2) * outMat v.kernel v.times ∧
      v.q.Kd⁻¹ *ᵥ stk v.q.mus = (outMat v.kernel v.times)ᵀ *ᵥ (fun i => (g i).1) ∧
      (∀ i, (g i).1 = deriv (fun x => v.likelihood.varExp x ((outMat v.kernel v.times * v.q.Kd * (outMat v.kernel v.times)ᵀ) i i)
            (v.observations i.1 i.2)) ((outMat v.kernel v.times *ᵥ stk v.q.mus) i + v.meanFunction (v.times i.1) i.2) -
          2 * deriv (fun x => v.likelihood.varExp ((outMat v.kernel v.times *ᵥ stk v.q.mus) i + v.meanFunction (v.times i.1) i.2) x
            (v.observations i.1 i.2)) ((outMat v.kernel v.times * v.q.Kd * (outMat v.kernel v.times)ᵀ) i i) *
            (outMat v.kernel v.times *ᵥ stk v.q.mus) i) ∧
      (∀ i, (g i).2 = deriv (fun x => v.likelihood.varExp ((outMat v.kernel v.times *ᵥ stk v.q.mus) i + v.meanFunction (v.times i.1) i.2) x
            (v.observations i.1 i.2)) ((outMat v.kernel v.times * v.q.Kd * (outMat v.kernel v.times)ᵀ) i i)) := by
  obtain ⟨p, hp, hpn, hp0, hL⟩ := VGP.lossOf_eq h
  set H : Fin (n + 1) → Mat o d := fun t => v.kernel.emission (v.times t) with hH
  have hL' : ∀ s : SSM n d, s.Nondegenerate → v.lossOf s = (klDiv s.law p.law).toReal - ∑ i : Fin (n + 1) × Fin o,
      (1 : ℝ) * v.likelihood.varExp (outRow H i ⬝ᵥ stk s.mus + v.meanFunction (v.times i.1) i.2) (outRow H i ⬝ᵥ (s.Kd *ᵥ outRow H i) + 0)
        (v.observations i.1 i.2) := fun s hs => by
    rw [hL s hs]
    congr 1
    refine Finset.sum_congr rfl fun i _ => ?_
    rw [outRow_mean, outRow_var, one_mul, add_zero]
  obtain ⟨g, g1, g2, hg⟩ := elbo_gradient (q := v.q) (p := p) hd h.q hpn (ι := Fin (n + 1) × Fin o) (outRow H)
    (α := fun i => siteNaturals H (unitSite i) 0) (β := fun i => siteNaturals H 0 (unitSite i))
    (κ := fun _ => 1) (b := fun i => v.meanFunction (v.times i.1) i.2) (r := fun _ => 0) (y := fun i => v.observations i.1 i.2) (L := v.lossOf)
    (fun i => siteNaturals_symDiag _ _ _) (fun i => siteNaturals_symDiag _ _ _)
    (fun i s => by rw [(pairing_unitSite H i s).1, outRow_mean]) (fun i s => by rw [(pairing_unitSite H i s).2, outRow_mean, outRow_var])
    (fun i => by rw [outRow_var, add_zero]; exact out_var_pos h.q (hem i.1 i.2) i.1) hL'
  have ho : OfLaw v.lossOf := fun a c ha hc e => by
    obtain ⟨m1, m2⟩ := mus_Kd_of_law e
    have e' : a.law = c.law := e
    rw [hL a ha, hL c hc, m1, m2, e']
  have h0 := sub_eq_zero.1 (gradient_zero_of_min h.q ho hg hbest)
  obtain ⟨e1, e2⟩ := dense_of_sites h.q hpn hp0 H h0
  have hrow : ∀ i, outRow H i = outMat v.kernel v.times i := fun i => by
    funext ⟨t, c⟩
    show ((blkSel i.1)ᵀ *ᵥ H i.1 i.2) (t, c) = if i.1 = t then v.kernel.emission (v.times i.1) i.2 c else 0
    by_cases ht : i.1 = t
    · subst ht
      simp [mulVec, dotProduct, blkSel, hH]
    · have : ¬ t = i.1 := fun e => ht e.symm
      simp [mulVec, dotProduct, blkSel, ht, this]
  have hm : ∀ i, outRow H i ⬝ᵥ stk v.q.mus = (outMat v.kernel v.times *ᵥ stk v.q.mus) i := fun i => by rw [hrow]; rfl
  have hv : ∀ i, outRow H i ⬝ᵥ (v.q.Kd *ᵥ outRow H i) = (outMat v.kernel v.times * v.q.Kd * (outMat v.kernel v.times)ᵀ) i i := fun i => by
    rw [hrow, Matrix.mul_apply_eq_vecMul, dotProduct_mulVec]
    rfl
  refine ⟨p, g, hp, hpn, hp0, ?_, ?_, fun i => ?_, fun i => ?_⟩
  · rw [e1, sub_eq_add_neg]
    congr 1
    ext x y
    rw [Matrix.neg_apply, Matrix.smul_apply, Matrix.sum_apply, Matrix.mul_apply, smul_eq_mul, Finset.mul_sum, ← Finset.sum_neg_distrib]
    refine Finset.sum_congr rfl fun i _ => ?_
    rw [mul_diagonal, transpose_apply, Matrix.smul_apply, vecMulVec_apply, hrow, smul_eq_mul]
    ring
  · rw [e2]
    funext x
    rw [Finset.sum_apply]
    simp only [mulVec, dotProduct, transpose_apply, Pi.smul_apply, smul_eq_mul, hrow]
    exact Finset.sum_congr rfl fun i _ => mul_comm _ _
  · rw [g1, hm, hv, add_zero, one_mul]
  · rw [g2, hm, hv, add_zero, one_mul]

/-- The emission rows are nonzero when the Gram matrix is positive definite. -/
theorem emission_ne_zero {K : Stationary o d} {k} (hK : Builds K k) {ts : Fin (n + 1) → ℝ} (hG : (gpGram k ts).PosDef) (t : Fin (n + 1))
    (a : Fin o) : K.emission (ts t) a ≠ 0 := fun h0 => by
  have hpos := hG.diag_pos (i := (t, a))
  rw [← outMat_conj (Builds.good hK).2.2 ts, outMat_conj_diag, Matrix.mul_assoc, Matrix.mul_apply] at hpos
  simp [h0] at hpos

/-- The bound of a Gaussian law of the function values. -/
theorem functionBound_gauss {T : Type} [Fintype T] [DecidableEq T] {lik : ScalarLikelihood} (he : ExactLikelihood lik) (y : T → Vec o)
    {m m0 : T × Fin o → ℝ} {S G : Matrix (T × Fin o) (T × Fin o) ℝ} (hS : S.PosDef) (hG : G.PosDef) :
    functionBound lik y (gaussLaw m0 G) (gaussLaw m S) = (∑ i : T × Fin o, lik.varExp (m i) (S i i) (y i.1 i.2)) - gaussKL m S m0 G := by
  unfold functionBound
  rw [(integral_outputLogLik he y m hS.posSemidef).2, klDiv_gaussLaw hS hG, ENNReal.toReal_ofReal (gaussKL_nonneg hS hG),
    Fintype.sum_prod_type]

theorem gaussKL_shift {ι : Type*} [Fintype ι] [DecidableEq ι] (m1 m2 b : ι → ℝ) (K1 K2 : Matrix ι ι ℝ) :
    gaussKL (m1 + b) K1 (m2 + b) K2 = gaussKL m1 K1 m2 K2 := by
  unfold gaussKL
  rw [add_sub_add_right_eq_sub]

/-- C78, variational GP: let `dist_q` have the largest `elbo()` among all Gaussian Markov distributions. Then `elbo()` is the textbook lower bound of
the law of the latent function values at the data under `dist_q`, and no Gaussian law of these values - with any mean and any positive definite
covariance matrix, Markov or not - has a larger one; a Gaussian law with an equal bound is the same law. -/
theorem C78_vgp {v : VGP n o d} {k} (h : v.Valid k) (he : ExactLikelihood v.likelihood) (hl : LogConcaveLikelihood v.likelihood)
    (hd : DifferentiableVarExp v.likelihood) (hG : (gpGram k v.times).PosDef) {e : ℝ} (hev : v.elbo = .ok e)
    (hbest : ∀ s : SSM n d, s.Nondegenerate → ∃ e', ({ v with q := s } : VGP n o d).elbo = .ok e' ∧ e' ≤ e) :
    e = functionBound v.likelihood v.observations (gpLaw v.meanFunction k v.times)
      (v.q.law.map (latentOf v.kernel v.meanFunction v.times)) ∧
    ∀ (m : Fin (n + 1) × Fin o → ℝ) (S : Matrix (Fin (n + 1) × Fin o) (Fin (n + 1) × Fin o) ℝ), S.PosDef →
      klDiv (gaussLaw m S) (gpLaw v.meanFunction k v.times) ≠ ⊤ ∧
      functionBound v.likelihood v.observations (gpLaw v.meanFunction k v.times) (gaussLaw m S) ≤ e ∧
      (functionBound v.likelihood v.observations (gpLaw v.meanFunction k v.times) (gaussLaw m S) = e →
        gaussLaw m S = v.q.law.map (latentOf v.kernel v.meanFunction v.times)) := by
  have hem := fun t a => emission_ne_zero h.builds hG t a
  have hval : ∀ s : SSM n d, s.Nondegenerate → ({ v with q := s } : VGP n o d).elbo = .ok (-v.lossOf s) := fun s hs => by
    obtain ⟨e, he1, he2⟩ := VGP.loss_ok (v := { v with q := s }) (k := k) ⟨h.builds, h.noise, h.jitter, h.times, h.lower, h.upper, h.two, hs⟩
    have : v.lossOf s = -e := by
      unfold VGP.lossOf
      rw [he2]
    rw [this, neg_neg, he1]
  have hev' : e = -v.lossOf v.q := Except.ok.inj (hev.symm.trans (hval v.q h.q))
  have hmin : ∀ s : SSM n d, s.Nondegenerate → v.lossOf v.q ≤ v.lossOf s := fun s hs => by
    obtain ⟨e', a1, a2⟩ := hbest s hs
    rw [hval s hs] at a1
    have := Except.ok.inj a1
    linarith
  obtain ⟨p, g, hp, hpn, hp0, k1, k2, g1, g2⟩ := VGP.optimum_sites h hd hem hmin
  obtain ⟨p', hp', -, -, hL⟩ := VGP.lossOf_eq h
  obtain rfl : p = p' := Except.ok.inj (hp.symm.trans hp')
  set E := outMat v.kernel v.times with hE
  have hGe : E * p.Kd * Eᵀ = gpGram k v.times := by
    rw [(kernel_moments h.builds h.jitter hp).2, outMat_conj (Builds.good h.builds).2.2]
  have hG' : (E * p.Kd * Eᵀ).PosDef := by rw [hGe]; exact hG
  have hEi : Function.Injective E.vecMul := fun x x' hx => by
    by_contra hne
    have hp := hG'.dotProduct_mulVec_pos (x := x - x') (sub_ne_zero.2 hne)
    rw [star_trivial, ← mulVec_mulVec, mulVec_transpose, Matrix.sub_vecMul, show x ᵥ* E = x' ᵥ* E from hx, sub_self, mulVec_zero,
      dotProduct_zero] at hp
    exact lt_irrefl _ hp
  have hS' : (E * v.q.Kd * Eᵀ).PosDef := by
    rw [← conjTranspose_eq_transpose_of_trivial]
    exact (SSM.Kd_posDef h.q).mul_mul_conjTranspose_same hEi
  obtain ⟨j1, j2, j3⟩ := gaussKL_marginal (SSM.Kd_posDef hpn) (SSM.Kd_posDef h.q) k1 k2 hG' hS'
  have hpr : gpLaw v.meanFunction k v.times = gaussLaw (meanVec v.meanFunction v.times) (E * p.Kd * Eᵀ) := by
    rw [hGe]; rfl
  have hlat : v.q.law.map (latentOf v.kernel v.meanFunction v.times) =
      gaussLaw (E *ᵥ stk v.q.mus + meanVec v.meanFunction v.times) (E * v.q.Kd * Eᵀ) := by
    rw [latentOf_gauss, hE, outMat_mulVec]
    rfl
  have hq0 : e = (∑ i, v.likelihood.varExp ((E *ᵥ stk v.q.mus) i + meanVec v.meanFunction v.times i) ((E * v.q.Kd * Eᵀ) i i)
      (v.observations i.1 i.2)) - gaussKL (E *ᵥ stk v.q.mus) (E * v.q.Kd * Eᵀ) 0 (E * p.Kd * Eᵀ) := by
    rw [hev', hL v.q h.q, v.q.law_eq_gauss, p.law_eq_gauss, klDiv_gaussLaw (SSM.Kd_posDef h.q) (SSM.Kd_posDef hpn),
      ENNReal.toReal_ofReal (gaussKL_nonneg (SSM.Kd_posDef h.q) (SSM.Kd_posDef hpn)), hp0, j3, neg_sub]
    congr 1
    refine Finset.sum_congr rfl fun i _ => ?_
    rw [hE, outMat_mulVec, outMat_conj_diag]
    rfl
  have hsing : ∀ (i : Fin (n + 1) × Fin o) (x : Fin (n + 1) × Fin o → ℝ), Pi.single i (1 : ℝ) ⬝ᵥ x = x i := fun i x => by
    rw [single_dotProduct, one_mul]
  have hsingM : ∀ (i : Fin (n + 1) × Fin o) (M : Matrix (Fin (n + 1) × Fin o) (Fin (n + 1) × Fin o) ℝ),
      Pi.single i (1 : ℝ) ⬝ᵥ (M *ᵥ Pi.single i (1 : ℝ)) = M i i := fun i M => by
    rw [hsing, mulVec_single_one]; rfl
  refine ⟨?_, fun m S hS => ?_⟩
  · rw [hlat, hpr, functionBound_gauss he _ hS' hG', hq0]
    congr 1
    rw [← gaussKL_shift _ _ (meanVec v.meanFunction v.times), zero_add]
  · have hmax := dense_global_max he hl hd hG' hS' (μ0 := 0) (μ := E *ᵥ stk v.q.mus) (fun i => Pi.single i (1 : ℝ))
      (b := meanVec v.meanFunction v.times) (y := fun i => v.observations i.1 i.2) (g := g)
      (fun i => by rw [hsingM]; exact hS'.diag_pos) (fun i => by rw [hsingM, hsing, g1]; rfl) (fun i => by rw [hsingM, hsing, g2]; rfl)
      (by
        rw [j1, sub_eq_add_neg]
        congr 1
        ext x y
        rw [Matrix.neg_apply, Matrix.smul_apply, Matrix.sum_apply, smul_eq_mul, Finset.sum_eq_single x]
        · by_cases hxy : x = y
          · subst hxy
            simp [vecMulVec_apply]
          · simp [vecMulVec_apply, diagonal_apply_ne _ hxy, Ne.symm hxy]
        · intro i _ hi
          simp [vecMulVec_apply, Ne.symm hi]
        · simp)
      (by
        rw [j2, mulVec_zero, zero_add]
        funext x
        rw [Finset.sum_apply, Finset.sum_eq_single x]
        · simp
        · intro i _ hi
          simp [Ne.symm hi]
        · simp)
      (μ' := m - meanVec v.meanFunction v.times) hS
    simp only [hsingM] at hmax
    simp only [hsing, Pi.sub_apply, sub_add_cancel] at hmax
    have hb : functionBound v.likelihood v.observations (gpLaw v.meanFunction k v.times) (gaussLaw m S) =
        (∑ i, v.likelihood.varExp (m i) (S i i) (v.observations i.1 i.2)) -
          gaussKL (m - meanVec v.meanFunction v.times) S 0 (E * p.Kd * Eᵀ) := by
      rw [hpr, functionBound_gauss he _ hS hG']
      congr 1
      rw [← gaussKL_shift (m - _) _ (meanVec v.meanFunction v.times), zero_add, sub_add_cancel]
    refine ⟨?_, ?_, fun hz => ?_⟩
    · rw [hpr, klDiv_gaussLaw hS hG']
      exact ENNReal.ofReal_ne_top
    · rw [hb, hq0]
      linarith [hmax.1]
    · rw [hb] at hz
      obtain ⟨z1, z2⟩ := hmax.2 (by rw [hq0] at hz; linarith)
      rw [hlat, ← z1, z2, sub_add_cancel]

/-! ### predictions -/

/-- `k(x_j, t_i)` for several new times. -/
def crossGramF (k : ℝ → ℝ → Mat o o) (ts : Fin (n + 1) → ℝ) (new : Fin p → ℝ) : Matrix (Fin p × Fin o) (Fin (n + 1) × Fin o) ℝ :=
  Matrix.of fun j i => k (new j.1) (ts i.1) j.2 i.2

/-- The Gaussian process prior in function space: the values at new times given those at the data. -/
theorem gp_predictive {k : ℝ → ℝ → Mat o o} (hsym : ∀ t t', (k t t')ᵀ = k t' t) {ts : Fin (n + 1) → ℝ} (hG : (gpGram k ts).PosDef) (new : Fin p → ℝ)
    (hpsd : (gpGram k (Sum.elim ts new)).PosSemidef) :
    (gpGram k new - crossGramF k ts new * (gpGram k ts)⁻¹ * (crossGramF k ts new)ᵀ).PosSemidef ∧
    ∀ q : Measure (Fin (n + 1) × Fin o → ℝ), IsProbabilityMeasure q →
      IsPredictive ((gpLaw (fun _ => 0) k (Sum.elim ts new)).map atTimes) q
        ((q.prod (gaussLaw 0 (gpGram k new - crossGramF k ts new * (gpGram k ts)⁻¹ * (crossGramF k ts new)ᵀ))).map
          fun x => (x.1, (crossGramF k ts new * (gpGram k ts)⁻¹) *ᵥ x.1 + x.2)) := by
  set P := crossGramF k ts new * (gpGram k ts)⁻¹ with hP
  have hPG : P * gpGram k ts = crossGramF k ts new := by
    rw [hP, Matrix.mul_assoc, nonsing_inv_mul _ (isUnit_det' hG.isUnit), Matrix.mul_one]
  have hGs : (gpGram k ts)ᵀ = gpGram k ts := posDef_tr hG
  have hPt : P * gpGram k ts * Pᵀ = P * (crossGramF k ts new)ᵀ := by
    rw [hPG, hP, transpose_mul, ← Matrix.mul_assoc, transpose_nonsing_inv, hGs]
  have hJe : fromBlocks (gpGram k ts) (P * gpGram k ts)ᵀ (P * gpGram k ts) (gpGram k new) =
      (gpGram k (Sum.elim ts new)).submatrix sumIdx sumIdx := by
    rw [hPG]
    ext i j
    cases i <;> cases j <;> simp [gpGram, crossGramF, sumIdx]
    rw [← hsym, transpose_apply]
  have hJ : (fromBlocks (gpGram k ts) (P * gpGram k ts)ᵀ (P * gpGram k ts) (gpGram k new)).PosSemidef := by
    rw [hJe]
    exact hpsd.submatrix _
  have hR := residual_psd hJ hGs
  rw [hPt] at hR
  refine ⟨hR, fun q hq => ?_⟩
  obtain ⟨κ, hκ, hqk⟩ := exists_kernel P (gpGram k new - P * (crossGramF k ts new)ᵀ)
  refine ⟨κ, hκ, ?_, (hqk q hq).symm⟩
  have hd := gauss_disintegrate hJ hG.posSemidef (0 : Fin (n + 1) × Fin o → ℝ) (0 : Fin p × Fin o → ℝ)
  simp only [sub_zero, zero_add] at hd
  rw [hPt] at hd
  have hpr : (gpLaw (fun _ => 0) k (Sum.elim ts new)).map atTimes =
      ((gaussLaw 0 (gpGram k ts)).prod (gaussLaw 0 (gpGram k new - P * (crossGramF k ts new)ᵀ))).map fun x => (x.1, P *ᵥ x.1 + x.2) := by
    refine Eq.trans ?_ hd
    rw [atTimes_eq, ← Function.comp_def splitV, ← Measure.map_map measurable_splitV (measurable_comp_idx _)]
    congr 1
    have := gaussLaw_comp hpsd 0 (sumIdx (T := Fin (n + 1)) (S := Fin p) (d := o))
    rw [hJe]
    refine Eq.trans this ?_
    congr 1
    funext i; cases i <;> rfl
  have hfst : ((gpLaw (fun _ => 0) k (Sum.elim ts new)).map atTimes).map Prod.fst = gaussLaw 0 (gpGram k ts) := by
    have hmeas : Measurable fun x : (Fin (n + 1) × Fin o → ℝ) × (Fin p × Fin o → ℝ) => (x.1, P *ᵥ x.1 + x.2) :=
      measurable_fst.prodMk ((measurable_mulVec' _ measurable_fst).add measurable_snd)
    rw [hpr, Measure.map_map measurable_fst hmeas]
    exact measurePreserving_fst.map_eq
  rw [hfst, hqk _ inferInstance, hpr]

/-- The law of an affine image plus independent noise. -/
theorem gauss_noisy {ι κ : Type*} [Fintype ι] [DecidableEq ι] [Fintype κ] [DecidableEq κ] {S : Matrix ι ι ℝ} {R : Matrix κ κ ℝ}
    (hS : S.PosSemidef) (hR : R.PosSemidef) (m : ι → ℝ) (P : Matrix κ ι ℝ) :
    ((gaussLaw m S).prod (gaussLaw 0 R)).map (fun x => P *ᵥ x.1 + x.2) = gaussLaw (P *ᵥ m) (P * S * Pᵀ + R) := by
  have hB : (fromBlocks S 0 0 R).PosSemidef := by
    exact posSemidef_blockdiag hS hR
  have := gaussLaw_map_affine hB (Sum.elim m 0) (0 : κ → ℝ) (fromCols P (1 : Matrix κ κ ℝ))
  have hmeas : Measurable fun x : (ι → ℝ) × (κ → ℝ) => P *ᵥ x.1 + x.2 := (measurable_mulVec' _ measurable_fst).add measurable_snd
  rw [gaussLaw_prod hS hR, Measure.map_map hmeas measurable_splitV]
  convert this using 1
  · congr 1
    funext x
    rw [zero_add, ← Sum.elim_comp_inl_inr x, fromCols_mulVec]
    simp [splitV]
    rfl
  · rw [fromCols_mul_fromBlocks, transpose_fromCols, fromCols_mul_fromRows, zero_add, fromCols_mulVec]
    simp

/-- When the law of the states at the data is the prior times sites on the outputs, the outputs at new times follow from those at the data and the
Gaussian process prior alone. -/
theorem outputs_sites {K : Stationary o d} {k} (hK : Builds K k) (hj : K.jitter = 0) {ts : Fin (n + 1) → ℝ} {s : SSM n d}
    (hs : K.stateSpaceModel ts = .ok s) (hG : (gpGram k ts).PosDef) {ℓ : (Fin (n + 1) × Fin o → ℝ) → ℝ} (hℓ : Measurable ℓ)
    {q : Measure (Fin (n + 1) × Fin d → ℝ)} (hb : IsBayesPosterior s.law (fun x => ℓ (outMat K ts *ᵥ x)) q)
    {m : Fin (n + 1) × Fin o → ℝ} {S : Matrix (Fin (n + 1) × Fin o) (Fin (n + 1) × Fin o) ℝ} (hS : S.PosSemidef)
    (hq : q.map (fun x => outMat K ts *ᵥ x) = gaussLaw m S) (new : Fin p → ℝ) {ν} (hν : IsPredictive (priorLaw K ts new) q ν) :
    (ν.map (outputsAt K ts new)).map (fun f (i : Fin p × Fin o) => f (.inr i.1, i.2)) =
      gaussLaw ((crossGramF k ts new * (gpGram k ts)⁻¹) *ᵥ m) ((crossGramF k ts new * (gpGram k ts)⁻¹) * S * (crossGramF k ts new * (gpGram k ts)⁻¹)ᵀ +
        (gpGram k new - crossGramF k ts new * (gpGram k ts)⁻¹ * (crossGramF k ts new)ᵀ)) := by
  have hp := gpLaw_isProb (fun _ => (0 : Vec d)) (stateCov (K.stateTransitions 0) K.Pinf) (Sum.elim ts new)
  have hpr : IsProbabilityMeasure (priorLaw K ts new) :=
    Measure.isProbabilityMeasure_map measurable_atTimes.aemeasurable
  have hb' : IsBayesPosterior ((priorLaw K ts new).map Prod.fst) (fun x => ℓ (outMat K ts *ᵥ x)) q := by
    rw [← (C23_prior_is_kernel hK hj hs new).1]
    exact hb
  have hB := C23_bayes (ℓ := fun x => ℓ (outMat K ts *ᵥ x)) (hℓ.comp (measurable_mulVec _)) hb' hν
  have hB2 : IsBayesPosterior (priorLaw K ts new) (fun x => ℓ (atTimes (outputsAt K ts new x)).1) ν := by
    have e : ∀ x : (Fin (n + 1) × Fin d → ℝ) × (Fin p × Fin d → ℝ), outMat K ts *ᵥ x.1 = (atTimes (outputsAt K ts new x)).1 := fun x => by
      rw [outMat_mulVec]; rfl
    simp only [e] at hB
    exact hB
  have hB3 := IsBayesPosterior.map (ℓ := fun f => ℓ f.1) (measurable_atTimes.comp (measurable_outputsAt K ts new)) (hℓ.comp measurable_fst) hB2
  have hpm : (priorLaw K ts new).map (outputsAt K ts new) = gpLaw (fun _ => 0) k (Sum.elim ts new) := by
    rw [← output_gpLaw hK, priorLaw, Measure.map_map (measurable_outputsAt _ _ _) measurable_atTimes]
    congr 1
    funext x i
    rcases i with ⟨t | t, b⟩ <;> rfl
  rw [← Measure.map_map measurable_atTimes (measurable_outputsAt K ts new), ← Measure.map_map measurable_atTimes (measurable_outputsAt K ts new),
    hpm] at hB3
  -- the same law, from the function values alone
  have hpf := gpLaw_isProb (fun _ => (0 : Vec o)) k (Sum.elim ts new)
  have hpr' : IsProbabilityMeasure ((gpLaw (fun _ => (0 : Vec o)) k (Sum.elim ts new)).map atTimes) :=
    Measure.isProbabilityMeasure_map measurable_atTimes.aemeasurable
  obtain ⟨hR, hpred⟩ := gp_predictive (Builds.good hK).2.2.symm hG new (gpGram_psd hK _)
  have hν' := hpred (gaussLaw m S) inferInstance
  have hfst : ((gpLaw (fun _ => 0) k (Sum.elim ts new)).map atTimes).map Prod.fst = s.law.map (fun x => outMat K ts *ᵥ x) := by
    rw [← hpm, (C23_prior_is_kernel hK hj hs new).1, Measure.map_map measurable_atTimes (measurable_outputsAt K ts new),
      Measure.map_map measurable_fst (measurable_atTimes.comp (measurable_outputsAt K ts new)),
      Measure.map_map (measurable_mulVec _) measurable_fst]
    congr 1
    funext x
    simp only [Function.comp_def, outMat_mulVec]
    rfl
  have hF := IsBayesPosterior.map (measurable_mulVec (outMat K ts)) hℓ hb
  rw [hq, ← hfst] at hF
  have hB4 := C23_bayes hℓ hF hν'
  have huniq := IsBayesPosterior.unique hB3 hB4
  have := congrArg (fun μ => μ.map Prod.snd) huniq
  have hmeas : Measurable fun x : (Fin (n + 1) × Fin o → ℝ) × (Fin p × Fin o → ℝ) => (x.1, (crossGramF k ts new * (gpGram k ts)⁻¹) *ᵥ x.1 + x.2) :=
    measurable_fst.prodMk ((measurable_mulVec' _ measurable_fst).add measurable_snd)
  rw [Measure.map_map measurable_snd measurable_atTimes, Measure.map_map measurable_snd hmeas] at this
  refine Eq.trans this (gauss_noisy hS hR m _)

/-- Predictions of a posterior process whose law of the states at the data is the prior times some function of the outputs. -/
theorem VGP.predict_sites {v : VGP n o d} {k} (h : v.Valid k) (hG : (gpGram k v.times).PosDef) {p₀ : SSM n d}
    (hp : v.kernel.stateSpaceModel v.times = .ok p₀) {ℓ : (Fin (n + 1) × Fin o → ℝ) → ℝ} (hℓ : Measurable ℓ)
    (hb : IsBayesPosterior p₀.law (fun x => ℓ (outMat v.kernel v.times *ᵥ x)) v.q.law)
    {m : Fin (n + 1) × Fin o → ℝ} {S : Matrix (Fin (n + 1) × Fin o) (Fin (n + 1) × Fin o) ℝ} (hS : S.PosSemidef)
    (hq : v.q.law.map (latentOf v.kernel v.meanFunction v.times) = gaussLaw m S) (new : Fin p → ℝ)
    (h0 : ∀ j, v.times 0 ≤ new j) (h1 : ∀ j, new j ≤ v.times (Fin.last n)) :
    ∃ f, v.posterior.predictF new = .ok f ∧ ∀ j, (f j).1 = gpPredictMean v.meanFunction k v.times m (new j) ∧
      (f j).2 = gpPredictCov k v.times S (new j) := by
  obtain ⟨hco, -, -⟩ := Builds.good h.builds
  have hmono := h.times.monotone
  set E := outMat v.kernel v.times with hE
  have hq' : v.q.law.map (fun x => E *ᵥ x) = gaussLaw (m - meanVec v.meanFunction v.times) S := by
    have e1 : (fun x : Ix n d → ℝ => E *ᵥ x) = (fun y => -meanVec v.meanFunction v.times + (1 : Matrix _ _ ℝ) *ᵥ y) ∘ latentOf v.kernel v.meanFunction v.times := by
      funext x
      rw [latentOf_eq]
      simp [hE]
    rw [e1, ← Measure.map_map (measurable_affine _ _) (by rw [latentOf_eq]; exact measurable_affine _ _), hq, gaussLaw_map_affine hS, one_mulVec,
      Matrix.one_mul, transpose_one, Matrix.mul_one, neg_add_eq_sub]
  obtain ⟨r, hr⟩ := C22_succeeds (c := v.posterior) (k := k) h.builds h.noise h.q h.two hmono (new := new)
    (fun j => lt_of_lt_of_le h.lower (h0 j)) (fun j => (h1 j).trans h.upper)
  obtain ⟨f, hf, hfv⟩ := (C45_formulas hr 0).1
  refine ⟨f, hf, fun j => ?_⟩
  have hps := C45_state_psd (c := v.posterior) (k := k) h.builds h.q h.two hmono
    (fun j => lt_of_lt_of_le h.lower (h0 j)) (fun j => (h1 j).trans h.upper) hr j
  obtain ⟨hR, -⟩ := gp_predictive (Builds.good h.builds).2.2.symm hG (fun _ : Fin 1 => new j) (gpGram_psd h.builds _)
  have hr1 := predictState_single (c := v.posterior) h.q h.two hco.pos hr j
  obtain ⟨ν, hν, hm⟩ := C23_interior (c := v.posterior) (k := k) h.builds h.jitter h.q h.two hmono h.lower h.upper
    (fun _ => h0 j) (fun _ => h1 j) hr1
  have ho := outputs_sites h.builds h.jitter hp hG hℓ hb hS hq' (fun _ : Fin 1 => new j) hν
  have key : (gaussLaw (r j).1 (r j).2).map (fun x => v.kernel.emission (new j) *ᵥ x) =
      gaussLaw (crossCov k v.times (new j) *ᵥ ((gpGram k v.times)⁻¹ *ᵥ (m - meanVec v.meanFunction v.times))) (gpPredictCov k v.times S (new j)) := by
    have := congrArg (fun μ => μ.map (fun x => x ∘ fun a : Fin o => ((0 : Fin 1), a))) ho
    have hpsd := (posSemidef_conj' hS (crossGramF k v.times (fun _ : Fin 1 => new j) * (gpGram k v.times)⁻¹)).add hR
    have hsel : Measurable fun (f : (Fin (n + 1) ⊕ Fin 1) × Fin o → ℝ) (i : Fin 1 × Fin o) => f (.inr i.1, i.2) :=
      measurable_pi_lambda _ fun i => measurable_pi_apply _
    have hsel' : Measurable fun (f : Fin 1 × Fin o → ℝ) => f ∘ fun a : Fin o => ((0 : Fin 1), a) :=
      measurable_pi_lambda _ fun i => measurable_pi_apply _
    rw [gaussLaw_comp hpsd, Measure.map_map hsel' hsel, Measure.map_map (hsel'.comp hsel) (measurable_outputsAt _ _ _)] at this
    have hm0 := hm 0
    rw [← hm0, Measure.map_map (measurable_mulVec _) (by fun_prop)]
    refine Eq.trans this ?_
    congr 1
    · rw [mulVec_mulVec]
      rfl
    · unfold gpPredictCov
      rw [add_comm, transpose_mul, transpose_nonsing_inv, posDef_tr hG]
      simp only [Matrix.mul_assoc]
      rfl
  have haff := gaussLaw_map_affine hps (r j).1 (0 : Vec o) (v.kernel.emission (new j))
  simp only [zero_add] at haff
  rw [haff] at key
  have hpost : (gpPredictCov k v.times S (new j)).PosSemidef := by
    have hpsd := (posSemidef_conj' hS (crossGramF k v.times (fun _ : Fin 1 => new j) * (gpGram k v.times)⁻¹)).add hR
    refine Eq.mp ?_ (hpsd.submatrix fun a : Fin o => ((0 : Fin 1), a))
    congr 1
    unfold gpPredictCov
    rw [add_comm, transpose_mul, transpose_nonsing_inv, posDef_tr hG]
    simp only [Matrix.mul_assoc]
    rfl
  obtain ⟨e1, e2⟩ := (SSM.gaussLaw_inj (posSemidef_conj' hps _) hpost).1 key
  obtain ⟨f1, f2⟩ := hfv j
  have f1' : (f j).1 = v.meanFunction (new j) + v.kernel.emission (new j) *ᵥ (r j).1 := by
    rw [f1]
    exact add_comm _ _
  have f2' : (f j).2 = v.kernel.emission (new j) * (r j).2 * (v.kernel.emission (new j))ᵀ := f2
  exact ⟨by rw [f1', e1]; rfl, by rw [f2', e2]⟩


/-- C78, predictions: at the optimum, the predictions of the posterior process at times within the range of the data are those of the Gaussian
process prior conditioned on the law of the function values at the data: the state-space model leaves no trace in them. -/
theorem C78_predict {v : VGP n o d} {k} (h : v.Valid k) (hd : DifferentiableVarExp v.likelihood) (hG : (gpGram k v.times).PosDef)
    {e : ℝ} (hev : v.elbo = .ok e)
    (hbest : ∀ s : SSM n d, s.Nondegenerate → ∃ e', ({ v with q := s } : VGP n o d).elbo = .ok e' ∧ e' ≤ e)
    {m : Fin (n + 1) × Fin o → ℝ} {S : Matrix (Fin (n + 1) × Fin o) (Fin (n + 1) × Fin o) ℝ} (hS : S.PosSemidef)
    (hq : v.q.law.map (latentOf v.kernel v.meanFunction v.times) = gaussLaw m S) (new : Fin p → ℝ)
    (h0 : ∀ j, v.times 0 ≤ new j) (h1 : ∀ j, new j ≤ v.times (Fin.last n)) :
    ∃ f, v.posterior.predictF new = .ok f ∧ ∀ j, (f j).1 = gpPredictMean v.meanFunction k v.times m (new j) ∧
      (f j).2 = gpPredictCov k v.times S (new j) := by
  have hem := fun t a => emission_ne_zero h.builds hG t a
  have hval : ∀ s : SSM n d, s.Nondegenerate → ({ v with q := s } : VGP n o d).elbo = .ok (-v.lossOf s) := fun s hs => by
    obtain ⟨e, he1, he2⟩ := VGP.loss_ok (v := { v with q := s }) (k := k) ⟨h.builds, h.noise, h.jitter, h.times, h.lower, h.upper, h.two, hs⟩
    have : v.lossOf s = -e := by
      unfold VGP.lossOf
      rw [he2]
    rw [this, neg_neg, he1]
  have hmin : ∀ s : SSM n d, s.Nondegenerate → v.lossOf v.q ≤ v.lossOf s := fun s hs => by
    obtain ⟨e', a1, a2⟩ := hbest s hs
    rw [hval s hs] at a1
    have := Except.ok.inj a1
    have := Except.ok.inj (hev.symm.trans (hval v.q h.q))
    linarith
  obtain ⟨p, g, hp, hpn, hp0, k1, k2, -, -⟩ := VGP.optimum_sites h hd hem hmin
  set E := outMat v.kernel v.times with hE
  -- the state law is the prior times sites on the outputs
  have hb : IsBayesPosterior p.law (fun x => (fun f : Fin (n + 1) × Fin o → ℝ => (fun i => (g i).1) ⬝ᵥ f +
      f ⬝ᵥ (Matrix.diagonal (fun i => (g i).2) *ᵥ f)) (E *ᵥ x)) v.q.law := by
    have := (bayes_natural (M := Eᵀ * Matrix.diagonal (fun i => (g i).2) * E) (μ := stk p.mus) (μ' := stk v.q.mus) (l := Eᵀ *ᵥ fun i => (g i).1)
      (SSM.Kd_posDef hpn) (SSM.Kd_posDef h.q) (by
        rw [k1, sub_eq_add_neg]
        congr 1
        rw [← neg_smul, ← Matrix.smul_mul, ← Matrix.mul_smul]
        congr 2
        rw [← Matrix.diagonal_smul]
        rfl) (by rw [k2, hp0, mulVec_zero, zero_add])).1
    rw [← SSM.law_eq_gauss, ← SSM.law_eq_gauss] at this
    refine Eq.mp ?_ this
    congr 1
    funext x
    rw [mulVec_transpose, ← dotProduct_mulVec, Matrix.mul_assoc, ← mulVec_mulVec, ← mulVec_mulVec, dotProduct_mulVec x, vecMul_transpose]
  exact VGP.predict_sites h hG hp (measurable_quad _ _) hb hS hq new h0 h1

end MF
