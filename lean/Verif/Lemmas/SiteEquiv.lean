import Verif.Props.Envelope

/-!
# Sites in function space: existence and moments of `dist_q` in terms of the Gram matrix, for any sites
-/

namespace MF
open Matrix Spec MeasureTheory ProbabilityTheory InformationTheory
variable {n o d p : ℕ}

/-- A prior times sites on the outputs is a proper distribution of the states exactly if it is one of the outputs. -/
theorem posDef_sites_iff {ι κ : Type*} [Fintype ι] [DecidableEq ι] [Fintype κ] [DecidableEq κ] {P : Matrix ι ι ℝ} (hP : P.PosDef)
    {E : Matrix κ ι ℝ} {b : Matrix κ κ ℝ} (hG : (E * P * Eᵀ).PosDef) :
    (P⁻¹ + Eᵀ * b * E).PosDef ↔ ((E * P * Eᵀ)⁻¹ + b).PosDef := by
  have hPu := isUnit_det' hP.isUnit
  have hGu := isUnit_det' hG.isUnit
  constructor
  · intro h
    have hinj : Function.Injective E.vecMul := fun x x' hx => by
      by_contra hne
      have hp := hG.dotProduct_mulVec_pos (x := x - x') (sub_ne_zero.2 hne)
      rw [star_trivial, ← mulVec_mulVec, mulVec_transpose, Matrix.sub_vecMul, show x ᵥ* E = x' ᵥ* E from hx, sub_self, mulVec_zero, dotProduct_zero] at hp
      exact lt_irrefl _ hp
    have h1 := marginal_site (K' := (P⁻¹ + Eᵀ * b * E)⁻¹) hP h.inv (E := E) (b := b) (nonsing_inv_nonsing_inv _ (isUnit_det' h.isUnit)) hG
    rw [← h1, ← conjTranspose_eq_transpose_of_trivial]
    exact (h.inv.mul_mul_conjTranspose_same hinj).inv
  · intro h
    set G := E * P * Eᵀ with hGd
    set W : Matrix ι ι ℝ := 1 - P * Eᵀ * G⁻¹ * E with hW
    have hPs : Pᵀ = P := posDef_tr hP
    have hGs : Gᵀ = G := posDef_tr hG
    have hWP : Wᵀ * P⁻¹ * W = P⁻¹ - Eᵀ * G⁻¹ * E := by
      have e1 : Wᵀ * P⁻¹ = P⁻¹ - Eᵀ * G⁻¹ * E := by
        rw [hW, transpose_sub, transpose_one, Matrix.sub_mul, Matrix.one_mul, Matrix.transpose_mul, Matrix.transpose_mul, Matrix.transpose_mul,
          transpose_transpose, transpose_nonsing_inv, hGs, hPs]
        congr 1
        rw [Matrix.mul_assoc, Matrix.mul_assoc, Matrix.mul_assoc, mul_nonsing_inv _ hPu, Matrix.mul_one, Matrix.mul_assoc]
      rw [e1, hW, Matrix.mul_sub, Matrix.mul_one]
      have e2 : (P⁻¹ - Eᵀ * G⁻¹ * E) * (P * Eᵀ * G⁻¹ * E) = 0 := by
        rw [Matrix.sub_mul]
        have a1 : P⁻¹ * (P * Eᵀ * G⁻¹ * E) = Eᵀ * G⁻¹ * E := by
          simp only [← Matrix.mul_assoc]
          rw [nonsing_inv_mul _ hPu, Matrix.one_mul]
        have a2 : Eᵀ * G⁻¹ * E * (P * Eᵀ * G⁻¹ * E) = Eᵀ * G⁻¹ * E := by
          rw [show Eᵀ * G⁻¹ * E * (P * Eᵀ * G⁻¹ * E) = Eᵀ * (G⁻¹ * (E * P * Eᵀ)) * G⁻¹ * E by simp only [Matrix.mul_assoc], ← hGd,
            nonsing_inv_mul _ hGu, Matrix.mul_one]
        rw [a1, a2, sub_self]
      rw [e2, sub_zero]
    have hsplit : P⁻¹ + Eᵀ * b * E = Eᵀ * (G⁻¹ + b) * E + Wᵀ * P⁻¹ * W := by
      rw [hWP, Matrix.mul_add, Matrix.add_mul]
      abel
    rw [hsplit]
    have q1 : (Eᵀ * (G⁻¹ + b) * E).PosSemidef := by
      have := posSemidef_conj' h.posSemidef Eᵀ
      rwa [transpose_transpose] at this
    have q2 : (Wᵀ * P⁻¹ * W).PosSemidef := by
      have := posSemidef_conj' hP.inv.posSemidef Wᵀ
      rwa [transpose_transpose] at this
    refine PosDef.of_dotProduct_mulVec_pos (q1.add q2).1 fun x hx => ?_
    rw [star_trivial, add_mulVec, dotProduct_add]
    have v1 := q1.dotProduct_mulVec_nonneg x
    have v2 := q2.dotProduct_mulVec_nonneg x
    rw [star_trivial] at v1 v2
    by_cases hE : E *ᵥ x = 0
    · have hWx : W *ᵥ x = x := by
        rw [hW, sub_mulVec, one_mulVec, ← mulVec_mulVec, hE, mulVec_zero, sub_zero]
      have : 0 < x ⬝ᵥ ((Wᵀ * P⁻¹ * W) *ᵥ x) := by
        rw [← mulVec_mulVec, hWx, ← mulVec_mulVec, mulVec_transpose, dotProduct_comm, ← dotProduct_mulVec, hWx]
        have := hP.inv.dotProduct_mulVec_pos hx
        rwa [star_trivial, dotProduct_comm] at this
      linarith
    · have : 0 < x ⬝ᵥ ((Eᵀ * (G⁻¹ + b) * E) *ᵥ x) := by
        rw [← mulVec_mulVec, ← mulVec_mulVec, mulVec_transpose, dotProduct_comm, ← dotProduct_mulVec]
        have := h.dotProduct_mulVec_pos hE
        rwa [star_trivial, dotProduct_comm] at this
      linarith

theorem backProject_second (K : Stationary 1 d) (ts : Fin (n + 1) → ℝ) (s : UnivariateSites (n + 1)) :
    -((2 : ℝ) • denseSym (backProjectNats s.nat1 (fun t a => s.nat2 t a 0) fun t => K.emission (ts t)).2 (0 : Fin n → Mat d d)) =
      (outMat K ts)ᵀ * sitePrec s * outMat K ts := by
  apply blk_ext
  intro b c
  ext i j
  have hR : ((outMat K ts)ᵀ * sitePrec s * outMat K ts) (b, i) (c, j) = if b = c then -2 * s.nat2 b 0 0 * K.emission (ts b) 0 i * K.emission (ts c) 0 j else 0 := by
    rw [Matrix.mul_apply]
    simp only [sitePrec, Matrix.mul_diagonal, transpose_apply, outMat, Matrix.of_apply, Fintype.sum_prod_type, Fin.sum_univ_one]
    by_cases hbc : b = c
    · subst hbc
      rw [Finset.sum_eq_single b]
      · simp only [if_true]
        ring
      · intro t _ ht
        simp [ht]
      · simp
    · rw [if_neg hbc]
      refine Finset.sum_eq_zero fun t _ => ?_
      by_cases h1 : t = b
      · subst h1; simp [hbc]
      · simp [h1]
  show (-((2 : ℝ) • denseSym _ _)) (b, i) (c, j) = ((outMat K ts)ᵀ * sitePrec s * outMat K ts) (b, i) (c, j)
  rw [hR, Matrix.neg_apply, Matrix.smul_apply]
  show -((2 : ℝ) • symBlk _ _ b c i j) = _
  unfold symBlk
  by_cases hbc : b = c
  · subst hbc
    simp only [if_true, backProjectNats, Matrix.of_apply, Fin.sum_univ_one, smul_eq_mul]
    ring
  · rw [if_neg hbc, if_neg hbc]
    simp

theorem backProject_first (K : Stationary 1 d) (ts : Fin (n + 1) → ℝ) (s : UnivariateSites (n + 1)) :
    stk (backProjectNats s.nat1 (fun t a => s.nat2 t a 0) fun t => K.emission (ts t)).1 = (outMat K ts)ᵀ *ᵥ siteFirst s := by
  funext i
  simp only [stk, backProjectNats, mulVec, dotProduct, transpose_apply, outMat, Matrix.of_apply, Fintype.sum_prod_type, Fin.sum_univ_one, siteFirst]
  rw [Finset.sum_eq_single i.1]
  · simp
  · intro t _ ht
    simp [ht]
  · simp

/-- `dist_q` in function space: for any sites it can be built exactly if the Gram matrix and the sites define a proper distribution of the function
values, and then that is the law of the function values. -/
theorem CVI.distQ_functions {c : CVI n d} {k} (h : c.Valid k) (hG : (gpGram k c.times).PosDef) :
    (((gpGram k c.times)⁻¹ + sitePrec c.sites).PosDef → ∃ (s q : SSM n d), c.kernel.stateSpaceModel c.times = .ok s ∧ c.distQ = .ok q ∧ q.Nondegenerate ∧
      q.law.map (latentOf c.kernel (fun _ => 0) c.times) =
        gaussLaw (((gpGram k c.times)⁻¹ + sitePrec c.sites)⁻¹ *ᵥ siteFirst c.sites) ((gpGram k c.times)⁻¹ + sitePrec c.sites)⁻¹ ∧
      IsBayesPosterior s.law (fun x => siteLogLik (fun t => c.sites.nat1 t 0) (fun t => c.sites.nat2 t 0 0) (latent1 c.kernel c.times x)) q.law ∧
      gaussKL (stk q.mus) q.Kd 0 s.Kd =
        gaussKL (((gpGram k c.times)⁻¹ + sitePrec c.sites)⁻¹ *ᵥ siteFirst c.sites) ((gpGram k c.times)⁻¹ + sitePrec c.sites)⁻¹ 0 (gpGram k c.times)) ∧
    (¬ ((gpGram k c.times)⁻¹ + sitePrec c.sites).PosDef → c.distQ = .error .invalidArgument) := by
  obtain ⟨s, hs, hsn⟩ := kernel_ssm_nondegenerate h.builds h.noise h.two h.times
  obtain ⟨hco, -, hD⟩ := Builds.good h.builds
  have hs0 : stk s.mus = 0 := (kernel_moments h.builds h.jitter hs).1
  have hGe : outMat c.kernel c.times * s.Kd * (outMat c.kernel c.times)ᵀ = gpGram k c.times := by
    rw [(kernel_moments h.builds h.jitter hs).2, outMat_conj hD]
  have hGp : (outMat c.kernel c.times * s.Kd * (outMat c.kernel c.times)ᵀ).PosDef := by rw [hGe]; exact hG
  have hiff := posDef_sites_iff (SSM.Kd_posDef hsn) hGp (b := sitePrec c.sites)
  rw [hGe, ← backProject_second, ← sub_eq_add_neg] at hiff
  obtain ⟨h1, h2⟩ := CVI.distQ_cases (c := c) hs hsn hs0 h.two hco.pos
  refine ⟨fun hJ => ?_, fun hJ => h2 (mt hiff.1 hJ)⟩
  have hPJ := hiff.2 hJ
  obtain ⟨q, hq, hqn, hqb⟩ := h1 hPJ
  have hdq : c.distQ = naturalsToSSM (backProjectNats c.sites.nat1 (fun t a => c.sites.nat2 t a 0) fun t => c.kernel.emission (c.times t)).1
      (fun b => (-(1 / 2) : ℝ) • s.precD b + (backProjectNats c.sites.nat1 (fun t a => c.sites.nat2 t a 0) fun t => c.kernel.emission (c.times t)).2 b)
      (fun k => -s.precS k + (2 : ℝ) • (0 : Fin n → Mat d d) k) := by
    unfold CVI.distQ CVI.distP
    rw [hs]
    simp only [bind, Except.bind, SSM.precision_eq hsn h.two, Option.getD_some, Pi.zero_apply, smul_zero, add_zero]
  obtain ⟨q', hq', -, k1, k2, -⟩ := (naturals_posterior hsn hs0 h.two hco.pos _ _ (0 : Fin n → Mat d d) (backProject_symm _ _ c.sites.nat1 _)).1 hPJ
  obtain rfl : q = q' := Except.ok.inj (hq.symm.trans (hdq.trans hq'))
  have hqK := SSM.Kd_posDef hqn
  rw [sub_eq_add_neg, backProject_second] at k1
  rw [backProject_first] at k2
  have k2' : q.Kd⁻¹ *ᵥ stk q.mus = (outMat c.kernel c.times)ᵀ *ᵥ siteFirst c.sites := by
    rw [k2, mulVec_mulVec, nonsing_inv_mul _ (isUnit_det' hqK.isUnit), one_mulVec]
  have hS' : (outMat c.kernel c.times * q.Kd * (outMat c.kernel c.times)ᵀ).PosDef := by
    rw [← conjTranspose_eq_transpose_of_trivial]
    exact hqK.mul_mul_conjTranspose_same (outMat_vecMul_inj h.builds hG)
  obtain ⟨j1, j2, j3⟩ := gaussKL_marginal (SSM.Kd_posDef hsn) hqK k1 k2' hGp hS'
  rw [hGe] at j1 j3
  have hSe : ((gpGram k c.times)⁻¹ + sitePrec c.sites)⁻¹ = outMat c.kernel c.times * q.Kd * (outMat c.kernel c.times)ᵀ := by
    rw [← j1, nonsing_inv_nonsing_inv _ (isUnit_det' hS'.isUnit)]
  have hme : (outMat c.kernel c.times * q.Kd * (outMat c.kernel c.times)ᵀ) *ᵥ siteFirst c.sites = outMat c.kernel c.times *ᵥ stk q.mus := by
    rw [← j2, mulVec_mulVec, mul_nonsing_inv _ (isUnit_det' hS'.isUnit), one_mulVec]
  refine ⟨s, q, hs, hq, hqn, ?_, hqb, ?_⟩
  · rw [hSe, hme, latentOf_gauss, outMat_mulVec]
    congr 1
    funext i
    simp
    try rfl
  · rw [hSe, hme, j3]

end MF
