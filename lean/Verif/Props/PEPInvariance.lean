import Verif.Props.HistoryInvarianceUse
import Verif.Props.PEP

/-!
# C80: power expectation propagation depends on the data and the covariance function only
-/

namespace MF
open Matrix Spec MeasureTheory ProbabilityTheory
variable {n d d' p : ℕ}

/-- The cavities in function space: from the marginal `N(m, v)` of `f_t`, precision `1/v + 2 alpha nat2` and first parameter `m/v - alpha nat1`. All exist
exactly if all these precisions are positive. -/
theorem PEP.cavity_functions (c : PEP n d) {q : SSM n d} (hq : q.Nondegenerate) (hrow : ∀ t, 0 < c.row t ⬝ᵥ (blk q.Kd t t *ᵥ c.row t)) :
    ((∀ t, 0 < (c.row t ⬝ᵥ (blk q.Kd t t *ᵥ c.row t))⁻¹ + 2 * c.alpha * c.sites.nat2 t 0 0) → c.cavityFromMarginals (q.mus, fun t => blk q.Kd t t) =
      .ok (fun t _ => ((c.row t ⬝ᵥ (blk q.Kd t t *ᵥ c.row t))⁻¹ + 2 * c.alpha * c.sites.nat2 t 0 0)⁻¹ *
            ((c.row t ⬝ᵥ (blk q.Kd t t *ᵥ c.row t))⁻¹ * (c.row t ⬝ᵥ q.mus t) - c.alpha * c.sites.nat1 t 0),
        fun t _ => ((c.row t ⬝ᵥ (blk q.Kd t t *ᵥ c.row t))⁻¹ + 2 * c.alpha * c.sites.nat2 t 0 0)⁻¹)) ∧
    (¬ (∀ t, 0 < (c.row t ⬝ᵥ (blk q.Kd t t *ᵥ c.row t))⁻¹ + 2 * c.alpha * c.sites.nat2 t 0 0) →
      c.cavityFromMarginals (q.mus, fun t => blk q.Kd t t) = .error .invalidArgument) := by
  set E : Fin (n + 1) → Matrix Unit (Fin d) ℝ := fun t => replicateRow Unit (c.row t) with hE
  set B : Fin (n + 1) → Matrix Unit Unit ℝ := fun t => Matrix.of fun _ _ => 2 * c.alpha * c.sites.nat2 t 0 0 with hB
  have hK : ∀ t, (blk q.Kd t t).PosDef := fun t => posDef_blk (SSM.Kd_posDef hq) t
  have scal : ∀ (x : Matrix Unit Unit ℝ), x.PosDef ↔ 0 < x () () := fun x => by
    refine ⟨fun h => h.diag_pos, fun h => ?_⟩
    rw [show x = Matrix.diagonal fun _ => x () () by ext i j; simp [Matrix.diagonal]]
    exact Matrix.PosDef.diagonal fun _ => h
  have sinv : ∀ (x : Matrix Unit Unit ℝ), x () () ≠ 0 → x⁻¹ () () = (x () ())⁻¹ := fun x h => by
    have h1 : x * (Matrix.of fun _ _ => (x () ())⁻¹ : Matrix Unit Unit ℝ) = 1 := by
      ext i j
      simp [Matrix.mul_apply, h]
    rw [Matrix.inv_eq_right_inv h1]
    rfl
  have hEK : ∀ (t) (M : Mat d d), (E t * M * (E t)ᵀ) () () = c.row t ⬝ᵥ (M *ᵥ c.row t) := fun t M => by
    simp only [hE, Matrix.mul_assoc]
    rfl
  have hG : ∀ t, (E t * blk q.Kd t t * (E t)ᵀ).PosDef := fun t => by
    rw [scal, hEK]
    exact hrow t
  have hcp : ∀ t, c.cavPrec q t = (blk q.Kd t t)⁻¹ + (E t)ᵀ * B t * E t := fun t => by
    unfold PEP.cavPrec
    congr 1
    ext i j
    simp only [Matrix.mul_apply, hE, hB, Matrix.smul_apply, vecMulVec_apply, smul_eq_mul, Finset.univ_unique, Finset.sum_singleton, transpose_apply, replicateRow_apply,
      of_apply]
    ring
  have hiff : ∀ t, (c.cavPrec q t).PosDef ↔ 0 < (c.row t ⬝ᵥ (blk q.Kd t t *ᵥ c.row t))⁻¹ + 2 * c.alpha * c.sites.nat2 t 0 0 := fun t => by
    rw [hcp, posDef_sites_iff (hK t) (hG t), scal, Matrix.add_apply, sinv _ (by rw [hEK]; exact (hrow t).ne'), hEK]
    rfl
  obtain ⟨h1, h2⟩ := c.cavity_cases hq
  refine ⟨fun hp => ?_, fun hp => h2 fun h => hp fun t => (hiff t).1 (h t)⟩
  have hpd : ∀ t, (c.cavPrec q t).PosDef := fun t => (hiff t).2 (hp t)
  rw [h1 hpd]
  have hvar : ∀ t, c.row t ⬝ᵥ ((c.cavPrec q t)⁻¹ *ᵥ c.row t) = ((c.row t ⬝ᵥ (blk q.Kd t t *ᵥ c.row t))⁻¹ + 2 * c.alpha * c.sites.nat2 t 0 0)⁻¹ ∧
      c.row t ⬝ᵥ ((c.cavPrec q t)⁻¹ *ᵥ c.cavLin q t) = ((c.row t ⬝ᵥ (blk q.Kd t t *ᵥ c.row t))⁻¹ + 2 * c.alpha * c.sites.nat2 t 0 0)⁻¹ *
            ((c.row t ⬝ᵥ (blk q.Kd t t *ᵥ c.row t))⁻¹ * (c.row t ⬝ᵥ q.mus t) - c.alpha * c.sites.nat1 t 0) := fun t => by
    have hu := isUnit_det' (hpd t).isUnit
    have hK' : (c.cavPrec q t)⁻¹⁻¹ = (blk q.Kd t t)⁻¹ + (E t)ᵀ * B t * E t := by
      rw [nonsing_inv_nonsing_inv _ hu, hcp]
    have m1 := marginal_site (hK t) (hpd t).inv hK' (hG t)
    have hl : (c.cavPrec q t)⁻¹⁻¹ *ᵥ ((c.cavPrec q t)⁻¹ *ᵥ c.cavLin q t) = (blk q.Kd t t)⁻¹ *ᵥ q.mus t + (E t)ᵀ *ᵥ fun _ => -(c.alpha * c.sites.nat1 t 0) := by
      rw [nonsing_inv_nonsing_inv _ hu, mulVec_mulVec, mul_nonsing_inv _ hu, one_mulVec, PEP.cavLin, sub_eq_add_neg]
      congr 1
      funext i
      simp only [Pi.neg_apply, Pi.smul_apply, smul_eq_mul, mulVec, dotProduct, hE, transpose_apply, replicateRow_apply, Finset.univ_unique, Finset.sum_singleton]
      ring
    have m2 := marginal_site_mean (hK t) (hpd t).inv hK' (hG t) hl
    have n1 := congrFun (congrFun m1 ()) ()
    have hpos : 0 < c.row t ⬝ᵥ ((c.cavPrec q t)⁻¹ *ᵥ c.row t) := by
      have hr : c.row t ≠ 0 := fun h0 => by
        have := hrow t
        rw [h0, zero_dotProduct] at this
        exact lt_irrefl _ this
      have := (hpd t).inv.dotProduct_mulVec_pos hr
      rwa [star_trivial] at this
    rw [sinv _ (by rw [hEK]; exact hpos.ne'), hEK, Matrix.add_apply, sinv _ (by rw [hEK]; exact (hrow t).ne'), hEK] at n1
    have n1' : (c.row t ⬝ᵥ ((c.cavPrec q t)⁻¹ *ᵥ c.row t))⁻¹ = (c.row t ⬝ᵥ (blk q.Kd t t *ᵥ c.row t))⁻¹ + 2 * c.alpha * c.sites.nat2 t 0 0 := n1
    have n2 := congrFun m2 ()
    have smul : ∀ (x : Matrix Unit Unit ℝ) (w : Unit → ℝ), (x *ᵥ w) () = x () () * w () := fun x w => by
      simp [mulVec, dotProduct]
    have erow : ∀ w : Vec d, (E t *ᵥ w) () = c.row t ⬝ᵥ w := fun w => rfl
    rw [Pi.add_apply, smul, smul, sinv _ (by rw [hEK]; exact hpos.ne'), sinv _ (by rw [hEK]; exact (hrow t).ne'), hEK, hEK, erow, erow, n1'] at n2
    refine ⟨by rw [← n1', inv_inv], ?_⟩
    rw [sub_eq_add_neg, ← n2, ← mul_assoc, inv_mul_cancel₀ (hp t).ne', one_mul]
  congr 1
  refine Prod.ext ?_ ?_
  · funext t a
    exact (hvar t).2
  · funext t a
    exact (hvar t).1

/-- The marginals of the function values under the current posterior, in function space. -/
theorem PEP.marginals_functions {c : PEP n d} {k} (h : c.toBase.Valid k) (hG : (gpGram k c.times).PosDef)
    (hJ : ((gpGram k c.times)⁻¹ + sitePrec c.sites).PosDef) : ∃ q, c.distQ = .ok q ∧ q.Nondegenerate ∧ ∀ t,
      c.row t ⬝ᵥ q.mus t = (((gpGram k c.times)⁻¹ + sitePrec c.sites)⁻¹ *ᵥ siteFirst c.sites) (t, 0) ∧
      c.row t ⬝ᵥ (blk q.Kd t t *ᵥ c.row t) = ((gpGram k c.times)⁻¹ + sitePrec c.sites)⁻¹ (t, 0) (t, 0) ∧
      0 < c.row t ⬝ᵥ (blk q.Kd t t *ᵥ c.row t) := by
  obtain ⟨s, q, hs, hq, hqn, hlaw, -, -⟩ := (CVI.distQ_functions h hG).1 hJ
  have hJ' : ((gpGram k c.toBase.times)⁻¹ + sitePrec c.toBase.sites).PosDef := hJ
  rw [latentOf_gauss] at hlaw
  obtain ⟨e1, e2⟩ := (SSM.gaussLaw_inj (posSemidef_conj' (SSM.Kd_posDef hqn).posSemidef _) hJ'.inv.posSemidef).1 hlaw
  refine ⟨q, hq, hqn, fun t => ?_⟩
  have a1 : c.row t ⬝ᵥ (blk q.Kd t t *ᵥ c.row t) = ((gpGram k c.times)⁻¹ + sitePrec c.sites)⁻¹ (t, 0) (t, 0) := by
    have := congrFun (congrFun e2 (t, 0)) (t, 0)
    rw [outMat_conj_diag] at this
    refine Eq.trans ?_ this
    rw [Matrix.mul_assoc]
    rfl
  refine ⟨?_, a1, ?_⟩
  · have := congrFun e1 (t, 0)
    rw [Pi.zero_apply, add_zero] at this
    exact this
  · rw [a1]
    exact hJ.inv.diag_pos

/-- `compute_cavity` works on the marginals of `dist_q`. -/
theorem PEP.computeCavity_eq {c : PEP n d} {k} (h : c.toBase.Valid k) {q} (hq : c.distQ = .ok q) (hqn : q.Nondegenerate) :
    c.computeCavity = c.cavityFromMarginals (q.mus, fun t => blk q.Kd t t) := by
  obtain ⟨hco, -, -⟩ := Builds.good h.builds
  unfold PEP.computeCavity
  rw [hq]
  simp only [bind, Except.bind, SSM.marginals_eq hqn h.two hco.pos]

/-- Two power EP models that pose the same problem: the data, the covariance functions and the sites agree as in `CVI.SameProblem`, and the likelihood, the
power and the recorded normalisers are the same. -/
structure PEP.SameProblem (φ : ℝ → ℝ) (σ : Equiv.Perm (Fin (n + 1))) (k k' : ℝ → ℝ → Mat 1 1) (c : PEP n d) (c' : PEP n d') : Prop where
  base : CVI.SameProblem φ σ k k' c.toBase c'.toBase
  likelihood : c'.likelihood = c.likelihood
  alpha : c'.alpha = c.alpha
  logNorm : ∀ i, c'.logNorm (σ i) = c.logNorm i

theorem PEP.mask_relabel (σ : Equiv.Perm (Fin (n + 1))) (i : Option (List (Fin (n + 1)))) (t : Fin (n + 1)) :
    PEP.maskIndices (i.map fun l => l.map σ) (σ t) = PEP.maskIndices i t := by
  cases i with
  | none => rfl
  | some l =>
    show PEP.maskIndices (some (l.map σ)) (σ t) = _
    rw [PEP.mask_count, PEP.mask_count, List.count_map_of_injective _ _ σ.injective]

/-- The three cases of a call on two models of the same problem: the posteriors of both cannot be built; a cavity of both does not exist; both work, and the
cavities, the posterior marginals are the same. -/
theorem PEP.SameProblem.cases {φ : ℝ → ℝ} {σ : Equiv.Perm (Fin (n + 1))} {k k' : ℝ → ℝ → Mat 1 1} {c : PEP n d} {c' : PEP n d'}
    (h : PEP.SameProblem φ σ k k' c c') (hG : (gpGram k c.times).PosDef) :
    (c.distQ = .error .invalidArgument ∧ c'.distQ = .error .invalidArgument) ∨
    ∃ (q : SSM n d) (q' : SSM n d'), c.distQ = .ok q ∧ c'.distQ = .ok q' ∧ q.Nondegenerate ∧ q'.Nondegenerate ∧
      (∀ t, c'.row (σ t) ⬝ᵥ q'.mus (σ t) = c.row t ⬝ᵥ q.mus t ∧
        c'.row (σ t) ⬝ᵥ (blk q'.Kd (σ t) (σ t) *ᵥ c'.row (σ t)) = c.row t ⬝ᵥ (blk q.Kd t t *ᵥ c.row t)) ∧
      ((c.computeCavity = .error .invalidArgument ∧ c'.computeCavity = .error .invalidArgument) ∨
        ∃ m v m' v', c.computeCavity = .ok (m, v) ∧ c'.computeCavity = .ok (m', v') ∧
          ∀ t, m' (σ t) 0 = m t 0 ∧ v' (σ t) 0 = v t 0 ∧ 0 < v t 0) := by
  have hb := h.base
  have hG' : (gpGram k' c'.times).PosDef := hb.gram_posDef hG
  have hsites : ∀ t, c'.sites.nat1 (σ t) = c.sites.nat1 t ∧ c'.sites.nat2 (σ t) = c.sites.nat2 t := fun t => ⟨hb.nat1 t, hb.nat2 t⟩
  by_cases hJ : ((gpGram k c.times)⁻¹ + sitePrec c.sites).PosDef
  · have hJ' : ((gpGram k' c'.times)⁻¹ + sitePrec c'.sites).PosDef := by
      have := hJ
      rw [show (gpGram k c.times)⁻¹ + sitePrec c.sites = _ from hb.total] at this
      exact (posDef_relabel _).1 this
    obtain ⟨q, hq, hqn, hm⟩ := PEP.marginals_functions hb.valid hG hJ
    obtain ⟨q', hq', hqn', hm'⟩ := PEP.marginals_functions hb.valid' hG' hJ'
    have hv : ∀ t, ((gpGram k' c'.times)⁻¹ + sitePrec c'.sites)⁻¹ (σ t, 0) (σ t, 0) = ((gpGram k c.times)⁻¹ + sitePrec c.sites)⁻¹ (t, 0) (t, 0) := fun t => by
      rw [show (gpGram k c.times)⁻¹ + sitePrec c.sites = _ from hb.total, Matrix.inv_submatrix_equiv]
      rfl
    have hmn : ∀ t, (((gpGram k' c'.times)⁻¹ + sitePrec c'.sites)⁻¹ *ᵥ siteFirst c'.sites) (σ t, 0) =
        (((gpGram k c.times)⁻¹ + sitePrec c.sites)⁻¹ *ᵥ siteFirst c.sites) (t, 0) := fun t => (congrFun hb.mean (t, 0)).symm
    have f1 : ∀ t, c'.row (σ t) ⬝ᵥ q'.mus (σ t) = c.row t ⬝ᵥ q.mus t := fun t => by rw [(hm' _).1, hmn, (hm t).1]
    have f2 : ∀ t, c'.row (σ t) ⬝ᵥ (blk q'.Kd (σ t) (σ t) *ᵥ c'.row (σ t)) = c.row t ⬝ᵥ (blk q.Kd t t *ᵥ c.row t) := fun t => by
      rw [(hm' _).2.1, hv, (hm t).2.1]
    refine .inr ⟨q, q', hq, hq', hqn, hqn', fun t => ⟨f1 t, f2 t⟩, ?_⟩
    obtain ⟨c1, c2⟩ := c.cavity_functions hqn fun t => (hm t).2.2
    obtain ⟨c1', c2'⟩ := c'.cavity_functions hqn' fun t => (hm' t).2.2
    rw [PEP.computeCavity_eq hb.valid hq hqn, PEP.computeCavity_eq hb.valid' hq' hqn']
    by_cases hp : ∀ t, 0 < (c.row t ⬝ᵥ (blk q.Kd t t *ᵥ c.row t))⁻¹ + 2 * c.alpha * c.sites.nat2 t 0 0
    · have hp' : ∀ t, 0 < (c'.row t ⬝ᵥ (blk q'.Kd t t *ᵥ c'.row t))⁻¹ + 2 * c'.alpha * c'.sites.nat2 t 0 0 := fun t => by
        have := hp (σ.symm t)
        rw [← f2, ← (hsites _).2, ← h.alpha, Equiv.apply_symm_apply] at this
        exact this
      refine .inr ⟨_, _, _, _, c1 hp, c1' hp', fun t => ⟨?_, ?_, inv_pos.2 (hp t)⟩⟩
      · show _ * (_ - _) = _ * (_ - _)
        rw [f1, f2, (hsites t).1, (hsites t).2, h.alpha]
      · show _⁻¹ = _⁻¹
        rw [f2, (hsites t).2, h.alpha]
    · have hp' : ¬ ∀ t, 0 < (c'.row t ⬝ᵥ (blk q'.Kd t t *ᵥ c'.row t))⁻¹ + 2 * c'.alpha * c'.sites.nat2 t 0 0 := fun hp' => hp fun t => by
        have := hp' (σ t)
        rwa [f2, (hsites t).2, h.alpha] at this
      exact .inl ⟨c2 hp, c2' hp'⟩
  · have hJ' : ¬ ((gpGram k' c'.times)⁻¹ + sitePrec c'.sites).PosDef := fun hJ' => hJ (by
      rw [show (gpGram k c.times)⁻¹ + sitePrec c.sites = _ from hb.total]
      exact (posDef_relabel _).2 hJ')
    exact .inl ⟨(CVI.distQ_functions hb.valid hG).2 hJ, (CVI.distQ_functions hb.valid' hG').2 hJ'⟩

/-- C80: one call of power EP's `update_sites(indices)` on two models of the same problem - the indices following the order of the data - raises on both or on
none, and the new sites and normalisers are the same. -/
theorem C80_pep_update {φ : ℝ → ℝ} {σ : Equiv.Perm (Fin (n + 1))} {k k' : ℝ → ℝ → Mat 1 1} {c : PEP n d} {c' : PEP n d'}
    (h : PEP.SameProblem φ σ k k' c c') (hG : (gpGram k c.times).PosDef) (i : Option (List (Fin (n + 1)))) :
    (c.updateSites i = .error .invalidArgument ∧ c'.updateSites (i.map fun l => l.map σ) = .error .invalidArgument) ∨
    ∃ r r', c.updateSites i = .ok r ∧ c'.updateSites (i.map fun l => l.map σ) = .ok r' ∧ r.times = c.times ∧ PEP.SameProblem φ σ k k' r r' := by
  have hb := h.base
  have hsites : ∀ t, c'.sites.nat1 (σ t) = c.sites.nat1 t ∧ c'.sites.nat2 (σ t) = c.sites.nat2 t := fun t => ⟨hb.nat1 t, hb.nat2 t⟩
  have hobs : ∀ t, c'.observations (σ t) = c.observations t := hb.observations
  have hrate : c'.learningRate = c.learningRate := hb.rate
  rcases h.cases hG with ⟨d1, d2⟩ | ⟨q, q', hq, hq', hqn, hqn', hf, hc⟩
  · refine .inl ⟨?_, ?_⟩
    · unfold PEP.updateSites; rw [d1]; rfl
    · unfold PEP.updateSites; rw [d2]; rfl
  · rcases hc with ⟨e1, e2⟩ | ⟨m, v, m', v', hmv, hmv', hmm⟩
    · refine .inl ⟨?_, ?_⟩
      · rw [PEP.computeCavity_eq hb.valid hq hqn] at e1
        obtain ⟨hco, -, -⟩ := Builds.good hb.valid.builds
        unfold PEP.updateSites
        rw [hq]
        simp only [bind, Except.bind, SSM.marginals_eq hqn hb.valid.two hco.pos, e1]
      · rw [PEP.computeCavity_eq hb.valid' hq' hqn'] at e2
        obtain ⟨hco, -, -⟩ := Builds.good hb.valid'.builds
        unfold PEP.updateSites
        rw [hq']
        simp only [bind, Except.bind, SSM.marginals_eq hqn' hb.valid'.two hco.pos, e2]
    · obtain ⟨r, hr, hrs, hrt⟩ := PEP.updateSites_eq hb.valid hq hmv i
      obtain ⟨r', hr', hrs', hrt'⟩ := PEP.updateSites_eq hb.valid' hq' hmv' (i.map fun l => l.map σ)
      have ht : ∀ t, c'.target m' v' (σ t) = c.target m v t := fun t => by
        unfold PEP.target
        rw [(hmm t).1, (hmm t).2.1, hobs, h.likelihood, h.alpha, hrate, (hsites t).1, (hsites t).2]
      have hl : ∀ t, c'.newLogNorm q' m' v' (σ t) = c.newLogNorm q m v t := fun t => by
        unfold PEP.newLogNorm
        rw [(hmm t).1, (hmm t).2.1, hobs, h.likelihood, h.alpha, (hf t).1, (hf t).2]
      have n1 : ∀ t, r'.sites.nat1 (σ t) = r.sites.nat1 t := fun t => by
        funext a
        rw [Subsingleton.elim a 0, (hrt t).1, (hrt' (σ t)).1, PEP.mask_relabel, ht, (hsites t).1]
      have n2 : ∀ t, r'.sites.nat2 (σ t) = r.sites.nat2 t := fun t => by
        funext a b
        rw [Subsingleton.elim a 0, Subsingleton.elim b 0, (hrt t).2.1, (hrt' (σ t)).2.1, PEP.mask_relabel, ht, (hsites t).2]
      have n3 : ∀ t, r'.logNorm (σ t) = r.logNorm t := fun t => by
        funext a
        rw [Subsingleton.elim a 0, (hrt t).2.2, (hrt' (σ t)).2.2, PEP.mask_relabel, hl, h.logNorm, hrate, h.alpha]
      refine .inr ⟨r, r', hr, hr', by rw [hrs], ?_⟩
      rw [hrs, hrs']
      exact ⟨⟨⟨hb.valid.builds, hb.valid.noise, hb.valid.jitter, hb.valid.times, hb.valid.lower, hb.valid.upper, hb.valid.two⟩,
        ⟨hb.valid'.builds, hb.valid'.noise, hb.valid'.jitter, hb.valid'.times, hb.valid'.lower, hb.valid'.upper, hb.valid'.two⟩,
        hb.times, hb.range, hb.cov, hb.observations, hb.likelihood, hb.rate, n1, n2⟩, h.likelihood, h.alpha, n3⟩

/-- C80: the same for any schedule of calls. -/
theorem C80_pep_history {φ : ℝ → ℝ} {σ : Equiv.Perm (Fin (n + 1))} {k k' : ℝ → ℝ → Mat 1 1} (is : List (Option (List (Fin (n + 1))))) {c : PEP n d}
    {c' : PEP n d'} (h : PEP.SameProblem φ σ k k' c c') (hG : (gpGram k c.times).PosDef) :
    (PEP.updates is c = .error .invalidArgument ∧ PEP.updates (is.map fun i => i.map fun l => l.map σ) c' = .error .invalidArgument) ∨
    ∃ r r', PEP.updates is c = .ok r ∧ PEP.updates (is.map fun i => i.map fun l => l.map σ) c' = .ok r' ∧ r.times = c.times ∧
      PEP.SameProblem φ σ k k' r r' := by
  induction is generalizing c c' with
  | nil => exact .inr ⟨c, c', rfl, rfl, rfl, h⟩
  | cons i is ih =>
    simp only [List.map_cons]
    unfold PEP.updates
    rcases C80_pep_update h hG i with ⟨e1, e2⟩ | ⟨r, r', hr, hr', hrt, hs⟩
    · rw [e1, e2]
      exact .inl ⟨rfl, rfl⟩
    · rw [hr, hr']
      rcases ih hs (by rw [hrt]; exact hG) with h1 | ⟨w, w', hw, hw', hwt, hws⟩
      · exact .inl h1
      · exact .inr ⟨w, w', hw, hw', hwt.trans hrt, hws⟩

theorem gaussLaw_relabel {ι κ : Type*} [Fintype ι] [DecidableEq ι] [Fintype κ] [DecidableEq κ] (e : ι ≃ κ) (m : κ → ℝ) {K : Matrix κ κ ℝ} (hK : K.PosSemidef) :
    (gaussLaw m K).map (fun f => f ∘ e) = gaussLaw (m ∘ e) (K.submatrix e e) := by
  set G : Matrix ι κ ℝ := (1 : Matrix κ κ ℝ).submatrix e id with hGd
  have hG : ∀ x : κ → ℝ, G *ᵥ x = x ∘ e := fun x => by
    funext i
    show ∑ j, (1 : Matrix κ κ ℝ) (e i) j * x j = x (e i)
    exact congrFun (one_mulVec x) (e i)
  have h := gaussLaw_map_affine hK m 0 G
  have h1 : (fun x : κ → ℝ => (0 : ι → ℝ) + G *ᵥ x) = fun f => f ∘ e := funext fun x => by rw [zero_add, hG]
  have h2 : G * K * Gᵀ = K.submatrix e e := by
    ext i j
    have h3 : (G * K) i = K (e i) := by
      funext a
      have := congrFun (hG fun b => K b a) i
      exact this
    show (G * K) i ⬝ᵥ (fun a => G j a) = _
    rw [h3, dotProduct_comm]
    exact congrFun (hG (K (e i))) j
  rw [h1, h2, zero_add, hG] at h
  exact h

/-- C80: `energy()` is the same, or raises on both. -/
theorem C80_pep_energy {φ : ℝ → ℝ} {σ : Equiv.Perm (Fin (n + 1))} {k k' : ℝ → ℝ → Mat 1 1} {c : PEP n d} {c' : PEP n d'}
    (h : PEP.SameProblem φ σ k k' c c') (hG : (gpGram k c.times).PosDef) :
    (c.energy = .error .invalidArgument ∧ c'.energy = .error .invalidArgument) ∨ ∃ E, c.energy = .ok E ∧ c'.energy = .ok E := by
  have hb := h.base
  have hsites : ∀ t, c'.sites.nat1 (σ t) = c.sites.nat1 t ∧ c'.sites.nat2 (σ t) = c.sites.nat2 t := fun t => ⟨hb.nat1 t, hb.nat2 t⟩
  have hobs : ∀ t, c'.observations (σ t) = c.observations t := hb.observations
  rcases h.cases hG with ⟨d1, d2⟩ | ⟨q, q', hq, hq', hqn, hqn', hf, hc⟩
  · refine .inl ⟨?_, ?_⟩
    · unfold PEP.energy PEP.computeLogNorm; rw [d1]; rfl
    · unfold PEP.energy PEP.computeLogNorm; rw [d2]; rfl
  · rcases hc with ⟨e1, e2⟩ | ⟨m, v, m', v', hmv, hmv', hmm⟩
    · refine .inl ⟨?_, ?_⟩
      · rw [PEP.computeCavity_eq hb.valid hq hqn] at e1
        obtain ⟨hco, -, -⟩ := Builds.good hb.valid.builds
        unfold PEP.energy PEP.computeLogNorm
        rw [hq]
        simp only [bind, Except.bind, SSM.marginals_eq hqn hb.valid.two hco.pos, e1]
      · rw [PEP.computeCavity_eq hb.valid' hq' hqn'] at e2
        obtain ⟨hco, -, -⟩ := Builds.good hb.valid'.builds
        unfold PEP.energy PEP.computeLogNorm
        rw [hq']
        simp only [bind, Except.bind, SSM.marginals_eq hqn' hb.valid'.two hco.pos, e2]
    · obtain ⟨s, E, mq, vq, hs, hE, hmq, hEe⟩ := C37_energy hb.valid hq hmv fun t => (hmm t).2.2
      obtain ⟨s', E', mq', vq', hs', hE', hmq', hEe'⟩ := C37_energy hb.valid' hq' hmv' fun t => by
        have := (hmm (σ.symm t)).2.2
        rwa [← (hmm (σ.symm t)).2.1, Equiv.apply_symm_apply] at this
      have mar : ∀ {d : ℕ} (c : PEP n d) (q : SSM n d), q.Nondegenerate → ∀ (t) {a b : ℝ}, 0 < b →
          q.law.map (fun x => latent1 c.kernel c.times x t) = gaussianReal a b.toNNReal →
          a = c.row t ⬝ᵥ q.mus t ∧ b = c.row t ⬝ᵥ (blk q.Kd t t *ᵥ c.row t) := fun c q hqn t a b hb0 hab => by
        have h1 := gaussLaw_dot (posDef_blk (SSM.Kd_posDef hqn) t).posSemidef (q.mus t) (c.row t)
        have h2 : q.law.map (fun x => latent1 c.kernel c.times x t) = (gaussLaw (q.mus t) (blk q.Kd t t)).map fun x => c.row t ⬝ᵥ x := by
          rw [← SSM.law_block, Measure.map_map (measurable_dot _) (measurable_unstk t)]
          congr 1
          funext x
          exact latent1_row c x t
        rw [hab, h1.2] at h2
        obtain ⟨e1, e2⟩ := gaussianReal_ext_iff.1 h2
        rw [Real.toNNReal_eq_toNNReal_iff hb0.le h1.1] at e2
        exact ⟨e1, e2⟩
      refine .inr ⟨E, hE, ?_⟩
      rw [hE', hEe, hEe']
      congr 2
      · congr 1
        have fs : ∀ {d : ℕ} {c : PEP n d} {k} (_ : c.toBase.Valid k) {s : SSM n d} (_ : c.kernel.stateSpaceModel c.times = .ok s),
            ∫ x, Real.exp (∑ t, (c.sites.nat1 t 0 * latent1 c.kernel c.times x t + c.sites.nat2 t 0 0 * latent1 c.kernel c.times x t ^ 2)) ∂s.law =
            ∫ f, Real.exp (∑ t : Fin (n + 1), (c.sites.nat1 t 0 * f (t, 0) + c.sites.nat2 t 0 0 * f (t, 0) ^ 2)) ∂gaussLaw 0 (gpGram k c.times) :=
          fun {d} {c} {k} hv {s} hs => by
          obtain ⟨-, -, hD⟩ := Builds.good hv.builds
          obtain ⟨hs0, hsK⟩ := kernel_moments hv.builds hv.jitter hs
          have hGe : outMat c.kernel c.times * s.Kd * (outMat c.kernel c.times)ᵀ = gpGram k c.times := by
            rw [hsK]
            exact outMat_conj (K := c.kernel) (τ := c.times) hD
          have hmus : s.mus = 0 := by
            funext t i
            exact congrFun hs0 (t, i)
          have hlaw : s.law.map (latentOf c.kernel (fun _ => 0) c.times) = gaussLaw 0 (gpGram k c.times) := by
            rw [latentOf_gauss, hGe, hmus]
            congr 1
            funext i
            simp
          rw [← hlaw, integral_map (measurable_latentOf _ _ _).aemeasurable (by
            refine Measurable.aestronglyMeasurable ?_
            fun_prop)]
          refine integral_congr_ae (.of_forall fun x => ?_)
          show Real.exp _ = Real.exp _
          congr 1
        rw [fs hb.valid hs, fs hb.valid' hs']
        have hrel : (gaussLaw 0 (gpGram k' c'.times)).map (fun f => f ∘ (σ.prodCongr (.refl (Fin 1)))) = gaussLaw 0 (gpGram k c.times) := by
          refine (gaussLaw_relabel _ _ (hb.gram_posDef hG).posSemidef).trans ?_
          exact congrArg (gaussLaw 0) hb.gram.symm
        have hmeas : Measurable fun f : Fin (n + 1) × Fin 1 → ℝ => f ∘ (σ.prodCongr (.refl (Fin 1))) := measurable_pi_lambda _ fun i => measurable_pi_apply _
        rw [← hrel, integral_map hmeas.aemeasurable (by
            refine Measurable.aestronglyMeasurable ?_
            fun_prop)]
        refine integral_congr_ae (.of_forall fun x => ?_)
        show Real.exp _ = Real.exp _
        congr 1
        rw [← Equiv.sum_comp σ]
        refine Finset.sum_congr rfl fun t _ => ?_
        rw [(hsites t).1, (hsites t).2]
        rfl
      · rw [h.alpha, ← Equiv.sum_comp σ]
        congr 1
        refine Finset.sum_congr rfl fun t _ => ?_
        obtain ⟨a1, a2⟩ := mar c q hqn t (hmq t).1 (hmq t).2
        obtain ⟨b1, b2⟩ := mar c' q' hqn' (σ t) (hmq' (σ t)).1 (hmq' (σ t)).2
        rw [a1, a2, b1, b2, (hf t).1, (hf t).2, (hmm t).1, (hmm t).2.1, (hsites t).1, (hsites t).2, hobs, h.likelihood]

/-- Two power EP models with the same training history: after any schedule of calls of `update_sites(indices)` - the indices following the order `σ` of the
data - either both have raised, or both have not and have the same sites and normalisers (in the order `σ`), the same `energy()` - or it raises on both -, the
same `elbo()` if all `nat2` are negative, and, if the posterior process can be built, the same predictions at times related by `φ`. -/
def PEP.SameTraining (φ : ℝ → ℝ) (σ : Equiv.Perm (Fin (n + 1))) (c : PEP n d) (c' : PEP n d') : Prop :=
  ∀ is : List (Option (List (Fin (n + 1)))),
    (PEP.updates is c = .error .invalidArgument ∧ PEP.updates (is.map fun i => i.map fun l => l.map σ) c' = .error .invalidArgument) ∨
    ∃ r r', PEP.updates is c = .ok r ∧ PEP.updates (is.map fun i => i.map fun l => l.map σ) c' = .ok r' ∧
      (∀ i, r'.sites.nat1 (σ i) = r.sites.nat1 i ∧ r'.sites.nat2 (σ i) = r.sites.nat2 i ∧ r'.logNorm (σ i) = r.logNorm i) ∧
      r'.energy = r.energy ∧ ((∀ t, r.sites.nat2 t 0 0 < 0) → r'.elbo = r.elbo ∧ ∃ e, r.elbo = .ok e) ∧
      ((r.toBase.posterior = .error .invalidArgument ∧ r'.toBase.posterior = .error .invalidArgument) ∨
        ∃ post post', r.toBase.posterior = .ok post ∧ r'.toBase.posterior = .ok post' ∧
          ∀ {p : ℕ} (new : Fin p → ℝ), (∀ q, c.times 0 ≤ new q ∧ new q ≤ c.times (Fin.last n)) →
            ∃ f, post.predictF new = .ok f ∧ post'.predictF (fun q => φ (new q)) = .ok f)

/-- C80: two power EP models of the same problem have the same training history, for any likelihood, power, learning rate and schedule. -/
theorem C80_pep_training {φ : ℝ → ℝ} {σ : Equiv.Perm (Fin (n + 1))} {k k' : ℝ → ℝ → Mat 1 1} {c : PEP n d} {c' : PEP n d'}
    (h : PEP.SameProblem φ σ k k' c c') (hG : (gpGram k c.times).PosDef) : PEP.SameTraining φ σ c c' := by
  intro is
  rcases C80_pep_history is h hG with h1 | ⟨r, r', hr, hr', ht, hs⟩
  · exact .inl h1
  · have hGr : (gpGram k r.times).PosDef := by rw [ht]; exact hG
    obtain ⟨h1, h2⟩ := C80_results hs.base hGr
    refine .inr ⟨r, r', hr, hr', fun i => ⟨hs.base.nat1 i, hs.base.nat2 i, hs.logNorm i⟩, ?_, fun hneg => ?_, ?_⟩
    · rcases C80_pep_energy hs hGr with ⟨e1, e2⟩ | ⟨E, e1, e2⟩ <;> rw [e1, e2]
    · obtain ⟨e, e1, e2⟩ := h2 hneg
      exact ⟨e2.trans e1.symm, e, e1⟩
    · rcases h1 with ⟨e1, e2, -, -⟩ | ⟨post, post', e, e1, e2, -, -, hp⟩
      · exact .inl ⟨e1, e2⟩
      · refine .inr ⟨post, post', e1, e2, fun new hn => ?_⟩
        have ht' : r.toBase.times = c.times := ht
        rw [ht'] at hp
        exact hp new (fun q => (hn q).1) (fun q => (hn q).2)

/-- C80: the origin of time is irrelevant for power EP. -/
theorem C80_pep_translation {c : PEP n d} {k} (h : c.toBase.Valid k) (hG : (gpGram k c.times).PosDef) (hH : ∀ t, c.kernel.emission t = c.kernel.emission 0)
    (a : ℝ) (hl : -10000000000 < c.times 0 + a) (hu : c.times (Fin.last n) + a ≤ 10000000000) :
    PEP.SameTraining (fun t => t + a) (.refl _) c { c with times := fun i => c.times i + a } :=
  C80_pep_training ⟨h.translation hH a hl hu, rfl, rfl, fun _ => rfl⟩ hG

/-- C80: the direction of time is irrelevant for power EP. -/
theorem C80_pep_reversal {c : PEP n d} {k} (h : c.toBase.Valid k) (hG : (gpGram k c.times).PosDef) (hH : ∀ t, c.kernel.emission t = c.kernel.emission 0)
    (hl : -10000000000 ≤ c.times 0) (hu : c.times (Fin.last n) < 10000000000) :
    PEP.SameTraining (fun t => -t) Fin.revPerm c
      { c with times := fun i => -c.times i.rev, observations := fun i => c.observations i.rev, logNorm := fun i => c.logNorm i.rev,
               sites := ⟨fun i => c.sites.nat1 i.rev, fun i => c.sites.nat2 i.rev⟩ } :=
  C80_pep_training ⟨h.reversal hH hl hu, rfl, rfl, fun i => by
    show c.logNorm (Fin.rev (Fin.revPerm i)) = _
    rw [Fin.revPerm_apply, Fin.rev_rev]⟩ hG

/-- C80: the unit of time is irrelevant for power EP, if the kernel's own parameters are converted. -/
theorem C80_pep_units {a : ℝ} (ha : 0 < a) {c : PEP n d} {K' : Stationary 1 d} (hK : SameUpToUnits 1 a 1 c.kernel K') (ht : StrictMono c.times) (hn : 0 < n)
    (hl : -10000000000 < c.times 0) (hu : c.times (Fin.last n) ≤ 10000000000) (hl' : -10000000000 < a * c.times 0)
    (hu' : a * c.times (Fin.last n) ≤ 10000000000) :
    PEP.SameTraining (fun t => a * t) (.refl _) c { c with times := fun i => a * c.times i, kernel := K' } := by
  obtain ⟨k, k', h, hG⟩ := SameUpToUnits.sameProblem (c := c.toBase) ha hK ht hn hl hu hl' hu'
  exact C80_pep_training ⟨h, rfl, rfl, fun _ => rfl⟩ hG

/-- C80: the expression of the covariance function is irrelevant for power EP. -/
theorem C80_pep_same_covariance {c : PEP n d} {k} (h : c.toBase.Valid k) (hG : (gpGram k c.times).PosDef) {K' : Stationary 1 d'} (hB : Builds K' k)
    (hN : NoiseTag K' true) (hj : K'.jitter = 0) :
    PEP.SameTraining (fun t => t) (.refl _) c
      (⟨c.times, c.observations, K', c.likelihood, c.meanFunction, c.learningRate, c.alpha, c.sites, c.logNorm⟩ : PEP n d') :=
  C80_pep_training ⟨h.same_covariance hB hN hj, rfl, rfl, fun _ => rfl⟩ hG

end MF
