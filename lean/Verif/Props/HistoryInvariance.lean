import Verif.Lemmas.SiteEquiv
import Verif.Props.Invariance

/-!
# C80: training by site updates depends on the data and the covariance function only

`update_sites()` works in the state space of the kernel object. The theorems say that nothing of it is visible: two models of the same data whose kernels
have the same covariance function, up to a change of the time variable, go through the same training history, whatever the likelihood.
-/

namespace MF
open Matrix Spec MeasureTheory ProbabilityTheory InformationTheory
variable {n o d d' p : ℕ}

/-- Two models that pose the same problem: the times of the second are those of the first in another variable `t' = φ(t)`, possibly in another order `σ`
(time reversal); the covariance function of its kernel, which may be another kernel object with another state dimension, is that of the first in the new
variable; observations, sites, likelihood and learning rate are the same. The mean function is not used by these models (C34). -/
structure CVI.SameProblem (φ : ℝ → ℝ) (σ : Equiv.Perm (Fin (n + 1))) (k k' : ℝ → ℝ → Mat 1 1) (c : CVI n d) (c' : CVI n d') : Prop where
  valid : c.Valid k
  valid' : c'.Valid k'
  times : ∀ i, c'.times (σ i) = φ (c.times i)
  range : ∀ t, c.times 0 ≤ t → t ≤ c.times (Fin.last n) → c'.times 0 ≤ φ t ∧ φ t ≤ c'.times (Fin.last n)
  cov : ∀ s t, k' (φ s) (φ t) = k s t
  observations : ∀ i, c'.observations (σ i) = c.observations i
  likelihood : c'.likelihood = c.likelihood
  rate : c'.learningRate = c.learningRate
  nat1 : ∀ i, c'.sites.nat1 (σ i) = c.sites.nat1 i
  nat2 : ∀ i, c'.sites.nat2 (σ i) = c.sites.nat2 i

/-! ### relabelling -/

section Relabel
variable {ι κ : Type*} [Fintype ι] [DecidableEq ι] [Fintype κ] [DecidableEq κ]

theorem mulVec_relabel (e : ι ≃ κ) (A : Matrix κ κ ℝ) (x : κ → ℝ) : A.submatrix e e *ᵥ (x ∘ e) = (A *ᵥ x) ∘ e := by
  rw [Matrix.submatrix_mulVec_equiv]
  congr 2
  funext i
  simp

theorem mulVec_relabel_right {ν : Type*} (e : ι ≃ κ) (A : Matrix ν κ ℝ) (x : κ → ℝ) : A.submatrix id e *ᵥ (x ∘ e) = A *ᵥ x := by
  funext a
  exact e.sum_comp fun i => A a i * x i

theorem posDef_relabel (e : ι ≃ κ) {A : Matrix κ κ ℝ} : (A.submatrix e e).PosDef ↔ A.PosDef := by
  refine ⟨fun h => ?_, fun h => h.submatrix e.injective⟩
  have := h.submatrix e.symm.injective
  rwa [Matrix.submatrix_submatrix, show (e ∘ e.symm : κ → κ) = id from funext fun i => by simp, Matrix.submatrix_id_id] at this

theorem gaussKL_relabel (e : ι ≃ κ) (m m' : κ → ℝ) (A B : Matrix κ κ ℝ) :
    gaussKL (m ∘ e) (A.submatrix e e) (m' ∘ e) (B.submatrix e e) = gaussKL m A m' B := by
  have h1 : m' ∘ e - m ∘ e = (m' - m) ∘ e := rfl
  have h2 : ((B⁻¹ * A).submatrix e e).trace = (B⁻¹ * A).trace := by
    simp only [Matrix.trace, Matrix.diag, Matrix.submatrix_apply]
    exact e.sum_comp fun i => (B⁻¹ * A) i i
  have h3 : ∀ u v : κ → ℝ, (u ∘ e) ⬝ᵥ (v ∘ e) = u ⬝ᵥ v := fun u v => e.sum_comp fun i => u i * v i
  unfold gaussKL
  rw [Matrix.inv_submatrix_equiv, Matrix.submatrix_mul_equiv, h1, mulVec_relabel, h3, h2, Matrix.det_submatrix_equiv_self, Matrix.det_submatrix_equiv_self,
    Fintype.card_congr e]

end Relabel

namespace CVI.SameProblem
variable {φ : ℝ → ℝ} {σ : Equiv.Perm (Fin (n + 1))} {k k' : ℝ → ℝ → Mat 1 1} {c : CVI n d} {c' : CVI n d'}

theorem gram (h : CVI.SameProblem φ σ k k' c c') :
    gpGram k c.times = (gpGram k' c'.times).submatrix (σ.prodCongr (.refl (Fin 1))) (σ.prodCongr (.refl (Fin 1))) := by
  ext i j
  show k (c.times i.1) (c.times j.1) i.2 j.2 = k' (c'.times (σ i.1)) (c'.times (σ j.1)) i.2 j.2
  rw [h.times, h.times, h.cov]

theorem prec (h : CVI.SameProblem φ σ k k' c c') :
    sitePrec c.sites = (sitePrec c'.sites).submatrix (σ.prodCongr (.refl (Fin 1))) (σ.prodCongr (.refl (Fin 1))) := by
  unfold sitePrec
  rw [Matrix.submatrix_diagonal_equiv]
  congr 1
  funext i
  show _ = -2 * c'.sites.nat2 (σ i.1) 0 0
  rw [h.nat2]

theorem first (h : CVI.SameProblem φ σ k k' c c') : siteFirst c.sites = siteFirst c'.sites ∘ (σ.prodCongr (.refl (Fin 1))) := by
  funext i
  show _ = c'.sites.nat1 (σ i.1) 0
  rw [h.nat1]
  rfl

theorem total (h : CVI.SameProblem φ σ k k' c c') : (gpGram k c.times)⁻¹ + sitePrec c.sites =
    ((gpGram k' c'.times)⁻¹ + sitePrec c'.sites).submatrix (σ.prodCongr (.refl (Fin 1))) (σ.prodCongr (.refl (Fin 1))) := by
  rw [h.gram, h.prec, Matrix.inv_submatrix_equiv]
  rfl

theorem mean (h : CVI.SameProblem φ σ k k' c c') : ((gpGram k c.times)⁻¹ + sitePrec c.sites)⁻¹ *ᵥ siteFirst c.sites =
    (((gpGram k' c'.times)⁻¹ + sitePrec c'.sites)⁻¹ *ᵥ siteFirst c'.sites) ∘ (σ.prodCongr (.refl (Fin 1))) := by
  rw [h.total, h.first, Matrix.inv_submatrix_equiv, mulVec_relabel]

theorem gram_posDef (h : CVI.SameProblem φ σ k k' c c') (hG : (gpGram k c.times).PosDef) : (gpGram k' c'.times).PosDef := by
  rw [h.gram] at hG
  exact (posDef_relabel _).1 hG

end CVI.SameProblem

/-- The marginals `update_sites()` uses, in function space. -/
theorem CVI.update_functions {c : CVI n d} {k} (h : c.Valid k) (hG : (gpGram k c.times).PosDef)
    (hJ : ((gpGram k c.times)⁻¹ + sitePrec c.sites).PosDef) :
    ∃ r, c.updateSites = .ok r ∧ r = { c with sites := r.sites } ∧ ∀ t,
      r.sites.nat1 t 0 = (1 - c.learningRate) * c.sites.nat1 t 0 + c.learningRate *
        (localGradients c.likelihood ((((gpGram k c.times)⁻¹ + sitePrec c.sites)⁻¹ *ᵥ siteFirst c.sites) (t, 0))
          (((gpGram k c.times)⁻¹ + sitePrec c.sites)⁻¹ (t, 0) (t, 0)) (c.observations t 0)).1 ∧
      r.sites.nat2 t 0 0 = (1 - c.learningRate) * c.sites.nat2 t 0 0 + c.learningRate *
        (localGradients c.likelihood ((((gpGram k c.times)⁻¹ + sitePrec c.sites)⁻¹ *ᵥ siteFirst c.sites) (t, 0))
          (((gpGram k c.times)⁻¹ + sitePrec c.sites)⁻¹ (t, 0) (t, 0)) (c.observations t 0)).2 := by
  obtain ⟨s, q, hs, hq, hqn, hlaw, -, -⟩ := (CVI.distQ_functions h hG).1 hJ
  obtain ⟨r, m, v, hr, hmv, hrs, hrt⟩ := C34_update h hq
  refine ⟨r, hr, hrs, fun t => ?_⟩
  have h1 := congrArg (fun μ => μ.map fun x : Fin (n + 1) × Fin 1 → ℝ => x (t, 0)) hlaw
  rw [gaussLaw_eval hJ.inv.posSemidef, Measure.map_map (measurable_pi_apply _) (measurable_latentOf _ _ _)] at h1
  have h2 : gaussianReal (m t) (v t).toNNReal = _ := ((hmv t).2.symm.trans h1)
  obtain ⟨e1, e2⟩ := gaussianReal_ext_iff.1 h2
  have e2' : v t = ((gpGram k c.times)⁻¹ + sitePrec c.sites)⁻¹ (t, 0) (t, 0) := by
    rw [Real.toNNReal_eq_toNNReal_iff (hmv t).1 hJ.inv.posSemidef.diag_nonneg] at e2
    exact e2
  rw [← e1, ← e2']
  exact hrt t

/-- C80: one call of `update_sites()` on two models of the same problem raises on both or on none, and the new sites are the same. -/
theorem C80_update {φ : ℝ → ℝ} {σ : Equiv.Perm (Fin (n + 1))} {k k' : ℝ → ℝ → Mat 1 1} {c : CVI n d} {c' : CVI n d'}
    (h : CVI.SameProblem φ σ k k' c c') (hG : (gpGram k c.times).PosDef) :
    (c.updateSites = .error .invalidArgument ∧ c'.updateSites = .error .invalidArgument) ∨
    ∃ r r', c.updateSites = .ok r ∧ c'.updateSites = .ok r' ∧ r = { c with sites := r.sites } ∧ r' = { c' with sites := r'.sites } ∧
      CVI.SameProblem φ σ k k' r r' := by
  have hG' := h.gram_posDef hG
  by_cases hJ : ((gpGram k c.times)⁻¹ + sitePrec c.sites).PosDef
  · have hJ' : ((gpGram k' c'.times)⁻¹ + sitePrec c'.sites).PosDef := by
      rw [h.total] at hJ
      exact (posDef_relabel _).1 hJ
    obtain ⟨r, hr, hrs, hrt⟩ := CVI.update_functions h.valid hG hJ
    obtain ⟨r', hr', hrs', hrt'⟩ := CVI.update_functions h.valid' hG' hJ'
    refine .inr ⟨r, r', hr, hr', hrs, hrs', ?_⟩
    have hv : ∀ t, ((gpGram k c.times)⁻¹ + sitePrec c.sites)⁻¹ (t, 0) (t, 0) =
        ((gpGram k' c'.times)⁻¹ + sitePrec c'.sites)⁻¹ (σ t, 0) (σ t, 0) := fun t => by
      rw [h.total, Matrix.inv_submatrix_equiv]
      rfl
    have hm : ∀ t, (((gpGram k c.times)⁻¹ + sitePrec c.sites)⁻¹ *ᵥ siteFirst c.sites) (t, 0) =
        (((gpGram k' c'.times)⁻¹ + sitePrec c'.sites)⁻¹ *ᵥ siteFirst c'.sites) (σ t, 0) := fun t => congrFun h.mean (t, 0)
    have e1 : ∀ t, r'.sites.nat1 (σ t) = r.sites.nat1 t := fun t => by
      funext a
      rw [Subsingleton.elim a 0, (hrt t).1, (hrt' (σ t)).1, hv, hm, h.rate, h.likelihood, h.nat1, h.observations]
    have e2 : ∀ t, r'.sites.nat2 (σ t) = r.sites.nat2 t := fun t => by
      funext a b
      rw [Subsingleton.elim a 0, Subsingleton.elim b 0, (hrt t).2, (hrt' (σ t)).2, hv, hm, h.rate, h.likelihood, h.nat2, h.observations]
    rw [hrs, hrs']
    exact ⟨⟨h.valid.builds, h.valid.noise, h.valid.jitter, h.valid.times, h.valid.lower, h.valid.upper, h.valid.two⟩,
      ⟨h.valid'.builds, h.valid'.noise, h.valid'.jitter, h.valid'.times, h.valid'.lower, h.valid'.upper, h.valid'.two⟩,
      h.times, h.range, h.cov, h.observations, h.likelihood, h.rate, e1, e2⟩
  · have hJ' : ¬ ((gpGram k' c'.times)⁻¹ + sitePrec c'.sites).PosDef := fun hJ' => hJ (by
      rw [h.total]
      exact (posDef_relabel _).2 hJ')
    have d1 := (CVI.distQ_functions h.valid hG).2 hJ
    have d2 := (CVI.distQ_functions h.valid' hG').2 hJ'
    refine .inl ⟨?_, ?_⟩
    · unfold CVI.updateSites CVI.posterior
      rw [d1]
      rfl
    · unfold CVI.updateSites CVI.posterior
      rw [d2]
      rfl

/-- C80: the same for any number of calls: the training histories are the same. -/
theorem C80_history {φ : ℝ → ℝ} {σ : Equiv.Perm (Fin (n + 1))} {k k' : ℝ → ℝ → Mat 1 1} {c : CVI n d} {c' : CVI n d'}
    (h : CVI.SameProblem φ σ k k' c c') (hG : (gpGram k c.times).PosDef) (j : ℕ) :
    (CVI.updates j c = .error .invalidArgument ∧ CVI.updates j c' = .error .invalidArgument) ∨
    ∃ r r', CVI.updates j c = .ok r ∧ CVI.updates j c' = .ok r' ∧ r = { c with sites := r.sites } ∧ r' = { c' with sites := r'.sites } ∧
      CVI.SameProblem φ σ k k' r r' := by
  induction j generalizing c c' with
  | zero => exact .inr ⟨c, c', rfl, rfl, rfl, rfl, h⟩
  | succ j ih =>
    rcases C80_update h hG with ⟨e1, e2⟩ | ⟨r, r', hr, hr', hrs, hrs', hs⟩
    · refine .inl ⟨?_, ?_⟩
      · unfold CVI.updates; rw [e1]; rfl
      · unfold CVI.updates; rw [e2]; rfl
    · have ht : r.times = c.times := by rw [hrs]
      rcases ih hs (by rw [ht]; exact hG) with ⟨e1, e2⟩ | ⟨w, w', hw, hw', hws, hws', hsw⟩
      · refine .inl ⟨?_, ?_⟩
        · unfold CVI.updates; rw [hr]; exact e1
        · unfold CVI.updates; rw [hr']; exact e2
      · refine .inr ⟨w, w', ?_, ?_, ?_, ?_, hsw⟩
        · unfold CVI.updates; rw [hr]; exact hw
        · unfold CVI.updates; rw [hr']; exact hw'
        · rw [hws, hrs]
        · rw [hws', hrs']

/-- `classic_elbo()` in function space, for any sites. -/
theorem CVI.classicElbo_functions {c : CVI n d} {k} (h : c.Valid k) (hG : (gpGram k c.times).PosDef)
    (hJ : ((gpGram k c.times)⁻¹ + sitePrec c.sites).PosDef) :
    c.classicElbo = .ok ((∑ i : Fin (n + 1) × Fin 1, c.likelihood.varExp ((((gpGram k c.times)⁻¹ + sitePrec c.sites)⁻¹ *ᵥ siteFirst c.sites) i)
          (((gpGram k c.times)⁻¹ + sitePrec c.sites)⁻¹ i i) (c.observations i.1 i.2)) -
        gaussKL (((gpGram k c.times)⁻¹ + sitePrec c.sites)⁻¹ *ᵥ siteFirst c.sites) ((gpGram k c.times)⁻¹ + sitePrec c.sites)⁻¹ 0 (gpGram k c.times)) := by
  obtain ⟨s, q, hs, hq, hqn, hlaw, -, hkl⟩ := (CVI.distQ_functions h hG).1 hJ
  obtain ⟨s', hs', hsn⟩ := kernel_ssm_nondegenerate h.builds h.noise h.two h.times
  obtain rfl : s = s' := Except.ok.inj (hs.symm.trans hs')
  have hs0 : stk s.mus = 0 := (kernel_moments h.builds h.jitter hs).1
  rw [latentOf_gauss] at hlaw
  obtain ⟨e1, e2⟩ := (SSM.gaussLaw_inj (posSemidef_conj' (SSM.Kd_posDef hqn).posSemidef _) hJ.inv.posSemidef).1 hlaw
  obtain ⟨e', he1, he2⟩ := VGP.loss_ok (CVI.toVGP_valid h hqn)
  have hl : (c.toVGP q).lossOf q = -e' := by
    unfold VGP.lossOf
    exact by rw [show ({ c.toVGP q with q := q } : VGP n 1 d) = c.toVGP q from rfl, he2]
  obtain ⟨p, hp, -, -, hL⟩ := VGP.lossOf_eq (CVI.toVGP_valid h hqn)
  obtain rfl : s = p := Except.ok.inj (hs.symm.trans hp)
  rw [C56_same_bound hq, he1]
  congr 1
  have := hL q hqn
  rw [hl, q.law_eq_gauss, s.law_eq_gauss, klDiv_gaussLaw (SSM.Kd_posDef hqn) (SSM.Kd_posDef hsn),
    ENNReal.toReal_ofReal (gaussKL_nonneg (SSM.Kd_posDef hqn) (SSM.Kd_posDef hsn)), hs0, hkl] at this
  rw [neg_eq_iff_eq_neg, neg_sub] at this
  rw [this]
  congr 1
  refine Finset.sum_congr rfl fun i _ => ?_
  rw [← e1, ← e2, outMat_conj_diag]
  simp [CVI.toVGP]
  try rfl

/-- C80: what is computed from the sites is the same: `classic_elbo()`; `elbo()`; and `predict_f` of the posterior process within the range of the data. -/
theorem C80_results {φ : ℝ → ℝ} {σ : Equiv.Perm (Fin (n + 1))} {k k' : ℝ → ℝ → Mat 1 1} {c : CVI n d} {c' : CVI n d'}
    (h : CVI.SameProblem φ σ k k' c c') (hG : (gpGram k c.times).PosDef) :
    ((c.posterior = .error .invalidArgument ∧ c'.posterior = .error .invalidArgument ∧ c.classicElbo = .error .invalidArgument ∧
        c'.classicElbo = .error .invalidArgument) ∨
      ∃ (post : CondProcess n 1 d) (post' : CondProcess n 1 d') (e : ℝ), c.posterior = .ok post ∧ c'.posterior = .ok post' ∧
        c.classicElbo = .ok e ∧ c'.classicElbo = .ok e ∧
        ∀ {p : ℕ} (new : Fin p → ℝ), (∀ j, c.times 0 ≤ new j) → (∀ j, new j ≤ c.times (Fin.last n)) →
          ∃ f, post.predictF new = .ok f ∧ post'.predictF (fun j => φ (new j)) = .ok f) ∧
    ((∀ t, c.sites.nat2 t 0 0 < 0) → ∃ e, c.elbo = .ok e ∧ c'.elbo = .ok e) := by
  have hG' := h.gram_posDef hG
  constructor
  · by_cases hJ : ((gpGram k c.times)⁻¹ + sitePrec c.sites).PosDef
    · have hJ' : ((gpGram k' c'.times)⁻¹ + sitePrec c'.sites).PosDef := by
        rw [h.total] at hJ
        exact (posDef_relabel _).1 hJ
      obtain ⟨s, q, hs, hq, hqn, hlaw, hb, -⟩ := (CVI.distQ_functions h.valid hG).1 hJ
      obtain ⟨s', q', hs', hq', hqn', hlaw', hb', -⟩ := (CVI.distQ_functions h.valid' hG').1 hJ'
      have c1 := CVI.classicElbo_functions h.valid hG hJ
      have c2 := CVI.classicElbo_functions h.valid' hG' hJ'
      refine .inr ⟨(c.toVGP q).posterior, (c'.toVGP q').posterior, _, ?_, ?_, c1, ?_, fun new n0 n1 => ?_⟩
      · unfold CVI.posterior; rw [hq]; rfl
      · unfold CVI.posterior; rw [hq']; rfl
      · rw [c2]
        congr 2
        · rw [← (σ.prodCongr (.refl (Fin 1))).sum_comp]
          refine Finset.sum_congr rfl fun i _ => ?_
          rw [h.mean, h.total, Matrix.inv_submatrix_equiv, h.likelihood]
          show _ = c.likelihood.varExp _ _ _
          rw [← h.observations]
          rfl
        · rw [h.mean, h.total, Matrix.inv_submatrix_equiv, h.gram]
          exact (gaussKL_relabel (σ.prodCongr (.refl (Fin 1))) _ 0 _ _).symm
      · have hℓ : ∀ s : UnivariateSites (n + 1), Measurable fun f : Fin (n + 1) × Fin 1 → ℝ =>
            siteLogLik (fun t => s.nat1 t 0) (fun t => s.nat2 t 0 0) fun t => f (t, 0) := fun s =>
          (measurable_siteLogLik _ _).comp (measurable_pi_lambda _ fun t => measurable_pi_apply _)
        have hlat : ∀ {d : ℕ} (K : Stationary 1 d) (ts : Fin (n + 1) → ℝ) (x : Ix n d → ℝ), latent1 K ts x = fun t => (outMat K ts *ᵥ x) (t, 0) := fun K ts x => by
          funext t
          rw [latent1_eq, outMat_mulVec]
          rfl
        simp only [hlat] at hb hb'
        obtain ⟨f, hf, hfv⟩ := VGP.predict_sites (CVI.toVGP_valid h.valid hqn) hG hs (hℓ _) hb hJ.inv.posSemidef hlaw new n0 n1
        obtain ⟨f', hf', hfv'⟩ := VGP.predict_sites (CVI.toVGP_valid h.valid' hqn') hG' hs' (hℓ _) hb' hJ'.inv.posSemidef hlaw' (fun j => φ (new j))
          (fun j => (h.range _ (n0 j) (n1 j)).1) (fun j => (h.range _ (n0 j) (n1 j)).2)
        refine ⟨f, hf, ?_⟩
        rw [hf']
        congr 1
        funext j
        set e := σ.prodCongr (.refl (Fin 1)) with he
        have hcross : crossCov k c.times (new j) = (crossCov k' c'.times (φ (new j))).submatrix id e := by
          ext a i
          show k (new j) (c.times i.1) a i.2 = k' (φ (new j)) (c'.times (σ i.1)) a i.2
          rw [h.times, h.cov]
        have hz : ∀ ts : Fin (n + 1) → ℝ, meanVec (fun _ => 0 : ℝ → Vec 1) ts = 0 := fun ts => rfl
        have m1 : (f' j).1 = (f j).1 := by
          rw [(hfv j).1, (hfv' j).1]
          show (0 : Vec 1) + crossCov k' c'.times (φ (new j)) *ᵥ ((gpGram k' c'.times)⁻¹ *ᵥ (_ - meanVec (fun _ => 0) c'.times)) =
            0 + crossCov k c.times (new j) *ᵥ ((gpGram k c.times)⁻¹ *ᵥ (_ - meanVec (fun _ => 0) c.times))
          rw [hz, hz, sub_zero, sub_zero, h.mean, h.gram, Matrix.inv_submatrix_equiv, mulVec_relabel, hcross, mulVec_relabel_right]
        have m2 : (f' j).2 = (f j).2 := by
          rw [(hfv j).2, (hfv' j).2]
          show gpPredictCov k' c'.times _ (φ (new j)) = gpPredictCov k c.times _ (new j)
          unfold gpPredictCov
          rw [h.total, h.gram, Matrix.inv_submatrix_equiv, Matrix.inv_submatrix_equiv, hcross, Matrix.transpose_submatrix]
          simp only [← he, Matrix.submatrix_mul_equiv, Matrix.submatrix_id_id, h.cov]
        exact Prod.ext m1 m2
    · have hJ' : ¬ ((gpGram k' c'.times)⁻¹ + sitePrec c'.sites).PosDef := fun hJ' => hJ (by
        rw [h.total]
        exact (posDef_relabel _).2 hJ')
      have d1 := (CVI.distQ_functions h.valid hG).2 hJ
      have d2 := (CVI.distQ_functions h.valid' hG').2 hJ'
      refine .inl ⟨?_, ?_, ?_, ?_⟩
      · unfold CVI.posterior; rw [d1]; rfl
      · unfold CVI.posterior; rw [d2]; rfl
      · unfold CVI.classicElbo CVI.posterior; rw [d1]; rfl
      · unfold CVI.classicElbo CVI.posterior; rw [d2]; rfl
  · intro hneg
    have hneg' : ∀ t, c'.sites.nat2 t 0 0 < 0 := fun t => by
      have := h.nat2 (σ.symm t)
      rw [Equiv.apply_symm_apply] at this
      rw [this]
      exact hneg _
    obtain ⟨-, -, -, -, -, e1, -⟩ := CVI.closed h.valid hneg hG
    obtain ⟨-, -, -, -, -, e2, -⟩ := CVI.closed h.valid' hneg' hG'
    refine ⟨_, e1, ?_⟩
    rw [e2]
    congr 1
    have hb' := sitePrec_posDef hneg'
    have hy : (sitePrec c.sites)⁻¹ *ᵥ siteFirst c.sites = ((sitePrec c'.sites)⁻¹ *ᵥ siteFirst c'.sites) ∘ (σ.prodCongr (.refl (Fin 1))) := by
      rw [h.prec, h.first, Matrix.inv_submatrix_equiv, mulVec_relabel]
    have := gaussLogDensity_units (σ.prodCongr (.refl (Fin 1))) (one_ne_zero (α := ℝ)) (K := gpGram k c.times + (sitePrec c.sites)⁻¹)
      (K' := gpGram k' c'.times + (sitePrec c'.sites)⁻¹) (hG.add_posSemidef (sitePrec_posDef hneg).inv.posSemidef) (by
        rw [h.gram, h.prec, Matrix.inv_submatrix_equiv, one_pow, one_smul]
        rfl) (x := (sitePrec c.sites)⁻¹ *ᵥ siteFirst c.sites) (x' := (sitePrec c'.sites)⁻¹ *ᵥ siteFirst c'.sites) (m := 0) (m' := 0) (fun i => by
        rw [hy, one_mul]
        rfl)
    rw [this]
    simp

end MF
