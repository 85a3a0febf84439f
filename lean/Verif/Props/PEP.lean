import Verif.Lemmas.MomentMatch

/-!
# C37: `PowerExpectationPropagation`

Specification vocabulary: `IsBayesPosterior` (`Spec/LinearGaussian`), Mathlib's `gaussianReal`; `latent1 K ts x t = H(t) x_t`.
-/

namespace MF
open Matrix Spec MeasureTheory ProbabilityTheory InformationTheory
variable {n d : ℕ}

/-! ### the cavity -/

/-- C37: the cavity of datum `t` is the Gaussian from which fraction `alpha` of the site has been removed: times
`site_t^alpha` it is the marginal of `f_t` under `dist_q`. When there is no such Gaussian `compute_cavity` raises. -/
theorem C37_cavity {c : PEP n d} {k} (h : c.toBase.Valid k) {q} (hq : c.distQ = .ok q) :
    (∀ m v, c.computeCavity = .ok (m, v) → ∀ t, 0 ≤ v t 0 ∧
      IsBayesPosterior (gaussianReal (m t 0) (v t 0).toNNReal)
        (fun f => c.alpha * (c.sites.nat1 t 0 * f + c.sites.nat2 t 0 0 * f ^ 2))
        (q.law.map fun x => latent1 c.kernel c.times x t)) ∧
    ((∃ r, c.computeCavity = .ok r) ∨ c.computeCavity = .error .invalidArgument) := by
  obtain ⟨s, hs, hq1, -⟩ := C34_dist_q h
  have hqn := (hq1 q hq).1
  obtain ⟨hco, -, -⟩ := Builds.good h.builds
  have hcc : c.computeCavity = c.cavityFromMarginals (q.mus, fun t => blk q.Kd t t) := by
    unfold PEP.computeCavity
    rw [hq]
    simp only [bind, Except.bind, SSM.marginals_eq hqn h.two hco.pos]
  obtain ⟨h1, h2⟩ := c.cavity_cases hqn
  rw [← hcc] at h1 h2
  constructor
  · intro m v hmv t
    have hp : ∀ t, (c.cavPrec q t).PosDef := by
      by_contra hp
      rw [h2 hp] at hmv; cases hmv
    have e := Except.ok.inj ((h1 hp).symm.trans hmv)
    obtain ⟨rfl, rfl⟩ := Prod.mk.inj e
    have hC := posDef_blk (SSM.Kd_posDef hqn) t
    have hB := (hp t).inv
    obtain ⟨hv, hlaw⟩ := gaussLaw_dot hB.posSemidef ((c.cavPrec q t)⁻¹ *ᵥ c.cavLin q t) (c.row t)
    refine ⟨hv, ?_⟩
    have hpu := isUnit_det' (hp t).isUnit
    have hb := (bayes_natural hB hC (M := (c.alpha * c.sites.nat2 t 0 0) • vecMulVec (c.row t) (c.row t))
      (by
        rw [nonsing_inv_nonsing_inv _ hpu, PEP.cavPrec, smul_smul, mul_assoc 2]
        abel)
      (μ := (c.cavPrec q t)⁻¹ *ᵥ c.cavLin q t) (μ' := q.mus t) (l := (c.alpha * c.sites.nat1 t 0) • c.row t)
      (by
        rw [nonsing_inv_nonsing_inv _ hpu, mulVec_mulVec, mul_nonsing_inv _ hpu, one_mulVec, PEP.cavLin]
        abel)).1
    simp only [PEP.site_quad] at hb
    have hm := IsBayesPosterior.map (measurable_dot (c.row t))
      (ℓ := fun f => c.alpha * (c.sites.nat1 t 0 * f + c.sites.nat2 t 0 0 * f ^ 2)) (by fun_prop) hb
    rw [hlaw, ← SSM.law_block, Measure.map_map (measurable_dot _) (measurable_unstk t)] at hm
    simp only [latent1_row]
    exact hm
  · exact (Classical.em _).imp (fun hp => ⟨_, h1 hp⟩) h2

/-- The model in which the site of datum `t` is multiplied by `1 - alpha` (removed for `alpha = 1`). -/
def PEP.leaveOut (c : PEP n d) (t : Fin (n + 1)) : PEP n d :=
  { c with sites := ⟨Function.update c.sites.nat1 t ((1 - c.alpha) • c.sites.nat1 t),
      Function.update c.sites.nat2 t ((1 - c.alpha) • c.sites.nat2 t)⟩ }

/-- C37: the cavity is the marginal of `f_t` in the model with fraction `alpha` of that site removed (the leave-one-out
distribution for `alpha = 1`), and it can be computed whenever these models have a `dist_q`. -/
theorem C37_leave_out {c : PEP n d} {k} (h : c.toBase.Valid k) {q} (hq : c.distQ = .ok q) {q' : Fin (n + 1) → SSM n d}
    (hq' : ∀ t, (c.leaveOut t).distQ = .ok (q' t)) :
    ∃ m v, c.computeCavity = .ok (m, v) ∧ ∀ t, 0 ≤ v t 0 ∧
      (q' t).law.map (fun x => latent1 c.kernel c.times x t) = gaussianReal (m t 0) (v t 0).toNNReal := by
  obtain ⟨s, hs, hq1, -⟩ := C34_dist_q h
  have hqn := (hq1 q hq).1
  obtain ⟨hco, -, -⟩ := Builds.good h.builds
  have hcc : c.computeCavity = c.cavityFromMarginals (q.mus, fun t => blk q.Kd t t) := by
    unfold PEP.computeCavity
    rw [hq]
    simp only [bind, Except.bind, SSM.marginals_eq hqn h.two hco.pos]
  obtain ⟨hcb, -⟩ := C37_cavity h hq
  have hv' : ∀ t, (c.leaveOut t).toBase.Valid k := fun t =>
    ⟨h.builds, h.noise, h.jitter, h.times, h.lower, h.upper, h.two⟩
  have hp : ∀ t, (c.cavPrec q t).PosDef := by
    intro t
    obtain ⟨s', hs', hq1', -⟩ := C34_dist_q (hv' t)
    have hss : s' = s := Except.ok.inj (hs'.symm.trans hs)
    subst hss
    have hqn' := (hq1' _ (hq' t)).1
    have e1 := CVI.distQ_precision h hs hq
    have e2 := CVI.distQ_precision (hv' t) hs' (hq' t)
    have e3 : (q' t).Kd⁻¹ = q.Kd⁻¹ + (blkSel t)ᵀ * ((2 * c.alpha * c.sites.nat2 t 0 0) •
        vecMulVec (c.row t) (c.row t)) * blkSel t := by
      rw [e1, e2, ← denseSym_single, sub_add, sub_right_inj]
      have := denseSym_sub_smul (fun t => (2 : ℝ) • c.sites.nat2 t 0 0 • vecMulVec (c.row t) (c.row t))
        (Function.update (0 : Fin (n + 1) → Mat d d) t ((2 * c.alpha * c.sites.nat2 t 0 0) •
        vecMulVec (c.row t) (c.row t))) (0 : Fin n → Mat d d) (0 : Fin n → Mat d d) 1
      have e0 : ∀ D : Fin (n + 1) → Mat d d, denseSym (fun t => (2 : ℝ) • D t) (0 : Fin n → Mat d d) =
          (2 : ℝ) • denseSym D (0 : Fin n → Mat d d) := by
        intro D
        apply blk_ext
        intro i j
        have hb : blk ((2 : ℝ) • denseSym D (0 : Fin n → Mat d d)) i j = (2 : ℝ) • blk (denseSym D 0) i j := rfl
        rw [hb, blk_denseSym, blk_denseSym]
        unfold symBlk
        split_ifs <;> simp
      simp only [one_smul, Pi.zero_apply, sub_zero] at this
      rw [← e0, ← e0]
      refine Eq.trans ?_ this
      congr 1
      funext i
      by_cases hi : i = t
      · subst hi
        simp only [PEP.leaveOut, PEP.toBase, Function.update_self, Matrix.smul_apply, smul_eq_mul, PEP.row]
        rw [smul_smul, smul_smul, ← sub_smul]
        congr 1; ring
      · simp only [PEP.leaveOut, PEP.toBase, Function.update_of_ne hi, PEP.row, Pi.zero_apply, sub_zero]
    have hb := marginal_site (SSM.Kd_posDef hqn) (SSM.Kd_posDef hqn') e3 (by
      rw [blkSel_conj]; exact posDef_blk (SSM.Kd_posDef hqn) t)
    rw [blkSel_conj, blkSel_conj] at hb
    rw [PEP.cavPrec, ← hb]
    exact (posDef_blk (SSM.Kd_posDef hqn') t).inv
  obtain ⟨h1, -⟩ := c.cavity_cases hqn
  rw [← hcc] at h1
  refine ⟨_, _, h1 hp, fun t => ?_⟩
  obtain ⟨hv, hb⟩ := hcb _ _ (h1 hp) t
  refine ⟨hv, ?_⟩
  -- the leave-out model has the same property
  obtain ⟨s', hs', hq1', -⟩ := C34_dist_q (hv' t)
  have hss : s' = s := Except.ok.inj (hs'.symm.trans hs)
  subst hss
  have hb1 := (hq1' _ (hq' t)).2
  have hb2 := (hq1 q hq).2
  have hsum : ∀ x : Ix n d → ℝ, siteLogLik (fun t => c.toBase.sites.nat1 t 0) (fun t => c.toBase.sites.nat2 t 0 0)
      (latent1 c.toBase.kernel c.toBase.times x) =
      siteLogLik (fun i => (c.leaveOut t).toBase.sites.nat1 i 0) (fun i => (c.leaveOut t).toBase.sites.nat2 i 0 0)
        (latent1 (c.leaveOut t).toBase.kernel (c.leaveOut t).toBase.times x) +
      c.alpha * (c.sites.nat1 t 0 * latent1 c.kernel c.times x t + c.sites.nat2 t 0 0 * latent1 c.kernel c.times x t ^ 2) := by
    intro x
    unfold siteLogLik
    simp only [PEP.leaveOut, PEP.toBase]
    rw [← Finset.add_sum_erase _ _ (Finset.mem_univ t), ← Finset.add_sum_erase _ _ (Finset.mem_univ t)]
    have hne : ∀ i ∈ Finset.univ.erase t, Function.update c.sites.nat1 t ((1 - c.alpha) • c.sites.nat1 t) i 0 *
        latent1 c.kernel c.times x i + Function.update c.sites.nat2 t ((1 - c.alpha) • c.sites.nat2 t) i 0 0 *
        latent1 c.kernel c.times x i ^ 2 = c.sites.nat1 i 0 * latent1 c.kernel c.times x i +
        c.sites.nat2 i 0 0 * latent1 c.kernel c.times x i ^ 2 := fun i hi => by
      rw [Function.update_of_ne (Finset.ne_of_mem_erase hi), Function.update_of_ne (Finset.ne_of_mem_erase hi)]
    rw [Finset.sum_congr rfl hne]
    simp only [Function.update_self, Pi.smul_apply, Matrix.smul_apply, smul_eq_mul]
    ring
  simp only [hsum] at hb2
  have hml := latent1_measurable c.kernel c.times
  have hmt : Measurable fun x => latent1 c.kernel c.times x t := (measurable_pi_apply t).comp hml
  have hch := IsBayesPosterior.chain ((measurable_siteLogLik _ _).comp hml)
    (ℓ₂ := fun x => c.alpha * (c.sites.nat1 t 0 * latent1 c.kernel c.times x t +
      c.sites.nat2 t 0 0 * latent1 c.kernel c.times x t ^ 2)) (by fun_prop) hb1 hb2
  have hmap := IsBayesPosterior.map hmt
    (ℓ := fun f => c.alpha * (c.sites.nat1 t 0 * f + c.sites.nat2 t 0 0 * f ^ 2)) (by fun_prop) hch
  have hpr : IsProbabilityMeasure (q' t).law := by rw [SSM.law_eq_gauss]; infer_instance
  have hpr' : IsProbabilityMeasure ((q' t).law.map fun x => latent1 c.kernel c.times x t) :=
    Measure.isProbabilityMeasure_map hmt.aemeasurable
  have hs1 := IsBayesPosterior.symm (by fun_prop) hmap
  have hs2 := IsBayesPosterior.symm (by fun_prop) hb
  exact IsBayesPosterior.unique hs1 hs2

/-- C37: sites with `nat2 ≤ 0` and `0 ≤ alpha ≤ 1`: `dist_q` and all cavities exist. -/
theorem C37_cavity_exists {c : PEP n d} {k} (h : c.toBase.Valid k) (hneg : ∀ t, c.sites.nat2 t 0 0 ≤ 0)
    (h1 : c.alpha ≤ 1) : ∃ q r, c.distQ = .ok q ∧ c.computeCavity = .ok r := by
  obtain ⟨s, hs, -, hq2, -⟩ := C34_dist_q h
  obtain ⟨q, hq⟩ := hq2 hneg
  have : ∀ t, ∃ q', (c.leaveOut t).distQ = .ok q' := fun t => by
    obtain ⟨s', hs', -, hq2', -⟩ := C34_dist_q (c := (c.leaveOut t).toBase) (k := k)
      ⟨h.builds, h.noise, h.jitter, h.times, h.lower, h.upper, h.two⟩
    refine hq2' fun i => ?_
    by_cases hi : i = t
    · subst hi
      simp only [PEP.leaveOut, PEP.toBase, Function.update_self, Matrix.smul_apply, smul_eq_mul]
      exact mul_nonpos_of_nonneg_of_nonpos (by linarith) (hneg i)
    · simp only [PEP.leaveOut, PEP.toBase, Function.update_of_ne hi]
      exact hneg i
  choose q' hq' using this
  obtain ⟨m, v, hmv, -⟩ := C37_leave_out h hq hq'
  exact ⟨q, _, hq, hmv⟩

/-! ### `update_sites` -/

theorem PEP.mask_count (l : List (Fin (n + 1))) (t : Fin (n + 1)) :
    PEP.maskIndices (some l) t = (l.count t : ℝ) := by
  show (∑ j : Fin l.length, if l.get j = t then (1 : ℝ) else 0) = _
  induction l with
  | nil => simp
  | cons a l ih =>
    show (∑ j : Fin (l.length + 1), if (a :: l).get j = t then (1 : ℝ) else 0) = _
    rw [Fin.sum_univ_succ]
    have e : ∀ j : Fin l.length, (a :: l).get j.succ = l.get j := fun _ => rfl
    have e0 : (a :: l).get (0 : Fin (l.length + 1)) = a := rfl
    simp only [e, e0, ih, List.count_cons]
    by_cases h : a = t <;> simp [h, add_comm]

/-- What the new site of datum `t` would be: `(1 - r) θ + r ((1 - alpha) θ + L)`, `L` the corrected gradients at the cavity. -/
noncomputable def PEP.target (c : PEP n d) (m v : Fin (n + 1) → Vec 1) (t : Fin (n + 1)) : ℝ × ℝ :=
  let L := gradientCorrection (m t 0) (v t 0) (c.likelihood.grads (m t 0) (v t 0) (c.observations t 0) c.alpha)
  ((1 - c.learningRate) * c.sites.nat1 t 0 + c.learningRate * ((1 - c.alpha) * c.sites.nat1 t 0 + L.1),
   (1 - c.learningRate) * c.sites.nat2 t 0 0 + c.learningRate * ((1 - c.alpha) * c.sites.nat2 t 0 0 + L.2))

/-- The log normalisers computed by `update_sites`. -/
noncomputable def PEP.newLogNorm (c : PEP n d) (q : SSM n d) (m v : Fin (n + 1) → Vec 1) (t : Fin (n + 1)) : ℝ :=
  c.likelihood.logExpectedDensity (m t 0) (v t 0) (c.observations t 0) c.alpha + PEP.logNormaliser (m t 0) (v t 0) -
    PEP.logNormaliser (c.row t ⬝ᵥ q.mus t) (c.row t ⬝ᵥ (blk q.Kd t t *ᵥ c.row t))

theorem PEP.updateSites_eq {c : PEP n d} {k} (h : c.toBase.Valid k) {q} (hq : c.distQ = .ok q) {m v}
    (hmv : c.computeCavity = .ok (m, v)) (i : Option (List (Fin (n + 1)))) :
    ∃ c', c.updateSites i = .ok c' ∧ c' = { c with sites := c'.sites, logNorm := c'.logNorm } ∧ ∀ t,
      c'.sites.nat1 t 0 = (1 - PEP.maskIndices i t) * c.sites.nat1 t 0 + PEP.maskIndices i t * (c.target m v t).1 ∧
      c'.sites.nat2 t 0 0 = (1 - PEP.maskIndices i t) * c.sites.nat2 t 0 0 + PEP.maskIndices i t * (c.target m v t).2 ∧
      c'.logNorm t 0 = (1 - PEP.maskIndices i t) * c.logNorm t 0 + PEP.maskIndices i t *
        ((1 - c.learningRate) * c.logNorm t 0 + c.learningRate * ((1 - c.alpha) * c.logNorm t 0 + c.newLogNorm q m v t)) := by
  obtain ⟨s, hs, hq1, -⟩ := C34_dist_q h
  have hqn := (hq1 q hq).1
  obtain ⟨hco, -, -⟩ := Builds.good h.builds
  have hcc : c.computeCavity = c.cavityFromMarginals (q.mus, fun t => blk q.Kd t t) := by
    unfold PEP.computeCavity
    rw [hq]
    simp only [bind, Except.bind, SSM.marginals_eq hqn h.two hco.pos]
  rw [hcc] at hmv
  unfold PEP.updateSites
  rw [hq]
  simp only [bind, Except.bind, pure, Except.pure, SSM.marginals_eq hqn h.two hco.pos, hmv]
  refine ⟨_, rfl, rfl, fun t => ⟨?_, ?_, ?_⟩⟩
  · simp only [Pi.add_apply, Pi.smul_apply, smul_eq_mul, PEP.target, PEP.localObjectiveGradients]
  · simp only [Matrix.add_apply, Matrix.smul_apply, smul_eq_mul, PEP.target, PEP.localObjectiveGradients, of_apply]
  · simp only [Pi.add_apply, Pi.smul_apply, smul_eq_mul, PEP.newLogNorm, PEP.localObjectiveGradients]
    have e1 : projectStateToF (fun t => c.kernel.emission (c.times t)) q.mus t 0 = c.row t ⬝ᵥ q.mus t := by
      rw [(C25_projection _ _ (fun _ => 0) t).1]; rfl
    have e2 : projectStateCovarianceToFDiag (fun t => c.kernel.emission (c.times t)) (fun t => blk q.Kd t t) t 0 =
        c.row t ⬝ᵥ (blk q.Kd t t *ᵥ c.row t) := by
      rw [(C25_projection _ (fun _ => 0) _ t).2.2]
      simp only [Matrix.mul_apply, transpose_apply, dotProduct, mulVec, PEP.row, Finset.sum_mul, Finset.mul_sum]
      rw [Finset.sum_comm]
      exact Finset.sum_congr rfl fun i _ => Finset.sum_congr rfl fun j _ => by ring
    rw [e1, e2]

/-- C37: `update_sites(indices)` with distinct indices: the selected sites become `(1 - r) θ + r ((1 - alpha) θ + L)` with
`L` the corrected gradients at the cavity and `r` the learning rate, all computed from the state before the call; the others
do not change, nor does any other attribute. -/
theorem C37_update {c : PEP n d} {k} (h : c.toBase.Valid k) {q} (hq : c.distQ = .ok q) {m v}
    (hmv : c.computeCavity = .ok (m, v)) {l : List (Fin (n + 1))} (hl : l.Nodup) :
    ∃ c', c.updateSites (some l) = .ok c' ∧ c' = { c with sites := c'.sites, logNorm := c'.logNorm } ∧
      (∀ t ∈ l, ∃ L, L = gradientCorrection (m t 0) (v t 0)
          (c.likelihood.grads (m t 0) (v t 0) (c.observations t 0) c.alpha) ∧
        c'.sites.nat1 t 0 = (1 - c.learningRate) * c.sites.nat1 t 0 + c.learningRate * ((1 - c.alpha) * c.sites.nat1 t 0 + L.1) ∧
        c'.sites.nat2 t 0 0 =
          (1 - c.learningRate) * c.sites.nat2 t 0 0 + c.learningRate * ((1 - c.alpha) * c.sites.nat2 t 0 0 + L.2)) ∧
      ∀ t, t ∉ l → c'.sites.nat1 t = c.sites.nat1 t ∧ c'.sites.nat2 t = c.sites.nat2 t ∧ c'.logNorm t = c.logNorm t := by
  obtain ⟨c', h1, h2, h3⟩ := PEP.updateSites_eq h hq hmv (some l)
  refine ⟨c', h1, h2, fun t ht => ⟨_, rfl, ?_, ?_⟩, fun t ht => ⟨?_, ?_, ?_⟩⟩
  · rw [(h3 t).1, PEP.mask_count, List.count_eq_one_of_mem hl ht]
    simp [PEP.target]
  · rw [(h3 t).2.1, PEP.mask_count, List.count_eq_one_of_mem hl ht]
    simp [PEP.target]
  · funext a
    obtain rfl : a = 0 := Subsingleton.elim _ _
    rw [(h3 t).1, PEP.mask_count, List.count_eq_zero_of_not_mem ht]; simp
  · ext a b
    obtain rfl : a = 0 := Subsingleton.elim _ _
    obtain rfl : b = 0 := Subsingleton.elim _ _
    rw [(h3 t).2.1, PEP.mask_count, List.count_eq_zero_of_not_mem ht]; simp
  · funext a
    obtain rfl : a = 0 := Subsingleton.elim _ _
    rw [(h3 t).2.2, PEP.mask_count, List.count_eq_zero_of_not_mem ht]; simp

/-- C37 (finding): `update_sites()` without indices, documented as updating, changes nothing. -/
theorem C37_update_none {c : PEP n d} {k} (h : c.toBase.Valid k) {q} (hq : c.distQ = .ok q) {r}
    (hr : c.computeCavity = .ok r) : c.updateSites none = .ok c := by
  obtain ⟨c', h1, h2, h3⟩ := PEP.updateSites_eq h hq (m := r.1) (v := r.2) hr none
  rw [h1]
  congr 1
  rw [h2]
  have hz : ∀ t, PEP.maskIndices (n := n) none t = 0 := fun _ => rfl
  have e1 : c'.sites = c.sites := by
    have a1 : c'.sites.nat1 = c.sites.nat1 := by
      funext t a
      obtain rfl : a = 0 := Subsingleton.elim _ _
      rw [(h3 t).1, hz]; simp
    have a2 : c'.sites.nat2 = c.sites.nat2 := by
      funext t; ext a b
      obtain rfl : a = 0 := Subsingleton.elim _ _
      obtain rfl : b = 0 := Subsingleton.elim _ _
      rw [(h3 t).2.1, hz]; simp
    cases hc : c'.sites; cases hc' : c.sites
    rw [hc, hc'] at a1 a2
    cases a1; cases a2; rfl
  have e2 : c'.logNorm = c.logNorm := by
    funext t a
    obtain rfl : a = 0 := Subsingleton.elim _ _
    rw [(h3 t).2.2, hz]; simp
  rw [e1, e2]

/-- C37 (finding): an index given `j` times moves its site `j` times as far as one update would. -/
theorem C37_duplicate_indices {c : PEP n d} {k} (h : c.toBase.Valid k) {q} (hq : c.distQ = .ok q) {r}
    (hr : c.computeCavity = .ok r) (l : List (Fin (n + 1))) :
    ∃ c₁ c', c.updateSites (some l.dedup) = .ok c₁ ∧ c.updateSites (some l) = .ok c' ∧ ∀ t,
      c'.sites.nat1 t 0 - c.sites.nat1 t 0 = l.count t * (c₁.sites.nat1 t 0 - c.sites.nat1 t 0) ∧
      c'.sites.nat2 t 0 0 - c.sites.nat2 t 0 0 = l.count t * (c₁.sites.nat2 t 0 0 - c.sites.nat2 t 0 0) := by
  obtain ⟨c₁, h1, -, h3⟩ := PEP.updateSites_eq h hq (m := r.1) (v := r.2) hr (some l.dedup)
  obtain ⟨c', h1', -, h3'⟩ := PEP.updateSites_eq h hq (m := r.1) (v := r.2) hr (some l)
  refine ⟨c₁, c', h1, h1', fun t => ?_⟩
  rw [(h3 t).1, (h3 t).2.1, (h3' t).1, (h3' t).2.1, PEP.mask_count, PEP.mask_count]
  by_cases ht : t ∈ l
  · rw [List.count_eq_one_of_mem l.nodup_dedup (List.mem_dedup.2 ht)]
    push_cast
    constructor <;> ring
  · rw [List.count_eq_zero_of_not_mem ht]
    simp

/-- C37: the log normaliser computed for datum `t` is the expected density at the cavity minus the log integral of the old
site (to the power `alpha`) under the cavity (alpha = 1, learning rate 1). -/
theorem C37_log_norm {c : PEP n d} {k} (h : c.toBase.Valid k) {q} (hq : c.distQ = .ok q) {m v}
    (hmv : c.computeCavity = .ok (m, v)) (hr : c.learningRate = 1) (ha : c.alpha = 1) {l : List (Fin (n + 1))} (hl : l.Nodup) :
    ∃ c', c.updateSites (some l) = .ok c' ∧ ∀ t ∈ l, 0 < v t 0 →
      c'.logNorm t 0 = c.likelihood.logExpectedDensity (m t 0) (v t 0) (c.observations t 0) 1 -
        Real.log (∫ f, Real.exp (c.sites.nat1 t 0 * f + c.sites.nat2 t 0 0 * f ^ 2)
          ∂gaussianReal (m t 0) (v t 0).toNNReal) := by
  obtain ⟨c', h1, -, h3⟩ := PEP.updateSites_eq h hq hmv (some l)
  refine ⟨c', h1, fun t ht hv => ?_⟩
  obtain ⟨hvq, e1, e2⟩ := PEP.cavity_marginal h hq hmv hv
  rw [ha, one_mul] at e1 e2
  obtain ⟨hb, hev⟩ := gaussianReal_site hv hvq e1 e2
  rw [IsBayesPosterior.evidence_eq (by fun_prop) hb, ENNReal.ofReal_eq_ofReal_iff
    (integral_nonneg fun _ => (Real.exp_pos _).le) (Real.exp_pos _).le] at hev
  rw [(h3 t).2.2, PEP.mask_count, List.count_eq_one_of_mem hl ht, hev, Real.log_exp, hr, ha, PEP.newLogNorm, ha]
  push_cast
  ring

/-! ### moment matching -/

/-- C37: with the exact `predict_log_density` and `alpha = 1`, the new site of a likelihood bounded above is the moment
matching one: the Gaussian `cavity × new site` has the mean and the variance of `cavity × likelihood`. -/
theorem C37_moment_matching {lik : ScalarLikelihood} {pld : ℝ → ℝ → ℝ → ℝ}
    (hp : ∀ m v y, 0 < v → pld m v y = Real.log (∫ f, Real.exp (lik.logProb f y) ∂gaussianReal m v.toNNReal))
    {m v y alpha : ℝ} (hv : 0 < v) (hm : Measurable fun f => lik.logProb f y) (hB : ∃ B, ∀ f, lik.logProb f y ≤ B)
    (hg : ((pepScalar lik pld).grads m v y alpha).2 ≠ 0) {τ : Measure ℝ}
    (hτ : IsBayesPosterior (gaussianReal m v.toNNReal) (fun f => lik.logProb f y) τ) :
    let L := gradientCorrection m v ((pepScalar lik pld).grads m v y alpha)
    0 < Var[id; τ] ∧ IsBayesPosterior (gaussianReal m v.toNNReal) (fun f => L.1 * f + L.2 * f ^ 2)
      (gaussianReal (∫ f, f ∂τ) Var[id; τ].toNNReal) := by
  intro L
  obtain ⟨B, hB⟩ := hB
  obtain ⟨h1, h2, h3⟩ := tilted_moments hm hB hv m hτ
  have e1 : ((pepScalar lik pld).grads m v y alpha).1 =
      deriv (fun m => Real.log (∫ f, Real.exp (lik.logProb f y) ∂gaussianReal m v.toNNReal)) m := by
    show deriv (fun m => pld m v y) m = _
    rw [funext fun m => hp m v y hv]
  have e2 : ((pepScalar lik pld).grads m v y alpha).2 =
      deriv (deriv fun m => Real.log (∫ f, Real.exp (lik.logProb f y) ∂gaussianReal m v.toNNReal)) m := by
    show deriv (deriv fun m => pld m v y) m = _
    rw [funext fun m => hp m v y hv]
  rw [← e1] at h1
  rw [← e2] at h2
  refine ⟨h3, ?_⟩
  set g := (pepScalar lik pld).grads m v y alpha with hgdef
  have hne : 1 + v * g.2 ≠ 0 := fun h0 => by
    rw [← h2] at h3
    have : v + v ^ 2 * g.2 = v * (1 + v * g.2) := by ring
    rw [this, h0, mul_zero] at h3
    exact lt_irrefl _ h3
  have hL2 : L.2 = 1 / 2 * (g.2 / (1 + v * g.2)) := by
    show 1 / 2 * (v + 1 / g.2)⁻¹ = _
    congr 1
    rw [inv_eq_one_div, div_eq_div_iff (by
      intro h0
      apply hne
      have := congrArg (· * g.2) h0
      simp only [add_mul, one_div, inv_mul_cancel₀ hg, zero_mul] at this
      linarith) hne]
    field_simp
    ring
  have hL1 : L.1 = (g.1 - m * g.2) / (1 + v * g.2) := by
    show 2 * L.2 * (1 * g.1 / g.2 - m) = _
    rw [hL2]
    field_simp
  refine (gaussianReal_site hv h3 ?_ ?_).1
  · rw [← h2, hL2]
    have : v + v ^ 2 * g.2 = v * (1 + v * g.2) := by ring
    rw [this]
    field_simp
    ring
  · rw [← h2, ← h1, hL1]
    have : v + v ^ 2 * g.2 = v * (1 + v * g.2) := by ring
    rw [this]
    field_simp
    ring

/-- C37: expectation propagation. With `alpha = 1`, `learning_rate = 1` and the exact `predict_log_density`, after
`update_sites` the cavity of an updated datum times its new site has the mean and variance of the cavity times the
likelihood. If the update leaves the site unchanged, the marginal of `f_t` under `dist_q` has them. -/
theorem C37_ep_update {c : PEP n d} {k} (h : c.toBase.Valid k) {q} (hq : c.distQ = .ok q) {m v}
    (hmv : c.computeCavity = .ok (m, v)) (hr : c.learningRate = 1) (ha : c.alpha = 1) {l : List (Fin (n + 1))} (hl : l.Nodup)
    {lik : ScalarLikelihood} {pld : ℝ → ℝ → ℝ → ℝ} (hlik : c.likelihood = pepScalar lik pld)
    (hp : ∀ m v y, 0 < v → pld m v y = Real.log (∫ f, Real.exp (lik.logProb f y) ∂gaussianReal m v.toNNReal)) :
    ∃ c', c.updateSites (some l) = .ok c' ∧ ∀ t ∈ l, 0 < v t 0 → Measurable (fun f => lik.logProb f (c.observations t 0)) →
      (∃ B, ∀ f, lik.logProb f (c.observations t 0) ≤ B) →
      deriv (deriv fun m => pld m (v t 0) (c.observations t 0)) (m t 0) ≠ 0 →
      ∀ τ, IsBayesPosterior (gaussianReal (m t 0) (v t 0).toNNReal) (fun f => lik.logProb f (c.observations t 0)) τ →
        IsBayesPosterior (gaussianReal (m t 0) (v t 0).toNNReal)
          (fun f => c'.sites.nat1 t 0 * f + c'.sites.nat2 t 0 0 * f ^ 2) (gaussianReal (∫ f, f ∂τ) Var[id; τ].toNNReal) ∧
        (c'.sites.nat1 t = c.sites.nat1 t → c'.sites.nat2 t = c.sites.nat2 t →
          q.law.map (fun x => latent1 c.kernel c.times x t) = gaussianReal (∫ f, f ∂τ) Var[id; τ].toNNReal) := by
  obtain ⟨c', h1, -, h3, -⟩ := C37_update h hq hmv hl
  refine ⟨c', h1, fun t ht hv hm hB hg τ hτ => ?_⟩
  obtain ⟨L, hL, e1, e2⟩ := h3 t ht
  obtain ⟨-, hb⟩ := C37_moment_matching hp hv hm hB (alpha := c.alpha) hg hτ
  rw [hlik] at hL
  simp only [← hL] at hb
  have hb' : IsBayesPosterior (gaussianReal (m t 0) (v t 0).toNNReal)
      (fun f => c'.sites.nat1 t 0 * f + c'.sites.nat2 t 0 0 * f ^ 2) (gaussianReal (∫ f, f ∂τ) Var[id; τ].toNNReal) := by
    rw [e1, e2, hr, ha]
    simpa using hb
  refine ⟨hb', fun s1 s2 => ?_⟩
  have hc := ((C37_cavity h hq).1 m v hmv t).2
  simp only [ha, one_mul] at hc
  rw [s1, s2] at hb'
  exact IsBayesPosterior.unique hc hb'

/-! ### the Gaussian likelihood -/

/-- C37: Gaussian likelihood, `alpha = 1`: whatever the cavity, the corrected gradients are the exact site
`(y/σ², -1/(2σ²))`. -/
theorem C37_gaussian_exact {s v : ℝ} (hs : 0 < s) (hv : 0 ≤ v) (m y : ℝ) :
    gradientCorrection m v ((pepGaussian s).grads m v y 1) = (y / s, -1 / (2 * s)) := by
  have hsv : s + v ≠ 0 := by positivity
  simp only [gradientCorrection, pepGaussian]
  have e : (v + 1 / (-1 * 1 / (s + v)))⁻¹ = -1 / s := by
    rw [show v + 1 / (-1 * 1 / (s + v)) = -s by field_simp; ring]
    field_simp
  rw [e]
  ext
  · field_simp; ring
  · field_simp

/-- C37 (finding): Gaussian likelihood with power `alpha`: the pseudo-observation noise is `s + (1 - alpha) v` with `v` the
cavity variance instead of `s`, so the exact site is missed unless `alpha = 1`; the wrapper for general likelihoods ignores
`alpha` altogether (its gradients are those of `alpha = 1`). -/
theorem C37_gaussian_alpha {s v a : ℝ} (hs : 0 < s) (hv : 0 ≤ v) (ha : 0 < a) (ha1 : a ≤ 1) (m y : ℝ) :
    gradientCorrection m v ((pepGaussian s).grads m v y a) =
      (a * (y / (s + (1 - a) * v)), a * (-1 / (2 * (s + (1 - a) * v)))) ∧
    (∀ lik pld b, (pepScalar lik pld).grads m v y a = (pepScalar lik pld).grads m v y b) := by
  refine ⟨?_, fun _ _ _ => rfl⟩
  have hsv : s + v ≠ 0 := by positivity
  have hp : 0 < s + (1 - a) * v := by
    have := mul_nonneg (sub_nonneg.2 ha1) hv
    linarith
  simp only [gradientCorrection, pepGaussian]
  have e : (v + 1 / (-a * 1 / (s + v)))⁻¹ = -a / (s + (1 - a) * v) := by
    rw [show v + 1 / (-a * 1 / (s + v)) = -(s + (1 - a) * v) / a by field_simp; ring, inv_div, neg_div, div_neg]
  rw [e]
  ext
  · field_simp; ring
  · field_simp

/-- The number of visits of datum `t` in a schedule. -/
def PEP.visits (is : List (List (Fin (n + 1)))) (t : Fin (n + 1)) : ℕ := is.countP fun l => t ∈ l

/-- C37: Gaussian likelihood, `alpha = 1`, `0 ≤ learning_rate ≤ 1`: any schedule of updates succeeds, and after `k` visits of
a datum its site is `(1 - r)^k` times the initial one plus `1 - (1 - r)^k` times the exact one. -/
theorem C37_schedule {σ2 : ℝ} (hσ : 0 < σ2) {kf} (is : List (List (Fin (n + 1)))) (his : ∀ l ∈ is, l.Nodup) {c : PEP n d}
    (h : c.toBase.Valid kf) (hlik : c.likelihood = pepGaussian σ2) (ha : c.alpha = 1) (h0 : 0 ≤ c.learningRate)
    (h1 : c.learningRate ≤ 1) (hneg : ∀ t, c.sites.nat2 t 0 0 ≤ 0) :
    ∃ c', PEP.updates (is.map some) c = .ok c' ∧ c' = { c with sites := c'.sites, logNorm := c'.logNorm } ∧ ∀ t,
      c'.sites.nat1 t 0 = (1 - c.learningRate) ^ PEP.visits is t * c.sites.nat1 t 0 +
        (1 - (1 - c.learningRate) ^ PEP.visits is t) * (c.observations t 0 / σ2) ∧
      c'.sites.nat2 t 0 0 = (1 - c.learningRate) ^ PEP.visits is t * c.sites.nat2 t 0 0 +
        (1 - (1 - c.learningRate) ^ PEP.visits is t) * (-1 / (2 * σ2)) := by
  induction is generalizing c with
  | nil => exact ⟨c, rfl, rfl, fun t => ⟨by simp [PEP.visits], by simp [PEP.visits]⟩⟩
  | cons l is ih =>
    obtain ⟨q, ⟨m, v⟩, hq, hmv⟩ := C37_cavity_exists h hneg ha.le
    obtain ⟨c₁, hu, e1, hin, hout⟩ := C37_update h hq hmv (his l (List.mem_cons_self ..))
    have hv0 : ∀ t, 0 ≤ v t 0 := fun t => ((C37_cavity h hq).1 m v hmv t).1
    have hin' : ∀ t ∈ l, c₁.sites.nat1 t 0 = (1 - c.learningRate) * c.sites.nat1 t 0 +
        c.learningRate * (c.observations t 0 / σ2) ∧
        c₁.sites.nat2 t 0 0 = (1 - c.learningRate) * c.sites.nat2 t 0 0 + c.learningRate * (-1 / (2 * σ2)) := by
      intro t ht
      obtain ⟨L, hL, a1, a2⟩ := hin t ht
      rw [hlik, ha, C37_gaussian_exact hσ (hv0 t)] at hL
      subst hL
      rw [a1, a2, ha]
      simp
    have hv1 : c₁.toBase.Valid kf := by
      rw [e1]; exact ⟨h.builds, h.noise, h.jitter, h.times, h.lower, h.upper, h.two⟩
    have hneg1 : ∀ t, c₁.sites.nat2 t 0 0 ≤ 0 := fun t => by
      by_cases ht : t ∈ l
      · rw [(hin' t ht).2]
        have a1 := mul_nonpos_of_nonneg_of_nonpos (sub_nonneg.2 h1) (hneg t)
        have a2 : c.learningRate * (-1 / (2 * σ2)) ≤ 0 := mul_nonpos_of_nonneg_of_nonpos h0
          (div_nonpos_of_nonpos_of_nonneg (by norm_num) (by positivity))
        linarith
      · rw [(hout t ht).2.1]; exact hneg t
    obtain ⟨c', hc', e2, hs⟩ := ih (fun l' hl' => his l' (List.mem_cons_of_mem _ hl')) hv1 (by rw [e1]; exact hlik)
      (by rw [e1]; exact ha) (by rw [e1]; exact h0) (by rw [e1]; exact h1) hneg1
    have hlr : c₁.learningRate = c.learningRate := by rw [e1]
    have hob : c₁.observations = c.observations := by rw [e1]
    refine ⟨c', ?_, ?_, fun t => ?_⟩
    · simp only [List.map_cons, PEP.updates, bind, Except.bind, hu]
      exact hc'
    · rw [e2, e1]
    · rw [(hs t).1, (hs t).2, hlr, hob]
      by_cases ht : t ∈ l
      · have hvs : PEP.visits (l :: is) t = PEP.visits is t + 1 := by
          unfold PEP.visits; rw [List.countP_cons_of_pos (by simpa using ht)]
        rw [(hin' t ht).1, (hin' t ht).2, hvs, pow_succ]
        constructor <;> ring
      · have hvs : PEP.visits (l :: is) t = PEP.visits is t := by
          unfold PEP.visits; rw [List.countP_cons_of_neg (by simpa using ht)]
        rw [(hout t ht).1, (hout t ht).2.1, hvs]
        exact ⟨rfl, rfl⟩

/-- C37: Gaussian likelihood, `alpha = 1`, `learning_rate = 1`: after any schedule that visits every datum at least once,
`dist_q` is the posterior of `GaussianProcessRegression` (mean function zero) and `elbo()` its log marginal likelihood. -/
theorem C37_gaussian_regression {σ2 : ℝ} (hσ : 0 < σ2) {kf} (is : List (List (Fin (n + 1)))) (his : ∀ l ∈ is, l.Nodup)
    (hall : ∀ t, ∃ l ∈ is, t ∈ l) {c : PEP n d} (h : c.toBase.Valid kf) (hlik : c.likelihood = pepGaussian σ2)
    (ha : c.alpha = 1) (hr : c.learningRate = 1) (hneg : ∀ t, c.sites.nat2 t 0 0 ≤ 0) :
    ∃ (c' : PEP n d) (q : SSM n d) (L : ℝ) (p : CondProcess n 1 d), PEP.updates (is.map some) c = .ok c' ∧
      c'.distQ = .ok q ∧ (c.toBase.toGPR σ2).posterior = .ok p ∧ (c.toBase.toGPR σ2).logLikelihood = .ok L ∧
      q.law = p.q.law ∧ c'.elbo = .ok L := by
  obtain ⟨c', hc', e1, hs⟩ := C37_schedule hσ is his h hlik ha (by rw [hr]; norm_num) hr.le hneg
  have hv : c'.toBase.Valid kf := by
    rw [e1]; exact ⟨h.builds, h.noise, h.jitter, h.times, h.lower, h.upper, h.two⟩
  have hpos : ∀ t, (0 : ℝ) ^ PEP.visits is t = 0 := fun t => by
    apply zero_pow
    unfold PEP.visits
    have : 0 < is.countP fun l => t ∈ l := by
      rw [List.countP_pos_iff]
      obtain ⟨l, hl, ht⟩ := hall t
      exact ⟨l, hl, by simpa using ht⟩
    exact this.ne'
  have hob : c'.observations = c.observations := by rw [e1]
  obtain ⟨q, L, p, h1, h2, h3, h4, h5, -⟩ := C34_exact_sites hv hσ (by rw [e1]; show c.likelihood.base = _; rw [hlik]; rfl)
    (fun t => by
      show c'.sites.nat1 t 0 = c'.observations t 0 / σ2
      rw [(hs t).1, hr, hob, sub_self, hpos]; simp)
    (fun t => by
      show c'.sites.nat2 t 0 0 = _
      rw [(hs t).2, hr, sub_self, hpos]; simp)
  have hg : c'.toBase.toGPR σ2 = c.toBase.toGPR σ2 := by rw [e1]; rfl
  rw [hg] at h2 h3
  exact ⟨c', q, L, p, hc', h1, h2, h3, h4, h5⟩

/-! ### `energy` -/

/-- C37 (finding): `energy()` is `log ∫ ∏ sites dprior + (1/alpha) Σ_t (obj_t - log ∫ site_t^alpha dcavity_t)`, the EP energy,
except that the expected densities `obj_t` are taken under the posterior marginals and not under the cavities. -/
theorem C37_energy {c : PEP n d} {k} (h : c.toBase.Valid k) {q} (hq : c.distQ = .ok q) {m v}
    (hmv : c.computeCavity = .ok (m, v)) (hv : ∀ t, 0 < v t 0) :
    ∃ (s : SSM n d) (E : ℝ) (mq vq : Fin (n + 1) → ℝ), c.kernel.stateSpaceModel c.times = .ok s ∧ c.energy = .ok E ∧
      (∀ t, 0 < vq t ∧ q.law.map (fun x => latent1 c.kernel c.times x t) = gaussianReal (mq t) (vq t).toNNReal) ∧
      E = Real.log (∫ x, Real.exp (∑ t, (c.sites.nat1 t 0 * latent1 c.kernel c.times x t +
            c.sites.nat2 t 0 0 * latent1 c.kernel c.times x t ^ 2)) ∂s.law) +
        1 / c.alpha * ∑ t, (c.likelihood.logExpectedDensity (mq t) (vq t) (c.observations t 0) c.alpha -
          Real.log (∫ f, Real.exp (c.alpha * (c.sites.nat1 t 0 * f + c.sites.nat2 t 0 0 * f ^ 2))
            ∂gaussianReal (m t 0) (v t 0).toNNReal)) := by
  obtain ⟨s, hs, hq1, -⟩ := C34_dist_q h
  obtain ⟨hqn, hqb⟩ := hq1 q hq
  obtain ⟨hco, -, -⟩ := Builds.good h.builds
  have hcc : c.computeCavity = c.cavityFromMarginals (q.mus, fun t => blk q.Kd t t) := by
    unfold PEP.computeCavity
    rw [hq]
    simp only [bind, Except.bind, SSM.marginals_eq hqn h.two hco.pos]
  obtain ⟨zq, zp, hzq, hzp, hev⟩ := CVI.sites_evidence h hs hq
  have hmv' := hmv
  rw [hcc] at hmv'
  have e1 : ∀ t, projectStateToF (fun t => c.kernel.emission (c.times t)) q.mus t 0 = c.row t ⬝ᵥ q.mus t := fun t => by
    rw [(C25_projection _ _ (fun _ => 0) t).1]; rfl
  have e2 : ∀ t, projectStateCovarianceToFDiag (fun t => c.kernel.emission (c.times t)) (fun t => blk q.Kd t t) t 0 =
      c.row t ⬝ᵥ (blk q.Kd t t *ᵥ c.row t) := fun t => by
    rw [(C25_projection _ (fun _ => 0) _ t).2.2]
    simp only [Matrix.mul_apply, transpose_apply, dotProduct, mulVec, PEP.row, Finset.sum_mul, Finset.mul_sum]
    rw [Finset.sum_comm]
    exact Finset.sum_congr rfl fun i _ => Finset.sum_congr rfl fun j _ => by ring
  have hln : c.computeLogNorm = .ok (fun t => c.likelihood.logExpectedDensity (c.row t ⬝ᵥ q.mus t)
      (c.row t ⬝ᵥ (blk q.Kd t t *ᵥ c.row t)) (c.observations t 0) c.alpha + PEP.logNormaliser (m t 0) (v t 0) -
      PEP.logNormaliser (c.row t ⬝ᵥ q.mus t) (c.row t ⬝ᵥ (blk q.Kd t t *ᵥ c.row t))) := by
    unfold PEP.computeLogNorm
    rw [hq]
    simp only [bind, Except.bind, pure, Except.pure, SSM.marginals_eq hqn h.two hco.pos, hmv', PEP.localObjectiveGradients,
      e1, e2]
  have hdp : c.toBase.distP = .ok s := hs
  refine ⟨s, _, fun t => c.row t ⬝ᵥ q.mus t, fun t => c.row t ⬝ᵥ (blk q.Kd t t *ᵥ c.row t), hs, by
    unfold PEP.energy
    simp only [hln, hq, hdp, hzq, hzp, bind, Except.bind, pure, Except.pure]
    rfl, fun t => ⟨(PEP.cavity_marginal h hq hmv (hv t)).1, ?_⟩, ?_⟩
  · have := (gaussLaw_dot (posDef_blk (SSM.Kd_posDef hqn) t).posSemidef (q.mus t) (c.row t)).2
    rw [← this, ← SSM.law_block, Measure.map_map (measurable_dot _) (measurable_unstk t)]
    congr 1
    funext x
    exact latent1_row c x t
  · have hlz : Real.log (∫ x, Real.exp (∑ t, (c.sites.nat1 t 0 * latent1 c.kernel c.times x t +
        c.sites.nat2 t 0 0 * latent1 c.kernel c.times x t ^ 2)) ∂s.law) = zq - zp := by
      have hms : Measurable fun x => siteLogLik (fun t => c.toBase.sites.nat1 t 0) (fun t => c.toBase.sites.nat2 t 0 0)
          (latent1 c.toBase.kernel c.toBase.times x) :=
        (measurable_siteLogLik _ _).comp (latent1_measurable c.kernel c.times)
      rw [IsBayesPosterior.evidence_eq hms hqb,
        ENNReal.ofReal_eq_ofReal_iff (integral_nonneg fun _ => (Real.exp_pos _).le) (Real.exp_pos _).le] at hev
      have := congrArg Real.log hev
      rw [Real.log_exp] at this
      exact this
    rw [hlz]
    congr 2
    refine Finset.sum_congr rfl fun t _ => ?_
    obtain ⟨hvq, a1, a2⟩ := PEP.cavity_marginal h hq hmv (hv t)
    obtain ⟨hb, hev⟩ := gaussianReal_site (hv t) hvq a1 a2
    rw [IsBayesPosterior.evidence_eq (by fun_prop) hb, ENNReal.ofReal_eq_ofReal_iff
      (integral_nonneg fun _ => (Real.exp_pos _).le) (Real.exp_pos _).le] at hev
    have e3 : ∀ f : ℝ, c.alpha * (c.sites.nat1 t 0 * f + c.sites.nat2 t 0 0 * f ^ 2) =
        c.alpha * c.sites.nat1 t 0 * f + c.alpha * c.sites.nat2 t 0 0 * f ^ 2 := fun f => by ring
    simp only [e3]
    rw [hev, Real.log_exp]
    ring

/-- C37: the constructor gives a model that meets the hypotheses of the theorems above, for every kernel with noise, strictly increasing
times and powers up to one; its `dist_q` is the prior times one factor `exp(-1e-10 f²)` per datum, its cavities exist and its normalisers
are zero. -/
theorem C37_init {times : Fin (n + 1) → ℝ} {K : Stationary 1 d} {k} (hK : Builds K k) (hN : NoiseTag K true) (hj : K.jitter = 0)
    (ht : StrictMono times) (h0 : -10000000000 < times 0) (h1 : times (Fin.last n) ≤ 10000000000) (hn : 0 < n)
    (Y : Fin (n + 1) → Vec 1) (lik : PEPLikelihood) (m : Option (ℝ → Vec 1)) (r : ℝ) {a : ℝ} (ha : a ≤ 1) :
    ∃ c : PEP n d, PEP.init times Y K lik m r a = c ∧ c.toBase.Valid k ∧ (∀ t, c.sites.nat2 t 0 0 ≤ 0) ∧ c.observations = Y ∧ c.alpha = a ∧
      c.learningRate = r ∧ c.likelihood = lik ∧ (∀ t, c.logNorm t 0 = 0) ∧
      ∃ s q cav, K.stateSpaceModel times = .ok s ∧ c.distQ = .ok q ∧ c.computeCavity = .ok cav ∧
        IsBayesPosterior s.law (fun x => ∑ t, -(1e-10 * latent1 K times x t ^ 2)) q.law := by
  have hv : (PEP.init times Y K lik m r a).toBase.Valid k := ⟨hK, hN, hj, ht, h0, h1, hn⟩
  have hneg : ∀ t, (PEP.init times Y K lik m r a).sites.nat2 t 0 0 ≤ 0 := fun t => by show (-1e-10 : ℝ) ≤ 0; norm_num
  obtain ⟨q, cav, hq, hc⟩ := C37_cavity_exists hv hneg ha
  obtain ⟨s, hs, hq1, -⟩ := C34_dist_q hv
  refine ⟨_, rfl, hv, hneg, rfl, rfl, rfl, rfl, fun _ => rfl, s, q, cav, hs, hq, hc, ?_⟩
  have := (hq1 q hq).2
  have e : (fun x : Ix n d → ℝ => siteLogLik (fun t => (PEP.init times Y K lik m r a).toBase.sites.nat1 t 0)
      (fun t => (PEP.init times Y K lik m r a).toBase.sites.nat2 t 0 0) (latent1 K times x)) =
      fun x => ∑ t, -(1e-10 * latent1 K times x t ^ 2) := by
    funext x
    unfold siteLogLik
    refine Finset.sum_congr rfl fun t _ => ?_
    show (0 : ℝ) * _ + (-1e-10) * _ = _
    ring
  rw [← e]
  exact this

/-- Non-vacuity: the model built by the constructor for a Matérn 3/2 kernel and three data satisfies the hypotheses. -/
example : ∃ (c : PEP 2 2) (k : ℝ → ℝ → Mat 1 1), c.toBase.Valid k ∧ c.likelihood = pepGaussian 2 ∧ c.alpha = 1 ∧
    (∀ t, c.sites.nat2 t 0 0 ≤ 0) ∧ c.learningRate = 1 ∧ c.observations 1 0 ≠ 0 ∧
    (∃ q m v, c.distQ = .ok q ∧ c.computeCavity = .ok (m, v)) := by
  obtain ⟨K, hK⟩ := (C28_constructors (o := 1) 2 3 1 1 1 0).2.1.2 (by norm_num)
  have hv : ∃ k, (PEP.init (n := 2) ![0, 1, 3] (fun i => ![(i : ℝ)]) K (pepGaussian 2) none 1).toBase.Valid k := by
    refine ⟨_, .leaf (.matern32 hK), .matern32 hK, by show K.jitter = 0; rw [(kernelInit_ok hK).2.2]; rfl, ?_, ?_, ?_,
      by norm_num⟩
    · refine Fin.strictMono_iff_lt_succ.2 fun i => ?_
      fin_cases i <;> simp [PEP.init, PEP.toBase] <;> norm_num
    · show -10000000000 < (0 : ℝ); norm_num
    · show (3 : ℝ) ≤ 10000000000; norm_num
  obtain ⟨k, hv⟩ := hv
  have hneg : ∀ t, (PEP.init (n := 2) ![0, 1, 3] (fun i => ![(i : ℝ)]) K (pepGaussian 2) none 1).sites.nat2 t 0 0 ≤ 0 :=
    fun t => by show (-1e-10 : ℝ) ≤ 0; norm_num
  obtain ⟨q, ⟨m, v⟩, hq, hmv⟩ := C37_cavity_exists hv hneg le_rfl
  refine ⟨_, k, hv, rfl, rfl, hneg, rfl, ?_, q, m, v, hq, hmv⟩
  show (![((1 : Fin 3) : ℝ)] : Vec 1) 0 ≠ 0
  simp

/-- Non-vacuity of `C37_moment_matching`: the Poisson log density is measurable and bounded above and has a tilted
distribution with every Gaussian. -/
example (k : ℕ) (m v : ℝ) : Measurable (fun f => poissonLikelihood.logProb f k) ∧
    (∃ B, ∀ f, poissonLikelihood.logProb f k ≤ B) ∧
    ∃ τ, IsBayesPosterior (gaussianReal m v.toNNReal) (fun f => poissonLikelihood.logProb f k) τ := by
  have hm : Measurable (fun f => poissonLikelihood.logProb f k) := by
    unfold poissonLikelihood; fun_prop
  have hB : ∀ f, poissonLikelihood.logProb f k ≤ k * Real.log k := fun f => by
    show k * f - Real.exp f - Real.log (Real.Gamma (k + 1)) ≤ _
    rw [Real.Gamma_nat_eq_factorial]
    have h1 : 0 ≤ Real.log (k.factorial : ℝ) := Real.log_nonneg (by exact_mod_cast k.factorial_pos)
    rcases Nat.eq_zero_or_pos k with rfl | hk
    · have := Real.exp_pos f
      simp only [Nat.cast_zero, zero_mul] at h1 ⊢
      linarith
    · have hk' : (0 : ℝ) < k := by exact_mod_cast hk
      have h2 := Real.add_one_le_exp (f - Real.log k)
      rw [Real.exp_sub, Real.exp_log hk', le_div_iff₀ hk'] at h2
      nlinarith
  exact ⟨hm, ⟨_, hB⟩, exists_bayes hm hB⟩

end MF
