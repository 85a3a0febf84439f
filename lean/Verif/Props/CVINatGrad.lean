import Verif.Lemmas.CVINatGrad
import Verif.Spec.SiteNaturals
import Verif.Props.NatGrad
import Verif.Props.CVI

/-!
# C56: natural gradient descent on the variational GP and the CVI site update are the same algorithm
-/

namespace MF
open Matrix Spec MeasureTheory ProbabilityTheory InformationTheory
variable {n o d : ℕ}

/-! ### sites -/

theorem siteNaturals_symDiag (H : Fin (n + 1) → Mat o d) (l1 l2) : SymDiag (siteNaturals (n := n) H l1 l2) := fun t => by
  show ((H t)ᵀ * Matrix.diagonal (l2 t) * H t)ᵀ = _
  rw [transpose_mul, transpose_mul, transpose_transpose, diagonal_transpose, ← Matrix.mul_assoc]
  rfl

theorem siteNaturals_add (H : Fin (n + 1) → Mat o d) (a b c e : Fin (n + 1) → Vec o) :
    siteNaturals H (a + c) (b + e) = siteNaturals H a b + siteNaturals (n := n) H c e := by
  refine Prod.ext (funext fun t => ?_) (Prod.ext (funext fun t => ?_) (add_zero 0).symm)
  · show (H t)ᵀ *ᵥ (a t + c t) = (H t)ᵀ *ᵥ a t + (H t)ᵀ *ᵥ c t
    rw [mulVec_add]
  · show (H t)ᵀ * Matrix.diagonal (b t + e t) * H t = (H t)ᵀ * Matrix.diagonal (b t) * H t + (H t)ᵀ * Matrix.diagonal (e t) * H t
    rw [← Matrix.add_mul, ← Matrix.mul_add, diagonal_add]
    rfl

theorem siteNaturals_smul (H : Fin (n + 1) → Mat o d) (r : ℝ) (a b : Fin (n + 1) → Vec o) :
    siteNaturals H (r • a) (r • b) = r • siteNaturals (n := n) H a b := by
  refine Prod.ext (funext fun t => ?_) (Prod.ext (funext fun t => ?_) (smul_zero r).symm)
  · show (H t)ᵀ *ᵥ (r • a t) = r • ((H t)ᵀ *ᵥ a t)
    rw [mulVec_smul]
  · show (H t)ᵀ * Matrix.diagonal (r • b t) * H t = r • ((H t)ᵀ * Matrix.diagonal (b t) * H t)
    rw [diagonal_smul, Matrix.mul_smul, Matrix.smul_mul]

theorem siteNaturals_sum {ι : Type*} (S : Finset ι) (H : Fin (n + 1) → Mat o d) (a b : ι → Fin (n + 1) → Vec o) :
    siteNaturals H (∑ i ∈ S, a i) (∑ i ∈ S, b i) = ∑ i ∈ S, siteNaturals (n := n) H (a i) (b i) := by
  classical
  induction S using Finset.induction_on with
  | empty =>
    simp only [Finset.sum_empty]
    have := siteNaturals_smul (n := n) H 0 0 0
    rwa [zero_smul, zero_smul] at this
  | insert i S hi ih => rw [Finset.sum_insert hi, Finset.sum_insert hi, Finset.sum_insert hi, siteNaturals_add, ih]

/-- The unit site for one output. -/
noncomputable def unitSite (i : Fin (n + 1) × Fin o) : Fin (n + 1) → Vec o := Pi.single i.1 (Pi.single i.2 1)

theorem sum_unitSite (g : Fin (n + 1) → Vec o) : ∑ i : Fin (n + 1) × Fin o, g i.1 i.2 • unitSite i = g := by
  funext t a
  rw [Finset.sum_apply, Finset.sum_apply, Finset.sum_eq_single (t, a)]
  · simp [unitSite]
  · rintro ⟨t', a'⟩ - hne
    by_cases ht : t = t'
    · subst ht
      have : a ≠ a' := fun h => hne (by rw [h])
      simp [unitSite, this]
    · simp [unitSite, ht]
  · simp

theorem siteNaturals_split (H : Fin (n + 1) → Mat o d) (g1 g2 : Fin (n + 1) → Vec o) :
    siteNaturals H g1 g2 = ∑ i : Fin (n + 1) × Fin o, (g1 i.1 i.2 • siteNaturals (n := n) H (unitSite i) 0 +
      g2 i.1 i.2 • siteNaturals (n := n) H 0 (unitSite i)) := by
  simp only [← siteNaturals_smul, ← siteNaturals_add, smul_zero, add_zero, zero_add]
  rw [← siteNaturals_sum, sum_unitSite, sum_unitSite]

theorem pairing_unitSite (H : Fin (n + 1) → Mat o d) (i : Fin (n + 1) × Fin o) (s : SSM n d) :
    pairing (siteNaturals H (unitSite i) 0) (expPar s) = (H i.1 *ᵥ s.mus i.1) i.2 ∧
    pairing (siteNaturals H 0 (unitSite i)) (expPar s) = (H i.1 * blk s.Kd i.1 i.1 * (H i.1)ᵀ) i.2 i.2 +
      (H i.1 *ᵥ s.mus i.1) i.2 ^ 2 := by
  obtain ⟨t, a⟩ := i
  have hv : ∀ t', (H t')ᵀ *ᵥ (unitSite (t, a) t' : Vec o) = if t' = t then H t a else 0 := fun t' => by
    by_cases h : t' = t
    · subst h
      funext j
      simp [unitSite, mulVec, dotProduct, Pi.single_apply]
    · rw [if_neg h]; simp [unitSite, h]
  have hm : ∀ t', (H t')ᵀ * Matrix.diagonal (unitSite (t, a) t' : Vec o) * H t' =
      if t' = t then vecMulVec (H t a) (H t a) else 0 := fun t' => by
    by_cases h : t' = t
    · subst h
      ext i j
      simp [unitSite, Matrix.mul_apply, Pi.single_apply, vecMulVec_apply, Matrix.diagonal_apply]
    · rw [if_neg h]; simp [unitSite, h]
  constructor
  · unfold pairing
    simp only [siteNaturals, hv, expPar, Pi.zero_apply, diagonal_zero, Matrix.mul_zero, Matrix.zero_mul,
      Matrix.zero_apply, zero_mul, Finset.sum_const_zero, add_zero]
    rw [Finset.sum_eq_single t (fun t' _ h => by simp [h]) (by simp)]
    simp [mulVec, dotProduct]
  · unfold pairing
    simp only [siteNaturals, hm, expPar, Pi.zero_apply, mulVec_zero, Matrix.zero_apply, zero_mul, Finset.sum_const_zero,
      add_zero, zero_add]
    rw [Finset.sum_eq_single t (fun t' _ h => by simp [h]) (by simp)]
    simp only [if_true, vecMulVec_apply, Matrix.add_apply, mul_add, Finset.sum_add_distrib]
    congr 1
    · simp only [Matrix.mul_apply, transpose_apply, Finset.sum_mul]
      rw [Finset.sum_comm]
      exact Finset.sum_congr rfl fun i _ => Finset.sum_congr rfl fun j _ => by ring
    · simp only [mulVec, dotProduct, sq, Finset.sum_mul_sum]
      exact Finset.sum_congr rfl fun i _ => Finset.sum_congr rfl fun j _ => by ring

/-! ### the loss of the variational GP -/

/-- The outputs at the data: marginal mean and variance. -/
theorem VGP.lossOf_eq {v : VGP n o d} {k} (h : v.Valid k) : ∃ p : SSM n d, v.kernel.stateSpaceModel v.times = .ok p ∧
    p.Nondegenerate ∧ stk p.mus = 0 ∧ ∀ s : SSM n d, s.Nondegenerate → v.lossOf s = (klDiv s.law p.law).toReal -
      ∑ i : Fin (n + 1) × Fin o, v.likelihood.varExp
        ((v.kernel.emission (v.times i.1) *ᵥ s.mus i.1) i.2 + v.meanFunction (v.times i.1) i.2)
        ((v.kernel.emission (v.times i.1) * blk s.Kd i.1 i.1 * (v.kernel.emission (v.times i.1))ᵀ) i.2 i.2)
        (v.observations i.1 i.2) := by
  obtain ⟨hc, -, -⟩ := Builds.good h.builds
  obtain ⟨p, hp, hnd⟩ := kernel_ssm_nondegenerate h.builds h.noise h.two h.times
  refine ⟨p, hp, hnd, (kernel_moments h.builds h.jitter hp).1, fun s hs => ?_⟩
  obtain ⟨kl, hkl, hkl', hkl0, -⟩ := C13_kl_divergence s p hs hnd h.two hc.pos
  obtain ⟨f, hf, hfv⟩ := VGP.predict_ok (c := ({ v with q := s } : VGP n o d).posterior) h.builds h.noise h.jitter h.times
    h.lower h.upper h.two hs
  have he : ({ v with q := s } : VGP n o d).loss = .ok (-((∑ i, v.likelihood.varExps (f i).1 (f i).2 (v.observations i)) - kl)) := by
    unfold VGP.loss VGP.elbo VGP.distP
    simp only [show ({ v with q := s } : VGP n o d).posterior.times = v.times from rfl] at hf
    rw [hf, hp]
    simp only [bind, Except.bind, hkl, pure, Except.pure]
  unfold VGP.lossOf
  rw [he]
  show -((∑ i, v.likelihood.varExps (f i).1 (f i).2 (v.observations i)) - kl) = _
  rw [show klDiv s.law p.law = ENNReal.ofReal kl from hkl', ENNReal.toReal_ofReal hkl0, neg_sub, Fintype.sum_prod_type]
  congr 1
  refine Finset.sum_congr rfl fun i _ => Finset.sum_congr rfl fun a _ => ?_
  rw [(hfv i a).1, (hfv i a).2, outMat_conj_diag]
  rfl

theorem VGP.loss_ok {v : VGP n o d} {k} (h : v.Valid k) : ∃ e, v.elbo = .ok e ∧ v.loss = .ok (-e) := by
  obtain ⟨hc, -, -⟩ := Builds.good h.builds
  obtain ⟨p, hp, hnd⟩ := kernel_ssm_nondegenerate h.builds h.noise h.two h.times
  obtain ⟨kl, hkl, -⟩ := C13_kl_divergence v.q p h.q hnd h.two hc.pos
  obtain ⟨f, hf, -⟩ := VGP.predict_ok (c := v.posterior) h.builds h.noise h.jitter h.times h.lower h.upper h.two h.q
  have he : v.elbo = .ok ((∑ i, v.likelihood.varExps (f i).1 (f i).2 (v.observations i)) - kl) := by
    unfold VGP.elbo VGP.distP
    simp only [show v.posterior.times = v.times from rfl] at hf
    rw [hf, hp]
    simp only [bind, Except.bind, hkl, pure, Except.pure]
  refine ⟨_, he, ?_⟩
  unfold VGP.loss
  rw [he]; rfl

theorem out_var_pos {s : SSM n d} (hs : s.Nondegenerate) {H : Mat o d} {a : Fin o} (hH : H a ≠ 0) (t : Fin (n + 1)) :
    0 < (H * blk s.Kd t t * Hᵀ) a a := by
  have := (posDef_blk (SSM.Kd_posDef hs) t).dotProduct_mulVec_pos hH
  rw [star_trivial] at this
  refine lt_of_lt_of_eq this ?_
  simp only [dotProduct, mulVec, Matrix.mul_apply, transpose_apply, Finset.mul_sum, Finset.sum_mul]
  rw [Finset.sum_comm]
  exact Finset.sum_congr rfl fun i _ => Finset.sum_congr rfl fun j _ => by ring

/-- C56: the gradient of `loss()` of a variational GP with respect to the expectation parameters of `dist_q` exists at every
non-degenerate `dist_q`, and it is the difference between the natural parameters of `dist_q` and those of the prior with one Gaussian site
per output: the site's parameters are the derivatives `∂m - 2 (Hμ)ₜₐ ∂v`, `∂v` of the variational expectation at the marginal mean and variance
of that output. -/
theorem C56_gradient {v : VGP n o d} {k} (h : v.Valid k) (hlik : DifferentiableVarExp v.likelihood)
    (hem : ∀ t a, v.kernel.emission (v.times t) a ≠ 0) :
    ∃ (p : SSM n d) (η : ExpPar n d) (m var : Fin (n + 1) → Vec o),
      v.kernel.stateSpaceModel v.times = .ok p ∧ ssmToExpectations v.q = .ok η ∧
      (∀ t a, 0 < var t a ∧ v.q.law.map (fun x => (v.kernel.emission (v.times t) *ᵥ unstk x t) a) =
        gaussianReal (m t a) (var t a).toNNReal) ∧
      IsTotalGradient (lossOfExpectations v.lossOf) η (ssmToNaturals v.q - (ssmToNaturals p +
        siteNaturals (fun t => v.kernel.emission (v.times t))
          (fun t a => deriv (fun x => v.likelihood.varExp x (var t a) (v.observations t a)) (m t a + v.meanFunction (v.times t) a) -
            2 * deriv (fun x => v.likelihood.varExp (m t a + v.meanFunction (v.times t) a) x (v.observations t a)) (var t a) * m t a)
          (fun t a => deriv (fun x => v.likelihood.varExp (m t a + v.meanFunction (v.times t) a) x (v.observations t a)) (var t a)))) := by
  obtain ⟨hc, -, -⟩ := Builds.good h.builds
  obtain ⟨p, hp, hpn, -, hL⟩ := VGP.lossOf_eq h
  set H : Fin (n + 1) → Mat o d := fun t => v.kernel.emission (v.times t) with hH
  refine ⟨p, expPar v.q, fun t a => (H t *ᵥ v.q.mus t) a, fun t a => (H t * blk v.q.Kd t t * (H t)ᵀ) a a, hp,
    ssmToExpectations_eq v.q h.q h.two hc.pos, fun t a => ⟨out_var_pos h.q (hem t a) t, ?_⟩, ?_⟩
  · have hC : (outMat v.kernel v.times * v.q.Kd * (outMat v.kernel v.times)ᵀ).PosSemidef := posSemidef_conj' v.q.Kd_posSemidef _
    have := congrArg (fun μ => μ.map fun x : Fin (n + 1) × Fin o → ℝ => x (t, a)) (latentOf_gauss v.kernel (fun _ => 0) v.times v.q)
    rw [gaussLaw_eval hC, Measure.map_map (measurable_pi_apply _) (measurable_latentOf _ _ _), outMat_conj_diag] at this
    simp only [Pi.zero_apply, add_zero] at this
    rw [← this]
    congr 1
    funext x
    simp [latentOf]
  · rw [← sub_sub, siteNaturals_split]
    refine totalGradient_elbo h.q hpn (c := 0) (α := fun i => siteNaturals H (unitSite i) 0) (β := fun i => siteNaturals H 0 (unitSite i))
      (g := fun i : Fin (n + 1) × Fin o => (_, _)) (F := fun i e => v.likelihood.varExp (e.1 + v.meanFunction (v.times i.1) i.2) (e.2 - e.1 ^ 2)
        (v.observations i.1 i.2)) (fun i => siteNaturals_symDiag _ _ _) (fun i => siteNaturals_symDiag _ _ _) (fun i => ?_) fun s hs => ?_
    · obtain ⟨e1, e2⟩ := pairing_unitSite H i v.q
      rw [e1, e2]
      obtain ⟨t, a⟩ := i
      have hd := (hlik ((H t *ᵥ v.q.mus t) a + v.meanFunction (v.times t) a) _ (v.observations t a) (out_var_pos h.q (hem t a) t)).hasFDerivAt
      set lik' : ScalarLikelihood := ⟨v.likelihood.logProb, fun m s y => v.likelihood.varExp (m + v.meanFunction (v.times t) a) s y⟩ with hl
      have hsh : HasFDerivAt (fun x : ℝ × ℝ => (x.1 + v.meanFunction (v.times t) a, x.2))
          ((ContinuousLinearMap.fst ℝ ℝ ℝ).prod (ContinuousLinearMap.snd ℝ ℝ ℝ))
          ((H t *ᵥ v.q.mus t) a, (H t * blk v.q.Kd t t * (H t)ᵀ) a a) :=
        (hasFDerivAt_fst.add_const _).prodMk hasFDerivAt_snd
      have hd' : HasFDerivAt (fun x : ℝ × ℝ => lik'.varExp x.1 x.2 (v.observations t a)) _
          ((H t *ᵥ v.q.mus t) a, (H t * blk v.q.Kd t t * (H t)ᵀ) a a) :=
        HasFDerivAt.comp (g := fun x : ℝ × ℝ => v.likelihood.varExp x.1 x.2 (v.observations t a))
          (f := fun x : ℝ × ℝ => (x.1 + v.meanFunction (v.times t) a, x.2)) ((H t *ᵥ v.q.mus t) a, (H t * blk v.q.Kd t t * (H t)ᵀ) a a) hd hsh
      refine (C34_gradient hd').congr_fderiv ?_
      unfold localGradients gradMeanVarToExpectation
      have ed := deriv_comp_add_const (fun x => v.likelihood.varExp x ((H t * blk v.q.Kd t t * (H t)ᵀ) a a) (v.observations t a))
        (v.meanFunction (v.times t) a) ((H t *ᵥ v.q.mus t) a)
      simp only [hl, ed]
      rfl
    · rw [hL s hs, add_zero]
      congr 1
      refine Finset.sum_congr rfl fun i _ => ?_
      obtain ⟨e1, e2⟩ := pairing_unitSite H i s
      beta_reduce
      rw [e1, e2, add_sub_cancel_right]

/-! ### CVI -/

/-- The variational GP on the data of a CVI model, with the same kernel and likelihood, default mean function and distribution `q`. -/
def CVI.toVGP (c : CVI n d) (q : SSM n d) : VGP n 1 d := ⟨c.times, c.observations, c.kernel, c.likelihood, fun _ => 0, q⟩

theorem CVI.toVGP_valid {c : CVI n d} {k} (h : c.Valid k) {q : SSM n d} (hq : q.Nondegenerate) : (c.toVGP q).Valid k :=
  ⟨h.builds, h.noise, h.jitter, h.times, h.lower, h.upper, h.two, hq⟩

/-- The natural parameters of `dist_q`: those of the prior plus the sites. -/
noncomputable def CVI.thetas (c : CVI n d) (p : SSM n d) : ExpPar n d :=
  ssmToNaturals p + siteNaturals (fun t => c.kernel.emission (c.times t)) c.sites.nat1 (fun t a => c.sites.nat2 t a 0)

theorem CVI.distQ_naturals {c : CVI n d} {k} (h : c.Valid k) {p : SSM n d} (hp : c.kernel.stateSpaceModel c.times = .ok p)
    (hnd : p.Nondegenerate) :
    c.distQ = naturalsToSSM (c.thetas p).1 (c.thetas p).2.1 (c.thetas p).2.2 := by
  have h0 := (kernel_moments h.builds h.jitter hp).1
  unfold CVI.distQ CVI.distP
  rw [hp]
  simp only [bind, Except.bind, SSM.precision_eq hnd h.two, Option.getD_some]
  unfold CVI.thetas
  rw [ssmToNaturals_eq p hnd, h0, mulVec_zero]
  congr 1
  · funext t j
    show ∑ a, c.kernel.emission (c.times t) a j * c.sites.nat1 t a = (0 : ℝ) + ((c.kernel.emission (c.times t))ᵀ *ᵥ c.sites.nat1 t) j
    rw [zero_add]; rfl
  · funext t
    refine congrArg₂ (· + ·) rfl ?_
    ext i j
    simp only [backProjectNats, of_apply, siteNaturals, Matrix.mul_apply, Fin.sum_univ_one, transpose_apply, diagonal_apply, if_true]
    ring
  · funext j
    exact (add_zero _).symm

/-- C56: the bound that `classic_elbo()` returns is the `elbo()` of the variational GP at `dist_q`. -/
theorem C56_same_bound {c : CVI n d} {q : SSM n d} (hq : c.distQ = .ok q) : c.classicElbo = (c.toVGP q).elbo := by
  unfold CVI.classicElbo CVI.posterior VGP.elbo
  rw [hq]
  rfl

/-- C56: one `update_sites()` with learning rate `r` does to `dist_q` what one natural gradient step of rate `r` on the `loss()` of the
variational GP does: the results are the same distribution, parameter by parameter, or both fail (in the same way). -/
theorem C56_step {c : CVI n d} {k} (h : c.Valid k) (hlik : DifferentiableVarExp c.likelihood)
    (hem : ∀ t, c.kernel.emission (c.times t) ≠ 0) {q : SSM n d} (hq : c.distQ = .ok q)
    {η g : ExpPar n d} (hη : ssmToExpectations q = .ok η) (hg : IsGradient (lossOfExpectations (c.toVGP q).lossOf) η g)
    (opt : NatGrad n d) (hm : opt.momentum = false) (hr : opt.gamma = c.learningRate) (gθ : ExpPar n d) :
    ∃ c', c.updateSites = .ok c' ∧ opt.step q g gθ = c'.distQ.map fun q' => (opt, q') := by
  obtain ⟨hco, -, -⟩ := Builds.good h.builds
  obtain ⟨s, hs, hq1, -⟩ := C34_dist_q h
  have hqn := (hq1 q hq).1
  have hsn : s.Nondegenerate := by
    obtain ⟨p, hp, hnd⟩ := kernel_ssm_nondegenerate h.builds h.noise h.two h.times
    rw [Except.ok.inj (hs.symm.trans hp)]; exact hnd
  have hem' : ∀ t (a : Fin 1), (c.toVGP q).kernel.emission ((c.toVGP q).times t) a ≠ 0 := fun t a h0 => hem t (by
    funext b
    rw [Subsingleton.elim b a]; exact h0)
  obtain ⟨p, η', m, var, hp, hη', hmv, hgr⟩ := C56_gradient (CVI.toVGP_valid h hqn) hlik hem'
  replace hgr := isGradient_of_total hqn h.two (Builds.good h.builds).1.pos hη' hgr
  obtain rfl : s = p := Except.ok.inj (hs.symm.trans hp)
  obtain rfl : η = η' := Except.ok.inj (hη.symm.trans hη')
  have eg := IsGradient.unique hg hgr
  obtain ⟨c', m', v', hc', hmv', hcs, hup⟩ := C34_update h hq
  have em : ∀ t, m' t = m t 0 ∧ v' t = var t 0 := fun t => by
    have e1 := (hmv' t).2
    have e2 := (hmv t 0).2
    have e3 : gaussianReal (m' t) (v' t).toNNReal = gaussianReal (m t 0) (var t 0).toNNReal := by
      rw [← e1, ← e2]
      have : (fun x : Ix n d → ℝ => latent1 c.kernel c.times x t) = fun x => (c.kernel.emission (c.times t) *ᵥ unstk x t) 0 :=
        funext fun x => by simp [latent1, latentOf]
      rw [this]
      rfl
    obtain ⟨a1, a2⟩ := gaussianReal_ext_iff.1 e3
    refine ⟨a1, ?_⟩
    have := congrArg NNReal.toReal a2
    rwa [Real.coe_toNNReal _ (hmv' t).1, Real.coe_toNNReal _ (hmv t 0).1.le] at this
  refine ⟨c', hc', ?_⟩
  have hv' : c'.Valid k := by rw [hcs]; exact ⟨h.builds, h.noise, h.jitter, h.times, h.lower, h.upper, h.two⟩
  have hs' : c'.kernel.stateSpaceModel c'.times = .ok s := by rw [hcs]; exact hs
  -- the natural parameters after the step
  have hθq : ssmToNaturals q = c.thetas s := by
    have hd := CVI.distQ_naturals h hs hsn
    have hsy : SymDiag (c.thetas s) := SymDiag.add (symDiag_naturals hsn) (siteNaturals_symDiag _ _ _)
    by_cases hP : ProperNaturals (c.thetas s)
    · obtain ⟨q2, b1, b2, b3⟩ := C17_naturals_round_trip (c.thetas s).1 (c.thetas s).2.1 (c.thetas s).2.2 h.two hco.pos hsy hP
      obtain rfl : q = q2 := Except.ok.inj (hq.symm.trans (hd.trans b1))
      exact b3
    · rw [hd, C17_improper_raises (c.thetas s).1 (c.thetas s).2.1 (c.thetas s).2.2 h.two hsy hP] at hq
      cases hq
  have key : ssmToNaturals q - opt.gamma • g = c'.thetas s := by
    have eH : (fun t => c'.kernel.emission (c'.times t)) = fun t => c.kernel.emission (c.times t) := by rw [hcs]
    unfold CVI.thetas
    rw [eH]
    rw [eg, smul_sub, ← sub_add, sub_add_eq_add_sub, hr]
    have e1 : c'.sites.nat1 = (1 - c.learningRate) • c.sites.nat1 + c.learningRate •
        (fun t a => (localGradients c.likelihood (m t a) (var t a) (c.observations t a)).1) := by
      funext t a
      obtain rfl : a = 0 := Subsingleton.elim _ _
      rw [(hup t).1, (em t).1, (em t).2]; rfl
    have e2 : (fun t (a : Fin 1) => c'.sites.nat2 t a 0) = (1 - c.learningRate) • (fun t (a : Fin 1) => c.sites.nat2 t a 0) + c.learningRate •
        (fun t a => (localGradients c.likelihood (m t a) (var t a) (c.observations t a)).2) := by
      funext t a
      obtain rfl : a = 0 := Subsingleton.elim _ _
      rw [(hup t).2, (em t).1, (em t).2]; rfl
    rw [e1, e2, siteNaturals_add, siteNaturals_smul, siteNaturals_smul, hθq]
    have e3 : siteNaturals (fun t => (c.toVGP q).kernel.emission ((c.toVGP q).times t))
          (fun t a => deriv (fun x => (c.toVGP q).likelihood.varExp x (var t a) ((c.toVGP q).observations t a)) (m t a + (c.toVGP q).meanFunction ((c.toVGP q).times t) a) -
            2 * deriv (fun x => (c.toVGP q).likelihood.varExp (m t a + (c.toVGP q).meanFunction ((c.toVGP q).times t) a) x ((c.toVGP q).observations t a)) (var t a) * m t a)
          (fun t a => deriv (fun x => (c.toVGP q).likelihood.varExp (m t a + (c.toVGP q).meanFunction ((c.toVGP q).times t) a) x ((c.toVGP q).observations t a)) (var t a)) =
        siteNaturals (fun t => c.kernel.emission (c.times t))
          (fun t a => (localGradients c.likelihood (m t a) (var t a) (c.observations t a)).1)
          (fun t a => (localGradients c.likelihood (m t a) (var t a) (c.observations t a)).2) := by
      unfold localGradients gradMeanVarToExpectation CVI.toVGP
      simp only [Pi.zero_apply, add_zero]
    rw [e3, show ssmToNaturals (c.toVGP q).q = c.thetas s from hθq]
    unfold CVI.thetas
    module
  rw [CVI.distQ_naturals hv' hs' hsn, step_eq opt hm, key]
  have hsy : SymDiag (c'.thetas s) := SymDiag.add (symDiag_naturals hsn) (siteNaturals_symDiag _ _ _)
  obtain ⟨t1, t2⟩ := natgrad_tail h.two hco.pos hsy opt
  by_cases hP : ProperNaturals (c'.thetas s)
  · obtain ⟨q', b1, -, -, b4⟩ := t1 hP
    rw [b1, b4]; rfl
  · rw [t2 hP, C17_improper_raises (c'.thetas s).1 (c'.thetas s).2.1 (c'.thetas s).2.2 h.two hsy hP]; rfl

theorem CVI.updates_succ (N : ℕ) (c : CVI n d) : CVI.updates (N + 1) c = (CVI.updates N c) >>= CVI.updateSites := by
  induction N generalizing c with
  | zero =>
    simp only [CVI.updates, bind, Except.bind, pure, Except.pure]
    cases c.updateSites <;> rfl
  | succ N ih =>
    rw [CVI.updates, CVI.updates]
    simp only [bind, Except.bind]
    cases c.updateSites with
    | error e => rfl
    | ok c' => exact ih c'

theorem CVI.updates_sites {N : ℕ} {c c' : CVI n d} (h : CVI.updates N c = .ok c') : c' = { c with sites := c'.sites } := by
  induction N generalizing c' with
  | zero => rw [← Except.ok.inj h]
  | succ N ih =>
    rw [CVI.updates_succ] at h
    simp only [bind, Except.bind] at h
    cases h1 : CVI.updates N c with
    | error e => rw [h1] at h; cases h
    | ok c1 =>
      rw [h1] at h
      have e1 := ih h1
      have h' : c1.updateSites = .ok c' := h
      unfold CVI.updateSites at h'
      simp only [bind, Except.bind] at h'
      cases h2 : c1.posterior with
      | error e => rw [h2] at h'; cases h'
      | ok post =>
        rw [h2] at h'
        cases h3 : post.predictFDiag c1.times with
        | error e => simp only [h3] at h'; cases h'
        | ok fx =>
          simp only [h3] at h'
          have e2 : c' = { c1 with sites := c'.sites } := by rw [← Except.ok.inj h']
          conv_lhs => rw [e2]
          conv_lhs => rw [e1]

/-- C56: any number of steps. Starting at `dist_q`, `N` natural gradient steps on the `loss()` of the variational GP give `dist_q` after
`N` calls of `update_sites()`, or both fail. -/
theorem C56_steps {c : CVI n d} {k} (h : c.Valid k) (hlik : DifferentiableVarExp c.likelihood)
    (hem : ∀ t, c.kernel.emission (c.times t) ≠ 0) {q : SSM n d} (hq : c.distQ = .ok q)
    {grad : ℕ → SSM n d → ExpPar n d × ExpPar n d} (hgrad : GivesGradient (c.toVGP q).lossOf grad)
    (opt : NatGrad n d) (hm : opt.momentum = false) (hr : opt.gamma = c.learningRate) (N : ℕ) :
    NatGrad.steps grad N (opt, q) = ((CVI.updates N c) >>= CVI.distQ).map fun q' => (opt, q') := by
  induction N with
  | zero =>
    simp only [NatGrad.steps, CVI.updates, bind, Except.bind, pure, Except.pure, hq]
    rfl
  | succ N ih =>
    rw [NatGrad.steps, ih, CVI.updates_succ]
    simp only [bind, Except.bind]
    cases h1 : CVI.updates N c with
    | error e => rfl
    | ok c1 =>
      simp only
      have hcs := CVI.updates_sites h1
      have hv1 : c1.Valid k := by rw [hcs]; exact ⟨h.builds, h.noise, h.jitter, h.times, h.lower, h.upper, h.two⟩
      cases h2 : c1.distQ with
      | error e =>
        have : c1.updateSites = .error e := by
          unfold CVI.updateSites CVI.posterior
          rw [h2]; rfl
        rw [this]; rfl
      | ok q1 =>
        obtain ⟨hco, -, -⟩ := Builds.good h.builds
        obtain ⟨_, -, hq1, -⟩ := C34_dist_q hv1
        have hqn := (hq1 q1 h2).1
        have hη := ssmToExpectations_eq q1 hqn h.two hco.pos
        have eL : (c1.toVGP q1).lossOf = (c.toVGP q).lossOf := by rw [hcs]; rfl
        have hem1 : ∀ t, c1.kernel.emission (c1.times t) ≠ 0 := by rw [hcs]; exact hem
        have hl1 : DifferentiableVarExp c1.likelihood := by rw [hcs]; exact hlik
        have hr1 : opt.gamma = c1.learningRate := by rw [hcs]; exact hr
        have hg := hgrad N q1 _ hqn hη
        rw [← eL] at hg
        obtain ⟨c', b1, b2⟩ := C56_step hv1 hl1 hem1 h2 hη hg opt hm hr1 (grad N q1).2
        rw [b1]
        exact b2

theorem naturals_of_law {q p : SSM n d} (hq : q.Nondegenerate) (hp : p.Nondegenerate) (h : q.law = p.law) :
    ssmToNaturals q = ssmToNaturals p := by
  rw [SSM.law_eq_gauss, SSM.law_eq_gauss] at h
  obtain ⟨h1, h2⟩ := (SSM.gaussLaw_inj q.Kd_posSemidef p.Kd_posSemidef).1 h
  have hP : q.Pd = p.Pd := by rw [← SSM.Kd_inv hq, ← SSM.Kd_inv hp, h2]
  have hb : ∀ b c, symBlk q.precD q.precS b c = symBlk p.precD p.precS b c := fun b c => by
    rw [← blk_denseSym, ← blk_denseSym, SSM.denseSym_prec hq, SSM.denseSym_prec hp, hP]
  have hD : q.precD = p.precD := by
    funext b
    have := hb b b
    simpa [symBlk] using this
  have hS : q.precS = p.precS := by
    funext k
    have := hb k.succ k.castSucc
    simpa [symBlk, Fin.ext_iff] using this
  rw [ssmToNaturals_eq q hq, ssmToNaturals_eq p hp, hP, h1, hD, hS]

/-- C56: the fixed points of `update_sites()` are the stationary points of the bound: the update leaves the law of `dist_q` as it is
if and only if the gradient of the variational GP's `loss()` vanishes there. -/
theorem C56_fixed_point {c : CVI n d} {k} (h : c.Valid k) (hlik : DifferentiableVarExp c.likelihood)
    (hem : ∀ t, c.kernel.emission (c.times t) ≠ 0) (hr : c.learningRate ≠ 0) {q : SSM n d} (hq : c.distQ = .ok q)
    {η : ExpPar n d} (hη : ssmToExpectations q = .ok η) :
    (∃ c' q', c.updateSites = .ok c' ∧ c'.distQ = .ok q' ∧ q'.law = q.law) ↔
      IsGradient (lossOfExpectations (c.toVGP q).lossOf) η 0 := by
  obtain ⟨hco, -, -⟩ := Builds.good h.builds
  obtain ⟨_, -, hq1, -⟩ := C34_dist_q h
  have hqn := (hq1 q hq).1
  have hem' : ∀ t (a : Fin 1), (c.toVGP q).kernel.emission ((c.toVGP q).times t) a ≠ 0 := fun t a h0 => hem t (by
    funext b
    rw [Subsingleton.elim b a]; exact h0)
  obtain ⟨p, η', m, var, hp, hη', hmv, hgr⟩ := C56_gradient (CVI.toVGP_valid h hqn) hlik hem'
  replace hgr := isGradient_of_total hqn h.two (Builds.good h.builds).1.pos hη' hgr
  obtain rfl : η = η' := Except.ok.inj (hη.symm.trans hη')
  generalize hgd : (ssmToNaturals (c.toVGP q).q - (ssmToNaturals p + _)) = g at hgr
  set opt : NatGrad n d := NatGrad.init c.learningRate false 0 0 0 with ho
  obtain ⟨c', b1, b2⟩ := C56_step h hlik hem hq hη hgr opt rfl rfl 0
  have hsg : SymDiag g := hgr.1
  obtain ⟨s1, s2⟩ := C39_step opt rfl hqn h.two hco.pos g 0 hsg
  rw [b2] at s1 s2
  constructor
  · rintro ⟨c'', q', e1, e2, e3⟩
    obtain rfl : c' = c'' := Except.ok.inj (b1.symm.trans e1)
    rw [e2] at s1 s2
    by_cases hP : ProperNaturals (ssmToNaturals q - opt.gamma • g)
    · obtain ⟨q2, f1, f2, f3⟩ := s1 hP
      obtain rfl : q' = q2 := congrArg Prod.snd (Except.ok.inj f1)
      rw [naturals_of_law f2 hqn e3] at f3
      have : opt.gamma • g = 0 := by rwa [eq_comm, sub_eq_self] at f3
      have hg0 : g = 0 := (smul_eq_zero.1 this).resolve_left hr
      rwa [hg0] at hgr
    · cases s2 hP
  · intro h0
    have hg0 : g = 0 := IsGradient.unique hgr h0
    rw [hg0, smul_zero, sub_zero] at s1
    obtain ⟨q', f1, f2, f3⟩ := s1 (proper_of_ssm hqn)
    refine ⟨c', q', b1, ?_, law_of_naturals f2 hqn f3⟩
    cases h3 : c'.distQ with
    | error e => rw [h3] at f1; cases f1
    | ok q2 =>
      rw [h3] at f1
      exact congrArg Except.ok (congrArg Prod.snd (Except.ok.inj f1))

open Filter Topology in
/-- C56: in particular a `dist_q` at which the bound is largest, among all non-degenerate Gauss-Markov distributions of the states, is
left as it is by `update_sites()`. -/
theorem C56_optimum {c : CVI n d} {k} (h : c.Valid k) (hlik : DifferentiableVarExp c.likelihood)
    (hem : ∀ t, c.kernel.emission (c.times t) ≠ 0) (hr : c.learningRate ≠ 0) {q : SSM n d} (hq : c.distQ = .ok q)
    (hopt : ∀ s : SSM n d, s.Nondegenerate → ∀ es eq, (c.toVGP s).elbo = .ok es → (c.toVGP q).elbo = .ok eq → es ≤ eq) :
    ∃ c' q', c.updateSites = .ok c' ∧ c'.distQ = .ok q' ∧ q'.law = q.law := by
  obtain ⟨hco, -, -⟩ := Builds.good h.builds
  obtain ⟨_, -, hq1, -⟩ := C34_dist_q h
  have hqn := (hq1 q hq).1
  have hη := ssmToExpectations_eq q hqn h.two hco.pos
  rw [C56_fixed_point h hlik hem hr hq hη]
  have hem' : ∀ t (a : Fin 1), (c.toVGP q).kernel.emission ((c.toVGP q).times t) a ≠ 0 := fun t a h0 => hem t (by
    funext b
    rw [Subsingleton.elim b a]; exact h0)
  obtain ⟨p, η', m, var, hp, hη', hmv, hgr⟩ := C56_gradient (CVI.toVGP_valid h hqn) hlik hem'
  replace hgr := isGradient_of_total hqn h.two (Builds.good h.builds).1.pos hη' hgr
  obtain rfl := Except.ok.inj (hη'.symm.trans hη)
  generalize hgd : (ssmToNaturals (c.toVGP q).q - (ssmToNaturals p + _)) = g at hgr
  obtain ⟨p', -, hpn, -, hL⟩ := VGP.lossOf_eq (CVI.toVGP_valid h hqn)
  have hmin : ∀ s : SSM n d, s.Nondegenerate → (c.toVGP q).lossOf q ≤ (c.toVGP q).lossOf s := by
    intro s hs
    obtain ⟨es, e1⟩ := VGP.loss_ok (CVI.toVGP_valid h hs)
    obtain ⟨eq, e2⟩ := VGP.loss_ok (CVI.toVGP_valid h hqn)
    have e3 := hopt s hs es eq e1.1 e2.1
    have f1 : (c.toVGP q).lossOf s = -es := by
      unfold VGP.lossOf
      rw [show ({ c.toVGP q with q := s } : VGP n 1 d) = c.toVGP s from rfl, e1.2]
    have f2 : (c.toVGP q).lossOf q = -eq := by
      unfold VGP.lossOf
      rw [show ({ c.toVGP q with q := q } : VGP n 1 d) = c.toVGP q from rfl, e2.2]
    rw [f1, f2]; linarith
  have hcc : Continuous fun t : ℝ => expPar q + t • g := by fun_prop
  have h0 : expPar q + (0 : ℝ) • g = expPar q := by rw [zero_smul, add_zero]
  obtain ⟨hev, -⟩ := ExpPar.path hqn (fun t => expPar q + t • g) hcc.continuousAt h0
    (fun t => SymDiag.add (symDiag_expPar q) (SymDiag.smul hgr.1 t))
  have f0 : lossOfExpectations (c.toVGP q).lossOf (expPar q) = (c.toVGP q).lossOf q := by
    obtain ⟨q1, a1, z1, z2, z3, z4⟩ := expectationsToSSM_ok q hqn
    have a1' : expectationsToSSM (expPar q).1 (expPar q).2.1 (expPar q).2.2 = .ok q1 := a1
    obtain ⟨hl, -⟩ := same_law_naturals hqn z1 z2 z3 fun b => (z4 b).mul_transpose
    have hq1n : q1.Nondegenerate := fun b => ⟨(z4 b).lower, fun i => ((z4 b).diag_pos i).ne'⟩
    have hl' := hl
    rw [SSM.law_eq_gauss, SSM.law_eq_gauss] at hl'
    obtain ⟨h1, h2⟩ := (SSM.gaussLaw_inj q1.Kd_posSemidef q.Kd_posSemidef).1 hl'
    have h1' : q1.mus = q.mus := by
      funext t i; exact congrFun h1 (t, i)
    unfold lossOfExpectations
    rw [a1']
    show (c.toVGP q).lossOf q1 = _
    rw [hL q1 hq1n, hL q hqn, hl, h1', h2]
  have hlm : IsLocalMin (fun t : ℝ => lossOfExpectations (c.toVGP q).lossOf (expPar q + t • g)) 0 := by
    refine hev.mono fun t ⟨s, a1, a2, _, _⟩ => ?_
    beta_reduce
    rw [h0, f0]
    unfold lossOfExpectations
    rw [a1]
    exact hmin s a2
  have hz := hlm.hasDerivAt_eq_zero (hgr.2 g hgr.1)
  have hg0 : g = 0 := pairing_self_eq_zero hz
  rwa [hg0] at hgr

theorem poisson_differentiable : DifferentiableVarExp poissonLikelihood := fun m v y _ => by
  unfold poissonLikelihood
  fun_prop

theorem gaussian_differentiable (σ2 : ℝ) : DifferentiableVarExp (gaussianLikelihood σ2) := fun m v y _ => by
  unfold gaussianLikelihood
  fun_prop

/-- Non-vacuity: a Matérn 3/2 kernel, three counts with a Poisson likelihood, learning rate 1/2: the hypotheses hold, `dist_q` exists and
there is a gradient function. -/
example : ∃ (c : CVI 2 2) (k : ℝ → ℝ → Mat 1 1) (q : SSM 2 2), c.Valid k ∧ DifferentiableVarExp c.likelihood ∧
    (∀ t, c.kernel.emission (c.times t) ≠ 0) ∧ c.learningRate = 1 / 2 ∧ c.likelihood = poissonLikelihood ∧ c.distQ = .ok q ∧
    ∃ grad, GivesGradient (c.toVGP q).lossOf grad := by
  obtain ⟨K, hK⟩ := (C28_constructors (o := 1) 2 3 1 1 1 0).2.1.2 (by norm_num)
  set c : CVI 2 2 := CVI.init ![0, 1, 3] (fun i => ![(i : ℝ)]) K poissonLikelihood none (1 / 2) with hc
  have hv : ∃ k, c.Valid k := by
    refine ⟨_, ⟨.leaf (.matern32 hK), .matern32 hK, by show K.jitter = 0; rw [(kernelInit_ok hK).2.2]; rfl, ?_, ?_, ?_, by norm_num⟩⟩
    · refine Fin.strictMono_iff_lt_succ.2 fun i => ?_
      fin_cases i <;> simp [hc, CVI.init] <;> norm_num
    · show -10000000000 < (0 : ℝ); norm_num
    · show (3 : ℝ) ≤ 10000000000; norm_num
  obtain ⟨k, hv⟩ := hv
  have hem : ∀ t, c.kernel.emission (c.times t) ≠ 0 := fun t h0 => by
    have : K.emission (c.times t) 0 0 = 0 := congrFun (congrFun h0 0) 0
    rw [(kernelInit_ok hK).2.2] at this
    simp [Stationary.base, sdeEmission] at this
  obtain ⟨q, hq⟩ := (C34_dist_q hv).choose_spec.2.2.1 fun t => by show (-1e-10 : ℝ) ≤ 0; norm_num
  obtain ⟨hco, -, -⟩ := Builds.good hv.builds
  have hex : ∀ q : SSM 2 2, q.Nondegenerate → ∃ g, ∀ η, ssmToExpectations q = .ok η →
      IsGradient (lossOfExpectations (c.toVGP q).lossOf) η g := fun q hqn => by
    obtain ⟨_, η, m, var, -, hη, -, hg⟩ := C56_gradient (CVI.toVGP_valid hv hqn) poisson_differentiable
      (fun t a h0 => hem t (by funext b; rw [Subsingleton.elim b a]; exact h0))
    replace hg := isGradient_of_total hqn hv.two hco.pos hη hg
    exact ⟨_, fun η' hη' => Except.ok.inj (hη.symm.trans hη') ▸ hg⟩
  classical
  refine ⟨c, k, q, hv, poisson_differentiable, hem, rfl, rfl, hq,
    fun _ q => (if h : q.Nondegenerate then (hex q h).choose else 0, 0), fun i q' η hqn hη => ?_⟩
  have := (hex q' hqn).choose_spec η hη
  simp only [dif_pos hqn]
  exact this

end MF
