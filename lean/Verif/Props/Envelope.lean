import Verif.Props.FullGaussianUse
import Verif.Lemmas.Envelope

/-!
# C79: hyperparameter gradients at the optimum
-/

namespace MF
open Matrix Spec MeasureTheory ProbabilityTheory InformationTheory Filter Topology
variable {n o d d' p : ℕ}

/-- The law of the function values under the best `dist_q`: its natural parameters are those of the prior plus the derivatives of the variational
expectations. -/
theorem VGP.optimum_dense {v : VGP n o d} {k} (h : v.Valid k) (hd : DifferentiableVarExp v.likelihood) (hG : (gpGram k v.times).PosDef) {e : ℝ}
    (hev : v.elbo = .ok e) (hbest : ∀ s : SSM n d, s.Nondegenerate → ∃ e', ({ v with q := s } : VGP n o d).elbo = .ok e' ∧ e' ≤ e)
    {m : Fin (n + 1) × Fin o → ℝ} {S : Matrix (Fin (n + 1) × Fin o) (Fin (n + 1) × Fin o) ℝ} (hS : S.PosSemidef)
    (hlaw : v.q.law.map (latentOf v.kernel v.meanFunction v.times) = gaussLaw m S) :
    S.PosDef ∧ ∃ g : Fin (n + 1) × Fin o → ℝ × ℝ,
      (∀ i, (g i).1 = deriv (fun x => v.likelihood.varExp x (S i i) (v.observations i.1 i.2)) (m i)) ∧
      (∀ i, (g i).2 = deriv (fun x => v.likelihood.varExp (m i) x (v.observations i.1 i.2)) (S i i)) ∧
      S⁻¹ = (gpGram k v.times)⁻¹ + Matrix.diagonal (fun i => -2 * (g i).2) ∧
      (gpGram k v.times)⁻¹ *ᵥ (m - meanVec v.meanFunction v.times) = fun i => (g i).1 := by
  have hem := fun t a => emission_ne_zero h.builds hG t a
  have hval : ∀ s : SSM n d, s.Nondegenerate → ({ v with q := s } : VGP n o d).elbo = .ok (-v.lossOf s) := fun s hs => by
    obtain ⟨e, he1, he2⟩ := VGP.loss_ok (v := { v with q := s }) (k := k) ⟨h.builds, h.noise, h.jitter, h.times, h.lower, h.upper, h.two, hs⟩
    have : v.lossOf s = -e := by
      unfold VGP.lossOf
      rw [he2]
    rw [this, neg_neg, he1]
  have hev' : e = -v.lossOf v.q := Except.ok.inj (hev.symm.trans (hval v.q h.q))
  have hmin : ∀ s : SSM n d, s.Nondegenerate → v.lossOf v.q ≤ v.lossOf s := fun s hs => by
    obtain ⟨e', a1, a2⟩ := hbest s hs
    rw [hval s hs] at a1
    have := Except.ok.inj a1
    linarith
  obtain ⟨p, g, hp, hpn, hp0, k1, k2, g1, g2⟩ := VGP.optimum_sites h hd hem hmin
  set E := outMat v.kernel v.times with hE
  have hGe : E * p.Kd * Eᵀ = gpGram k v.times := by
    rw [(kernel_moments h.builds h.jitter hp).2, outMat_conj (Builds.good h.builds).2.2]
  have hG' : (E * p.Kd * Eᵀ).PosDef := by rw [hGe]; exact hG
  have hS' : (E * v.q.Kd * Eᵀ).PosDef := by
    rw [← conjTranspose_eq_transpose_of_trivial]
    exact (SSM.Kd_posDef h.q).mul_mul_conjTranspose_same (outMat_vecMul_inj h.builds hG)
  obtain ⟨j1, j2, -⟩ := gaussKL_marginal (SSM.Kd_posDef hpn) (SSM.Kd_posDef h.q) k1 k2 hG' hS'
  have hlat : v.q.law.map (latentOf v.kernel v.meanFunction v.times) =
      gaussLaw (E *ᵥ stk v.q.mus + meanVec v.meanFunction v.times) (E * v.q.Kd * Eᵀ) := by
    rw [latentOf_gauss, hE, outMat_mulVec]
    rfl
  obtain ⟨rfl, rfl⟩ := (SSM.gaussLaw_inj hS'.posSemidef hS).1 (hlat.symm.trans hlaw)
  rw [hGe] at j1
  set b := meanVec v.meanFunction v.times with hb
  have d1 : ∀ i, (g i).1 = deriv (fun x => v.likelihood.varExp x ((E * v.q.Kd * Eᵀ) i i) (v.observations i.1 i.2)) ((E *ᵥ stk v.q.mus + b) i) -
      2 * (g i).2 * (E *ᵥ stk v.q.mus) i := fun i => by rw [g1, g2]; rfl
  refine ⟨hS', fun i => (deriv (fun x => v.likelihood.varExp x ((E * v.q.Kd * Eᵀ) i i) (v.observations i.1 i.2)) ((E *ᵥ stk v.q.mus + b) i), (g i).2),
    fun i => rfl, fun i => g2 i, j1, ?_⟩
  rw [add_sub_cancel_right, show (gpGram k v.times)⁻¹ = (E * v.q.Kd * Eᵀ)⁻¹ - Matrix.diagonal (fun i => -2 * (g i).2) by rw [j1]; abel, sub_mulVec, j2]
  funext i
  simp only [Pi.sub_apply, mulVec_diagonal]
  rw [d1]
  ring

/-- Nearby covariance matrices of the function values are positive definite. -/
theorem gpGram_posDef_eventually {E : Type*} [TopologicalSpace E] {K : E → Stationary o d} {k : E → ℝ → ℝ → Mat o o} {ts : Fin (n + 1) → ℝ} {θ : E}
    (hv : ∀ᶠ x in 𝓝 θ, Builds (K x) (k x) ∧ NoiseTag (K x) true ∧ (K x).jitter = 0 ∧ StrictMono ts ∧ 0 < n)
    (hc : ∀ i j, ContinuousAt (fun x => gpGram (k x) ts i j) θ) (hG : (gpGram (k θ) ts).PosDef) : ∀ᶠ x in 𝓝 θ, (gpGram (k x) ts).PosDef := by
  have hC : Tendsto (fun x => gpGram (k x) ts) (𝓝 θ) (𝓝 (gpGram (k θ) ts)) := tendsto_pi_nhds.2 fun i => tendsto_pi_nhds.2 fun j => hc i j
  have hne := ((continuous_id.matrix_det.tendsto (gpGram (k θ) ts)).comp hC).eventually_ne hG.det_pos.ne'
  filter_upwards [hv, hne] with x hx hdx
  obtain ⟨h1, h2, h3, h4, h5⟩ := hx
  obtain ⟨p, hp, hpn⟩ := kernel_ssm_nondegenerate h1 h2 h5 h4
  have hGe : outMat (K x) ts * p.Kd * (outMat (K x) ts)ᵀ = gpGram (k x) ts := by
    rw [(kernel_moments h1 h3 hp).2, outMat_conj (Builds.good h1).2.2]
  have hps : (gpGram (k x) ts).PosSemidef := by
    rw [← hGe]
    exact posSemidef_conj' (SSM.Kd_posDef hpn).posSemidef _
  exact hps.posDef_iff_isUnit.2 ((Matrix.isUnit_iff_isUnit_det _).2 (isUnit_iff_ne_zero.2 hdx))

/-- C79, the best bound: let kernel hyperparameters and mean function of a variational GP with a log-concave likelihood vary along a differentiable
curve, and let `best` be the largest `elbo()` over all Gaussian Markov distributions. Then `best` is differentiable, and its derivative is
`½ αᵀ G' α - ½ tr((G⁻¹ - G⁻¹ S G⁻¹) G') + αᵀ b'` with `N(m, S)` the law of the function values at the data under the best `dist_q`, `G` the prior
covariance of these values, `b` their prior mean, `G'` and `b'` the derivatives and `α = G⁻¹ (m - b)`: the change of the best distribution does not
contribute. -/
theorem C79_best {v : VGP n o d} {K : ℝ → Stationary o d} {b : ℝ → ℝ → Vec o} {k : ℝ → ℝ → ℝ → Mat o o} {θ : ℝ}
    (hv : ∀ᶠ x in 𝓝 θ, ({ v with kernel := K x, meanFunction := b x } : VGP n o d).Valid (k x)) (he : ExactLikelihood v.likelihood)
    (hl : LogConcaveLikelihood v.likelihood) (hd : DifferentiableVarExp v.likelihood) (hG : (gpGram (k θ) v.times).PosDef)
    {k' : ℝ → ℝ → Mat o o} {b' : ℝ → Vec o} (hk : ∀ s t a c, HasDerivAt (fun x => k x s t a c) (k' s t a c) θ)
    (hb : ∀ t a, HasDerivAt (fun x => b x t a) (b' t a) θ) {best : ℝ → ℝ}
    (hbest : ∀ᶠ x in 𝓝 θ, IsGreatest {e | ∃ q : SSM n d, q.Nondegenerate ∧
      ({ v with kernel := K x, meanFunction := b x, q := q } : VGP n o d).elbo = .ok e} (best x))
    {q : SSM n d} (hq : q.Nondegenerate) (hqe : ({ v with kernel := K θ, meanFunction := b θ, q := q } : VGP n o d).elbo = .ok (best θ))
    {m : Fin (n + 1) × Fin o → ℝ} {S : Matrix (Fin (n + 1) × Fin o) (Fin (n + 1) × Fin o) ℝ} (hS : S.PosSemidef)
    (hlaw : q.law.map (latentOf (K θ) (b θ) v.times) = gaussLaw m S) {α : Fin (n + 1) × Fin o → ℝ}
    (hα : α = (gpGram (k θ) v.times)⁻¹ *ᵥ (m - meanVec (b θ) v.times)) :
    HasDerivAt best (1 / 2 * (α ⬝ᵥ (gpGram k' v.times *ᵥ α)) -
      1 / 2 * (((gpGram (k θ) v.times)⁻¹ - (gpGram (k θ) v.times)⁻¹ * S * (gpGram (k θ) v.times)⁻¹) * gpGram k' v.times).trace +
      α ⬝ᵥ meanVec b' v.times) θ := by
  have hG' : ∀ i j, HasDerivAt (fun x => gpGram (k x) v.times i j) (gpGram k' v.times i j) θ := fun i j => hk _ _ _ _
  have hb' : ∀ i, HasDerivAt (fun x => meanVec (b x) v.times i) (meanVec b' v.times i) θ := fun i => hb _ _
  have hpos := gpGram_posDef_eventually (hv.mono fun x h => ⟨h.builds, h.noise, h.jitter, h.times, h.two⟩) (fun i j => (hG' i j).continuousAt) hG
  have hval : ∀ x, ({ v with kernel := K x, meanFunction := b x } : VGP n o d).Valid (k x) → ∀ s : SSM n d, s.Nondegenerate →
      ({ v with kernel := K x, meanFunction := b x, q := s } : VGP n o d).Valid (k x) := fun x h s hs =>
    ⟨h.builds, h.noise, h.jitter, h.times, h.lower, h.upper, h.two, hs⟩
  have hup : ∀ x, ({ v with kernel := K x, meanFunction := b x } : VGP n o d).Valid (k x) → IsGreatest {e | ∃ q : SSM n d, q.Nondegenerate ∧
      ({ v with kernel := K x, meanFunction := b x, q := q } : VGP n o d).elbo = .ok e} (best x) → ∀ s : SSM n d, s.Nondegenerate →
      ∃ e', ({ v with kernel := K x, meanFunction := b x, q := s } : VGP n o d).elbo = .ok e' ∧ e' ≤ best x := fun x h hx s hs => by
    obtain ⟨e, he1, -⟩ := VGP.loss_ok (hval x h s hs)
    exact ⟨e, he1, hx.2 ⟨s, hs, he1⟩⟩
  obtain ⟨hSp, g, g1, g2, s1, s2⟩ := VGP.optimum_dense (hval θ hv.self_of_nhds q hq) hd hG hqe (hup θ hv.self_of_nhds hbest.self_of_nhds) hS hlaw
  subst hα
  refine hasDerivAt_best he hl hd hG' hb' hpos hSp g1 g2 s1 s2 ?_ ?_
  · filter_upwards [hv, hbest, hpos] with x hx hbx hpx
    obtain ⟨qx, hqx, hqxe⟩ := hbx.1
    have := ((C78_vgp (hval x hx qx hqx) he hl hd hpx hqxe (hup x hx hbx)).2 m S hSp).2.1
    rwa [show gpLaw _ (k x) v.times = gaussLaw (meanVec (b x) v.times) (gpGram (k x) v.times) from rfl, functionBound_gauss he _ hSp hpx] at this
  · filter_upwards [hv, hbest, hpos] with x hx hbx hpx
    obtain ⟨qx, hqx, hqxe⟩ := hbx.1
    obtain ⟨mx, Sx, hSx, hlx⟩ := latent_posDef hx.builds hpx (b x) hqx
    have := (C78_vgp (hval x hx qx hqx) he hl hd hpx hqxe (hup x hx hbx)).1
    refine ⟨mx, Sx, hSx, ?_⟩
    rw [this, ← functionBound_gauss he _ hSx hpx]
    exact congrArg _ hlx

/-! ### sites -/

/-- `-2 nat2` on the diagonal. -/
def sitePrec (s : UnivariateSites (n + 1)) : Matrix (Fin (n + 1) × Fin 1) (Fin (n + 1) × Fin 1) ℝ :=
  Matrix.diagonal fun i => -2 * s.nat2 i.1 0 0

/-- `nat1` as one vector. -/
def siteFirst (s : UnivariateSites (n + 1)) : Fin (n + 1) × Fin 1 → ℝ := fun i => s.nat1 i.1 0

theorem sitePrec_posDef {s : UnivariateSites (n + 1)} (hneg : ∀ t, s.nat2 t 0 0 < 0) : (sitePrec s).PosDef :=
  Matrix.PosDef.diagonal fun i => by linarith [hneg i.1]

theorem site_logDensity {s : UnivariateSites (n + 1)} (hneg : ∀ t, s.nat2 t 0 0 < 0) (f : Fin (n + 1) × Fin 1 → ℝ) :
    ∑ t, (gaussianLikelihood (-1 / (2 * s.nat2 t 0 0))).logProb (f (t, 0)) (-s.nat1 t 0 / (2 * s.nat2 t 0 0)) =
      gaussLogDensity f (sitePrec s)⁻¹ ((sitePrec s)⁻¹ *ᵥ siteFirst s) := by
  have hb := sitePrec_posDef hneg
  have hi : (sitePrec s)⁻¹ = Matrix.diagonal fun i => -1 / (2 * s.nat2 i.1 0 0) := by
    refine Matrix.inv_eq_right_inv ?_
    rw [sitePrec, diagonal_mul_diagonal, ← diagonal_one]
    congr 1
    funext i
    have := (hneg i.1).ne
    field_simp
  have hpos : ∀ t, 0 < -1 / (2 * s.nat2 t 0 0) := fun t => div_pos_of_neg_of_neg (by norm_num) (by linarith [hneg t])
  unfold gaussLogDensity
  rw [nonsing_inv_nonsing_inv _ (isUnit_det' hb.isUnit), hi, det_diagonal, Real.log_prod (fun i _ => (hpos i.1).ne')]
  simp only [Fintype.sum_prod_type, Fin.sum_univ_one, dotProduct, Fintype.card_prod, Fintype.card_fin, mul_one, sitePrec, mulVec_diagonal, siteFirst,
    Pi.sub_apply]
  rw [show ((n + 1 : ℕ) : ℝ) / 2 * Real.log (2 * Real.pi) = ∑ _t : Fin (n + 1), 1 / 2 * Real.log (2 * Real.pi) by
    rw [Finset.sum_const, Finset.card_univ, Fintype.card_fin, nsmul_eq_mul]; ring, Finset.mul_sum, Finset.mul_sum, ← Finset.sum_sub_distrib,
    ← Finset.sum_sub_distrib]
  refine Finset.sum_congr rfl fun t _ => ?_
  have := (hneg t).ne
  simp only [gaussianLikelihood]
  field_simp
  ring

/-- Closed forms of `dist_q`, `elbo()` and `classic_elbo()` in function space. -/
theorem CVI.closed {c : CVI n d} {k} (h : c.Valid k) (hneg : ∀ t, c.sites.nat2 t 0 0 < 0) (hG : (gpGram k c.times).PosDef) :
    ∃ q : SSM n d, c.distQ = .ok q ∧ q.Nondegenerate ∧ ((gpGram k c.times)⁻¹ + sitePrec c.sites)⁻¹.PosDef ∧
      q.law.map (latentOf c.kernel (fun _ => 0) c.times) =
        gaussLaw (((gpGram k c.times)⁻¹ + sitePrec c.sites)⁻¹ *ᵥ siteFirst c.sites) ((gpGram k c.times)⁻¹ + sitePrec c.sites)⁻¹ ∧
      c.elbo = .ok (gaussLogDensity 0 (gpGram k c.times + (sitePrec c.sites)⁻¹) ((sitePrec c.sites)⁻¹ *ᵥ siteFirst c.sites)) ∧
      c.classicElbo = .ok ((∑ i : Fin (n + 1) × Fin 1, c.likelihood.varExp ((((gpGram k c.times)⁻¹ + sitePrec c.sites)⁻¹ *ᵥ siteFirst c.sites) i)
          (((gpGram k c.times)⁻¹ + sitePrec c.sites)⁻¹ i i) (c.observations i.1 i.2)) -
        gaussKL (((gpGram k c.times)⁻¹ + sitePrec c.sites)⁻¹ *ᵥ siteFirst c.sites) ((gpGram k c.times)⁻¹ + sitePrec c.sites)⁻¹ 0 (gpGram k c.times)) := by
  obtain ⟨s, q, q', f, e, hs, hq, -, -, -, -, he, -, hev⟩ := C34_kalman h hneg
  obtain ⟨s', hs', hq1, -⟩ := C34_dist_q h
  obtain rfl : s = s' := Except.ok.inj (hs.symm.trans hs')
  obtain ⟨hqn, hqb⟩ := hq1 q hq
  obtain ⟨s', hs', hsn⟩ := kernel_ssm_nondegenerate h.builds h.noise h.two h.times
  obtain rfl : s = s' := Except.ok.inj (hs.symm.trans hs')
  have hb := sitePrec_posDef hneg
  have ub := isUnit_det' hb.isUnit
  set E := outMat c.kernel c.times with hE
  set b := sitePrec c.sites with hbd
  set g := siteFirst c.sites with hgd
  have hGe : E * s.Kd * Eᵀ = gpGram k c.times := by
    rw [(kernel_moments h.builds h.jitter hs).2, outMat_conj (Builds.good h.builds).2.2]
  have hG' : (E * s.Kd * Eᵀ).PosDef := by rw [hGe]; exact hG
  have hs0 : stk s.mus = 0 := (kernel_moments h.builds h.jitter hs).1
  have hll : ∀ x, ∑ t, (gaussianLikelihood (-1 / (2 * c.sites.nat2 t 0 0))).logProb (latent1 c.kernel c.times x t)
      (-c.sites.nat1 t 0 / (2 * c.sites.nat2 t 0 0)) = gaussLogDensity (E *ᵥ x) b⁻¹ (b⁻¹ *ᵥ g) := fun x => by
    rw [← site_logDensity hneg]
    refine Finset.sum_congr rfl fun t _ => ?_
    rw [hE, outMat_mulVec, latent1_eq]
    rfl
  have hsl : s.law = gaussLaw 0 s.Kd := by rw [s.law_eq_gauss, hs0]
  have hpost := bayes_posterior (SSM.Kd_posDef hsn) hb.inv E 0 (b⁻¹ *ᵥ g)
  have hqlaw : q.law = gaussLaw ((s.Kd⁻¹ + Eᵀ * b * E)⁻¹ *ᵥ (Eᵀ *ᵥ g)) (s.Kd⁻¹ + Eᵀ * b * E)⁻¹ := by
    obtain ⟨cst, hc⟩ := siteLogLik_gaussian (θ₁ := fun t => c.sites.nat1 t 0) hneg
    have hm : Measurable fun x => siteLogLik (fun t => c.sites.nat1 t 0) (fun t => c.sites.nat2 t 0 0)
        (latent1 c.kernel c.times x) := (measurable_siteLogLik _ _).comp (latent1_measurable _ _)
    have := IsBayesPosterior.add_const hm (-cst) hqb
    simp only [hc, add_neg_cancel_comm, hll] at this
    rw [hsl] at this
    rw [IsBayesPosterior.unique this hpost, mulVec_zero, sub_zero, zero_add, nonsing_inv_nonsing_inv _ ub, ← mulVec_mulVec (b⁻¹ *ᵥ g),
      mulVec_mulVec g b, mul_nonsing_inv _ ub, one_mulVec]
  have hJ : (s.Kd⁻¹ + Eᵀ * b * E)⁻¹.PosDef := by
    have := (bayes_J_posDef (SSM.Kd_posDef hsn) hb.inv E).inv
    rwa [nonsing_inv_nonsing_inv _ ub] at this
  rw [q.law_eq_gauss] at hqlaw
  obtain ⟨qm, qK⟩ := (SSM.gaussLaw_inj (SSM.Kd_posDef hqn).posSemidef hJ.posSemidef).1 hqlaw
  have hJu := isUnit_det' hJ.isUnit
  have k1 : q.Kd⁻¹ = s.Kd⁻¹ + Eᵀ * b * E := by
    rw [qK, nonsing_inv_nonsing_inv _ (isUnit_nonsing_inv_det_iff.1 hJu)]
  have k2 : q.Kd⁻¹ *ᵥ stk q.mus = Eᵀ *ᵥ g := by
    rw [k1, qm, mulVec_mulVec, mul_nonsing_inv _ (isUnit_nonsing_inv_det_iff.1 hJu), one_mulVec]
  have hS' : (E * q.Kd * Eᵀ).PosDef := by
    rw [← conjTranspose_eq_transpose_of_trivial]
    exact (SSM.Kd_posDef hqn).mul_mul_conjTranspose_same (outMat_vecMul_inj h.builds hG)
  obtain ⟨j1, j2, j3⟩ := gaussKL_marginal (SSM.Kd_posDef hsn) (SSM.Kd_posDef hqn) k1 k2 hG' hS'
  rw [hGe] at j1 j3
  have hSe : ((gpGram k c.times)⁻¹ + b)⁻¹ = E * q.Kd * Eᵀ := by
    rw [← j1, nonsing_inv_nonsing_inv _ (isUnit_det' hS'.isUnit)]
  have hme : (E * q.Kd * Eᵀ) *ᵥ g = E *ᵥ stk q.mus := by
    rw [← j2, mulVec_mulVec, mul_nonsing_inv _ (isUnit_det' hS'.isUnit), one_mulVec]
  rw [hSe, hme]
  refine ⟨q, hq, hqn, hS', ?_, ?_, ?_⟩
  · rw [latentOf_gauss, hE, outMat_mulVec]
    congr 1
    funext i
    simp
    try rfl
  · have h1 := bayes_evidence (SSM.Kd_posDef hsn) hb.inv E 0 (b⁻¹ *ᵥ g)
    simp only [hll] at hev
    rw [hsl, h1, mulVec_zero, hGe] at hev
    have := (ENNReal.ofReal_eq_ofReal_iff (Real.exp_pos _).le (Real.exp_pos _).le).1 hev
    rw [he, ← Real.exp_injective this]
  · obtain ⟨e', he1, he2⟩ := VGP.loss_ok (CVI.toVGP_valid h hqn)
    have hl : (c.toVGP q).lossOf q = -e' := by
      unfold VGP.lossOf
      exact by rw [show ({ c.toVGP q with q := q } : VGP n 1 d) = c.toVGP q from rfl, he2]
    obtain ⟨p, hp, -, -, hL⟩ := VGP.lossOf_eq (CVI.toVGP_valid h hqn)
    obtain rfl : s = p := Except.ok.inj (hs.symm.trans hp)
    have hcl : c.classicElbo = (c.toVGP q).elbo := by
      unfold CVI.classicElbo CVI.posterior CVI.distP VGP.elbo VGP.distP VGP.posterior CVI.toVGP
      rw [hq]
      simp only [Bind.bind, Except.bind, Pure.pure, Except.pure]
    rw [hcl, he1]
    congr 1
    have := hL q hqn
    rw [hl, q.law_eq_gauss, s.law_eq_gauss, klDiv_gaussLaw (SSM.Kd_posDef hqn) (SSM.Kd_posDef hsn),
      ENNReal.toReal_ofReal (gaussKL_nonneg (SSM.Kd_posDef hqn) (SSM.Kd_posDef hsn)), hs0, j3] at this
    rw [neg_eq_iff_eq_neg, neg_sub] at this
    rw [this]
    congr 1
    refine Finset.sum_congr rfl fun i _ => ?_
    rw [hE, outMat_mulVec, outMat_conj_diag]
    simp [CVI.toVGP]
    try rfl

/-- C79, conjugate-computation variational inference, for any likelihood: let `update_sites()` leave the sites unchanged, and let the kernel
hyperparameters vary while the sites are held fixed. Then `elbo()` and `classic_elbo()`, which are different functions, have the same derivative,
`½ αᵀ G' α - ½ tr((G⁻¹ - G⁻¹ S G⁻¹) G')` with `N(m, S)` the law of the function values at the data under `dist_q`, `G` their prior covariance, `G'` its
derivative and `α = G⁻¹ m`. -/
theorem C79_cvi {c : CVI n d} {K : ℝ → Stationary 1 d} {k : ℝ → ℝ → ℝ → Mat 1 1} {θ : ℝ}
    (hv : ∀ᶠ x in 𝓝 θ, ({ c with kernel := K x } : CVI n d).Valid (k x)) (hd : DifferentiableVarExp c.likelihood)
    (hneg : ∀ t, c.sites.nat2 t 0 0 < 0) (hr : c.learningRate ≠ 0)
    (hfix : ∃ c', ({ c with kernel := K θ } : CVI n d).updateSites = .ok c' ∧ c'.sites = c.sites) (hG : (gpGram (k θ) c.times).PosDef)
    {k' : ℝ → ℝ → Mat 1 1} (hk : ∀ s t a b, HasDerivAt (fun x => k x s t a b) (k' s t a b) θ)
    {q : SSM n d} (hq : ({ c with kernel := K θ } : CVI n d).distQ = .ok q) {m : Fin (n + 1) × Fin 1 → ℝ}
    {S : Matrix (Fin (n + 1) × Fin 1) (Fin (n + 1) × Fin 1) ℝ} (hS : S.PosSemidef)
    (hlaw : q.law.map (latentOf (K θ) (fun _ => 0) c.times) = gaussLaw m S) {α : Fin (n + 1) × Fin 1 → ℝ}
    (hα : α = (gpGram (k θ) c.times)⁻¹ *ᵥ m) {D : ℝ}
    (hD : D = 1 / 2 * (α ⬝ᵥ (gpGram k' c.times *ᵥ α)) -
      1 / 2 * (((gpGram (k θ) c.times)⁻¹ - (gpGram (k θ) c.times)⁻¹ * S * (gpGram (k θ) c.times)⁻¹) * gpGram k' c.times).trace) :
    ∃ e ce : ℝ → ℝ, (∀ᶠ x in 𝓝 θ, ({ c with kernel := K x } : CVI n d).elbo = .ok (e x) ∧
        ({ c with kernel := K x } : CVI n d).classicElbo = .ok (ce x)) ∧
      HasDerivAt e D θ ∧ HasDerivAt ce D θ := by
  set G : ℝ → Matrix (Fin (n + 1) × Fin 1) (Fin (n + 1) × Fin 1) ℝ := fun x => gpGram (k x) c.times with hGd
  have hG' : ∀ i j, HasDerivAt (fun x => G x i j) (gpGram k' c.times i j) θ := fun i j => hk _ _ _ _
  have hpos : ∀ᶠ x in 𝓝 θ, (G x).PosDef :=
    gpGram_posDef_eventually (hv.mono fun x h => ⟨h.builds, h.noise, h.jitter, h.times, h.two⟩) (fun i j => (hG' i j).continuousAt) hG
  have hb := sitePrec_posDef hneg
  set b := sitePrec c.sites with hbd
  set g := siteFirst c.sites with hgd
  set T : ℝ → Matrix (Fin (n + 1) × Fin 1) (Fin (n + 1) × Fin 1) ℝ := fun x => ((G x)⁻¹ + b)⁻¹ with hTd
  have hcl : ∀ x, ({ c with kernel := K x } : CVI n d).Valid (k x) → (G x).PosDef → _ := fun x h hp =>
    CVI.closed (c := { c with kernel := K x }) h hneg hp
  obtain ⟨q', hq', hqn, hTp, hTl, -, -⟩ := hcl θ hv.self_of_nhds hG
  obtain rfl : q = q' := Except.ok.inj (hq.symm.trans hq')
  obtain ⟨hme, hSe⟩ := (SSM.gaussLaw_inj hS hTp.posSemidef).1 (hlaw.symm.trans hTl)
  have hTp' : (T θ).PosDef := hTp
  have hSe' : S = T θ := hSe
  have hme' : m = T θ *ᵥ g := hme
  -- derivatives of the moments
  have hJ : ((G θ)⁻¹ + b).det ≠ 0 := by
    have := isUnit_nonsing_inv_det_iff.1 (isUnit_det' hTp.isUnit)
    exact isUnit_iff_ne_zero.1 this
  have hT' := hasDeriv_matrix_inv (C := fun x => (G x)⁻¹ + b) (fun i j => ((hasDeriv_matrix_inv hG' hG.det_pos.ne') i j).add_const (b i j)) hJ
  have hm' := fun i => hasDerivAt_mulVec (C := T) (z := fun _ => g) (z' := 0) hT' (fun i => hasDerivAt_const θ (g i)) i
  -- the fixed point
  have hmarg : ∀ i : Fin (n + 1) × Fin 1, q.law.map (fun x => latent1 (K θ) c.times x i.1) = gaussianReal (m i) (S i i).toNNReal := fun i => by
    have := congrArg (fun μ => μ.map fun x : Fin (n + 1) × Fin 1 → ℝ => x i) hlaw
    rw [gaussLaw_eval hS, Measure.map_map (measurable_pi_apply _) (measurable_latentOf _ _ _)] at this
    rw [← this]
    congr 1
    funext x
    obtain ⟨t, a⟩ := i
    obtain rfl : a = 0 := Subsingleton.elim _ _
    rfl
  have hgrad : ∀ i : Fin (n + 1) × Fin 1,
      deriv (fun x => c.likelihood.varExp x (S i i) (c.observations i.1 i.2)) (m i) = g i + 2 * c.sites.nat2 i.1 0 0 * m i ∧
      deriv (fun x => c.likelihood.varExp (m i) x (c.observations i.1 i.2)) (S i i) = c.sites.nat2 i.1 0 0 := fun i => by
    obtain ⟨c', hu, hc'⟩ := hfix
    obtain ⟨c'', mu, vu, hu', hmv, -, hsit⟩ := C34_update hv.self_of_nhds hq
    obtain rfl : c' = c'' := Except.ok.inj (hu.symm.trans hu')
    obtain ⟨hv0, hl⟩ := hmv i.1
    have hSd : 0 ≤ S i i := hS.diag_nonneg
    obtain ⟨e1, e2⟩ := gaussianReal_ext_iff.1 (hl.symm.trans (hmarg i))
    have e2' : vu i.1 = S i i := (Real.toNNReal_eq_toNNReal_iff hv0 hSd).1 e2
    obtain ⟨s1, s2⟩ := hsit i.1
    rw [hc', e1, e2'] at s1 s2
    obtain ⟨t, a⟩ := i
    obtain rfl : a = 0 := Subsingleton.elim _ _
    have z1 : c.sites.nat1 t 0 = (localGradients c.likelihood (m (t, 0)) (S (t, 0) (t, 0)) (c.observations t 0)).1 := by
      refine mul_left_cancel₀ hr ?_
      dsimp only at s1
      linarith
    have z2 : c.sites.nat2 t 0 0 = (localGradients c.likelihood (m (t, 0)) (S (t, 0) (t, 0)) (c.observations t 0)).2 := by
      refine mul_left_cancel₀ hr ?_
      dsimp only at s2
      linarith
    simp only [localGradients, gradMeanVarToExpectation] at z1 z2
    refine ⟨?_, z2.symm⟩
    have : g (t, 0) = c.sites.nat1 t 0 := rfl
    rw [this, z1, z2]
    ring
  -- the common derivative
  obtain ⟨i1, i2, -⟩ := dense_site_identity hG hTp' hb (m := T θ *ᵥ g) (g := g) (nonsing_inv_nonsing_inv _ (isUnit_iff_ne_zero.2 hJ))
    (by rw [mulVec_mulVec, nonsing_inv_mul _ (isUnit_det' hTp'.isUnit), one_mulVec])
  have hel := hasDerivAt_gaussLogDensity (C := fun x => G x + b⁻¹) (m := fun _ => 0) (m' := 0)
    (fun i j => (hG' i j).add_const (b⁻¹ i j)) (fun i => hasDerivAt_const θ 0) (hG.add hb.inv) (b⁻¹ *ᵥ g)
  have hel' : HasDerivAt (fun x => gaussLogDensity 0 (G x + b⁻¹) (b⁻¹ *ᵥ g)) D θ := by
    refine hel.congr_deriv ?_
    rw [sub_zero, i1, i2, dotProduct_zero, add_zero, hD, hα, hSe', hme']
  refine ⟨fun x => gaussLogDensity 0 (G x + b⁻¹) (b⁻¹ *ᵥ g), fun x => (∑ i : Fin (n + 1) × Fin 1, c.likelihood.varExp ((T x *ᵥ g) i) (T x i i)
      (c.observations i.1 i.2)) - gaussKL (T x *ᵥ g) (T x) 0 (G x), ?_, hel', ?_⟩
  · filter_upwards [hv, hpos] with x hx hpx
    obtain ⟨-, -, -, -, -, h1, h2⟩ := hcl x hx hpx
    exact ⟨h1, h2⟩
  · -- the difference of the two objectives
    have hrest : ∀ i : Fin (n + 1) × Fin 1, HasDerivAt (fun x => c.likelihood.varExp ((T x *ᵥ g) i) (T x i i) (c.observations i.1 i.2) -
        (g i * (T x *ᵥ g) i + c.sites.nat2 i.1 0 0 * (((T x *ᵥ g) i) ^ 2 + T x i i))) 0 θ := fun i => by
      have hvp : 0 < S i i := by rw [hSe']; exact hTp'.diag_pos
      obtain ⟨d1, d2⟩ := hgrad i
      have hD := (hd (m i) (S i i) (c.observations i.1 i.2) hvp).hasFDerivAt
      set L := fderiv ℝ (fun x : ℝ × ℝ => c.likelihood.varExp x.1 x.2 (c.observations i.1 i.2)) (m i, S i i) with hL
      have p1 : L (1, 0) = g i + 2 * c.sites.nat2 i.1 0 0 * m i := by
        have hpath : HasDerivAt (fun x : ℝ => (x, S i i)) ((1 : ℝ), (0 : ℝ)) (m i) := (hasDerivAt_id _).prodMk (hasDerivAt_const _ _)
        rw [← d1]
        exact (HasFDerivAt.comp_hasDerivAt (m i) (l := fun x : ℝ × ℝ => c.likelihood.varExp x.1 x.2 (c.observations i.1 i.2)) hD hpath).deriv.symm
      have p2 : L (0, 1) = c.sites.nat2 i.1 0 0 := by
        have hpath : HasDerivAt (fun x : ℝ => (m i, x)) ((0 : ℝ), (1 : ℝ)) (S i i) := (hasDerivAt_const _ _).prodMk (hasDerivAt_id _)
        rw [← d2]
        exact (HasFDerivAt.comp_hasDerivAt (S i i) (l := fun x : ℝ × ℝ => c.likelihood.varExp x.1 x.2 (c.observations i.1 i.2)) hD hpath).deriv.symm
      have hpath := (hm' i).prodMk (hT' i i)
      have hD' : HasFDerivAt (fun x : ℝ × ℝ => c.likelihood.varExp x.1 x.2 (c.observations i.1 i.2)) L ((T θ *ᵥ g) i, T θ i i) := by
        rw [← hme', ← hSe']; exact hD
      have h1 := HasFDerivAt.comp_hasDerivAt (f := fun x => ((T x *ᵥ g) i, T x i i)) θ hD' hpath
      have h2 := ((hm' i).const_mul (g i)).add ((((hm' i).pow 2).add (hT' i i)).const_mul (c.sites.nat2 i.1 0 0))
      refine (h1.sub h2).congr_deriv ?_
      have hlin : ∀ x y : ℝ, L (x, y) = x * (g i + 2 * c.sites.nat2 i.1 0 0 * m i) + y * c.sites.nat2 i.1 0 0 := fun x y => by
        rw [← p1, ← p2, ← smul_eq_mul, ← smul_eq_mul, ← map_smul, ← map_smul, ← map_add]
        simp
      rw [hlin, hme']
      simp
      ring
    have htot := (HasDerivAt.fun_sum (u := Finset.univ) fun i _ => hrest i).add hel'
    rw [Finset.sum_const_zero, zero_add] at htot
    have hcst := htot.add_const (1 / 2 * (g ⬝ᵥ (b⁻¹ *ᵥ g)) + 1 / 2 * Real.log b⁻¹.det +
      (Fintype.card (Fin (n + 1) × Fin 1) / 2 : ℝ) * Real.log (2 * Real.pi))
    refine hcst.congr_of_eventuallyEq ?_
    filter_upwards [hv, hpos] with x hx hpx
    obtain ⟨-, -, -, hTx, -⟩ := hcl x hx hpx
    have hJx := isUnit_nonsing_inv_det_iff.1 (isUnit_det' hTx.isUnit)
    obtain ⟨-, -, i3⟩ := dense_site_identity hpx hTx hb (m := T x *ᵥ g) (g := g) (nonsing_inv_nonsing_inv _ hJx)
      (by rw [mulVec_mulVec]; exact (congrArg (· *ᵥ g) (nonsing_inv_mul _ (isUnit_det' hTx.isUnit))).trans (one_mulVec g))
    have t1 : (b * T x).trace + (T x *ᵥ g) ⬝ᵥ (b *ᵥ (T x *ᵥ g)) =
        -2 * ∑ i : Fin (n + 1) × Fin 1, c.sites.nat2 i.1 0 0 * (((T x *ᵥ g) i) ^ 2 + T x i i) := by
      simp only [Matrix.trace, diag_apply, hbd, sitePrec, diagonal_mul, dotProduct, mulVec_diagonal]
      rw [← Finset.sum_add_distrib, Finset.mul_sum]
      exact Finset.sum_congr rfl fun i _ => by ring
    have i3' : gaussLogDensity 0 (G x + b⁻¹) (b⁻¹ *ᵥ g) + gaussKL (T x *ᵥ g) (T x) 0 (G x) = _ := i3
    rw [t1] at i3'
    simp only [Pi.add_apply, Finset.sum_sub_distrib, Finset.sum_add_distrib]
    have t2 : ∑ i : Fin (n + 1) × Fin 1, g i * (T x *ᵥ g) i = g ⬝ᵥ (T x *ᵥ g) := rfl
    rw [t2]
    linarith

end MF
