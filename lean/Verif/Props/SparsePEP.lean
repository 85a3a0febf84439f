import Verif.Lemmas.SparsePEP
import Verif.Lemmas.MomentMatch
import Verif.Props.PEP
import Verif.Props.SpatioTemporalElbo

/-!
# C47: sparse power expectation propagation (`SparsePowerExpectationPropagation`)
-/

namespace MF
open Matrix Spec MeasureTheory ProbabilityTheory InformationTheory
variable {n d p : ℕ}

/-- What the theorems assume of the object: a kernel built by the library, with noise and without jitter; at least two
strictly increasing inducing points in the range the code treats as finite; symmetric sites. -/
structure SparsePEP.Valid (c : SparsePEP n d) (k : ℝ → ℝ → Mat 1 1) : Prop where
  builds : Builds c.kernel k
  noise : NoiseTag c.kernel true
  jitter : c.kernel.jitter = 0
  times : StrictMono c.inducing
  lower : -10000000000 < c.inducing 0
  upper : c.inducing (Fin.last n) ≤ 10000000000
  two : 0 < n
  symm : ∀ j, (c.nat2 j)ᵀ = c.nat2 j

theorem SparsePEP.Valid.sparse {c : SparsePEP n d} {k} (h : c.Valid k) (lr : ℝ) : (c.toSparse lr).Valid k :=
  ⟨h.builds, h.noise, h.jitter, h.times, h.lower, h.upper, h.two, h.symm⟩

/-- The model in which the site of interval `j` is raised to the power `r`. -/
def SparsePEP.scaleSite (c : SparsePEP n d) (j : Fin (n + 2)) (r : ℝ) : SparsePEP n d :=
  { c with nat1 := Function.update c.nat1 j (r • c.nat1 j), nat2 := Function.update c.nat2 j (r • c.nat2 j) }

open Classical in
/-- The number of data in interval `j`. -/
noncomputable def SparsePEP.count (c : SparsePEP n d) (X : Fin p → ℝ) (j : Fin (n + 2)) : ℕ :=
  (Finset.univ.filter fun i => InInterval c.inducing j (X i)).card

theorem SparsePEP.Valid.scale {c : SparsePEP n d} {k} (h : c.Valid k) (j r) : (c.scaleSite j r).Valid k := by
  refine ⟨h.builds, h.noise, h.jitter, h.times, h.lower, h.upper, h.two, fun i => ?_⟩
  by_cases hi : i = j
  · subst hi
    simp only [SparsePEP.scaleSite, Function.update_self, transpose_smul, h.symm]
  · simp only [SparsePEP.scaleSite, Function.update_of_ne hi, h.symm]

theorem SparsePEP.fraction_eq {c : SparsePEP n d} (hz : Monotone c.inducing) (X : Fin p → ℝ) (j) :
    c.fractionSites X j = ((c.count X j : ℕ) : ℝ)⁻¹ ∧ c.numDataPerInterval X j = c.count X j := by
  classical
  have : partitionSum (fun t => searchsortedLeft c.inducing (X t)) (fun _ => (1 : ℝ)) j = c.count X j := by
    rw [partitionSum_eq, SparsePEP.count, Finset.sum_boole]
    congr 2
    ext i
    simp only [Finset.mem_filter, Finset.mem_univ, true_and]
    exact inInterval_iff hz j (X i)
  exact ⟨by rw [SparsePEP.fractionSites, this], this⟩

open Classical in
/-- C47: `compute_fraction`: every datum removes an equal, positive share of the site of its interval, and the shares of the data of one
interval add up to the whole site. -/
theorem C47_fraction {c : SparsePEP n d} (hz : Monotone c.inducing) (X : Fin p → ℝ) (j : Fin (n + 2)) :
    (∀ i, InInterval c.inducing j (X i) → 0 < c.computeFraction X i ∧ c.computeFraction X i =
      1 / ((Finset.univ.filter fun i' => InInterval c.inducing j (X i')).card : ℝ)) ∧
    ((∃ i, InInterval c.inducing j (X i)) →
      ∑ i ∈ Finset.univ.filter (fun i => InInterval c.inducing j (X i)), c.computeFraction X i = 1) := by
  have key : ∀ i, InInterval c.inducing j (X i) → c.computeFraction X i =
      1 / ((Finset.univ.filter fun i' => InInterval c.inducing j (X i')).card : ℝ) := fun i hi => by
    unfold SparsePEP.computeFraction
    rw [(inInterval_iff hz j (X i)).2 hi, (SparsePEP.fraction_eq hz X j).1, one_div]
    rfl
  have hpos : ∀ i, InInterval c.inducing j (X i) → 0 < ((Finset.univ.filter fun i' => InInterval c.inducing j (X i')).card : ℝ) :=
    fun i hi => Nat.cast_pos.2 (Finset.card_pos.2 ⟨i, by simpa using hi⟩)
  refine ⟨fun i hi => ⟨by rw [key i hi]; exact one_div_pos.2 (hpos i hi), key i hi⟩, fun ⟨i, hi⟩ => ?_⟩
  rw [Finset.sum_congr rfl fun i' hi' => key i' (by simpa using hi'), Finset.sum_const, nsmul_eq_mul]
  exact mul_one_div_cancel (hpos i hi).ne'

/-- C47: `dist_q` is the posterior of the prior at the inducing points given the sites; it exists when the sites are
bounded; a fresh object has sites `-1e-10`. -/
theorem C47_dist_q {c : SparsePEP n d} {k} (h : c.Valid k) : ∃ s : SSM n d, c.distP = .ok s ∧ s.Nondegenerate ∧
    (∀ q, c.distQ = .ok q → q.Nondegenerate ∧
      IsBayesPosterior s.law (fun x => pairSiteLogLik c.nat1 c.nat2 (unstk x)) q.law) ∧
    ((∀ j v, v ⬝ᵥ (c.nat2 j *ᵥ v) ≤ 0) → ∃ q, c.distQ = .ok q) ∧
    ((∃ q, c.distQ = .ok q) ∨ c.distQ = .error .invalidArgument) :=
  C36_dist_q (h.sparse 1)

/-- C47: a fresh object is valid and its sites are bounded. -/
theorem C47_init {z : Fin (n + 1) → ℝ} {K : Stationary 1 d} {k} (hK : Builds K k)
    (hN : NoiseTag K true) (hj : K.jitter = 0) (ht : StrictMono z) (h0 : -10000000000 < z 0)
    (h1 : z (Fin.last n) ≤ 10000000000) (hn : 0 < n) (lik : PEPLikelihood) (m : Option (ℝ → Vec 1)) (lr a : ℝ) :
    (SparsePEP.init K z lik m lr a).Valid k ∧ (∀ j v, v ⬝ᵥ ((SparsePEP.init K z lik m lr a).nat2 j *ᵥ v) ≤ 0) ∧
      ∃ q, (SparsePEP.init K z lik m lr a).distQ = .ok q := by
  have hv : (SparsePEP.init K z lik m lr a).Valid k := ⟨hK, hN, hj, ht, h0, h1, hn, fun _ => by
    simp [SparsePEP.init]⟩
  have hneg : ∀ j v, v ⬝ᵥ ((SparsePEP.init K z lik m lr a).nat2 j *ᵥ v) ≤ 0 := fun j v => by
    simp only [SparsePEP.init, smul_mulVec, one_mulVec, dotProduct_smul, smul_eq_mul]
    have : 0 ≤ v ⬝ᵥ v := by
      unfold dotProduct
      exact Finset.sum_nonneg fun i _ => mul_self_nonneg _
    norm_num
    linarith
  obtain ⟨s, hs, hnd, -, hq, -⟩ := C47_dist_q hv
  exact ⟨hv, hneg, hq hneg⟩

/-- The precision and the linear term of `dist_q`; the normalizers give the evidence of the sites. -/
theorem SparsePEP.distQ_natural {c : SparsePEP n d} {k} (h : c.Valid k) {s : SSM n d} (hs : c.distP = .ok s) {q}
    (hq : c.distQ = .ok q) :
    q.Kd⁻¹ = s.Kd⁻¹ - (2 : ℝ) • ∑ j, (pickMat (nbIdx d j))ᵀ * c.nat2 j * pickMat (nbIdx d j) ∧
    q.Kd⁻¹ *ᵥ stk q.mus = ∑ j, (pickMat (nbIdx d j))ᵀ *ᵥ c.nat1 j ∧
    ∃ zq zp, q.normalizer = .ok zq ∧ s.normalizer = .ok zp ∧
      evidence s.law (fun x => pairSiteLogLik c.nat1 c.nat2 (unstk x)) = ENNReal.ofReal (Real.exp (zq - zp)) := by
  obtain ⟨s', hs', hnd⟩ := kernel_ssm_nondegenerate h.builds h.noise h.two h.times
  obtain rfl : s = s' := Except.ok.inj (hs.symm.trans hs')
  obtain ⟨hco, -, -⟩ := Builds.good h.builds
  have hdq : c.distQ = naturalsToSSM (siteLin c.nat1) (fun b => (-(1 / 2) : ℝ) • s.precD b + siteDiag c.nat2 b)
      (fun k => -s.precS k + (2 : ℝ) • siteSub c.nat2 k) := by
    unfold SparsePEP.distQ SparsePEP.computePosteriorSSM
    rw [hs]
    simp only [bind, Except.bind, SSM.precision_eq hnd h.two, Option.getD_some]
    rfl
  have h0 := (kernel_moments h.builds h.jitter hs').1
  obtain ⟨h1, h2⟩ := naturals_posterior hnd h0 h.two hco.pos
    (siteLin c.nat1) (siteDiag c.nat2) (siteSub c.nat2) (siteDiag_symm h.symm)
  rw [← hdq] at h1 h2
  rcases (Classical.em _).imp h1 h2 with ⟨q', hq', hqn, hK, hm, -⟩ | he
  · obtain rfl : q = q' := Except.ok.inj (hq.symm.trans hq')
    have hKq := SSM.Kd_posDef hqn
    have hm' : q.Kd⁻¹ *ᵥ stk q.mus = stk (siteLin c.nat1) := by
      rw [hm, mulVec_mulVec, nonsing_inv_mul _ (isUnit_det' hKq.isUnit), one_mulVec]
    refine ⟨by rw [hK, sites_dense h.symm], by rw [hm', lin_dense], ?_⟩
    have hev := (bayes_natural (SSM.Kd_posDef hnd) hKq hK (μ := 0) (μ' := stk q.mus) (l := stk (siteLin c.nat1)) (by
      rw [hm', mulVec_zero, zero_add])).2
    obtain ⟨zq, _, _, hzq, -, -, hz1, -⟩ := C14_normalizer q hqn h.two hco.pos
    obtain ⟨zp, _, _, hzp, -, -, hz2, -⟩ := C14_normalizer s hnd h.two hco.pos
    refine ⟨zq, zp, hzq, hzp, ?_⟩
    have e1 := hz1 0
    have e2 := hz2 0
    have hstk : stk (0 : Fin (n + 1) → Vec d) = 0 := rfl
    rw [SSM.logPdf_eq hqn, hstk] at e1
    rw [SSM.logPdf_eq hnd, hstk, h0] at e2
    simp only [mulVec_zero, dotProduct_zero, mul_zero, sub_zero, zero_sub] at e1 e2
    rw [e1, e2, ← h0, ← SSM.law_eq_gauss] at hev
    rw [show zq - zp = -zp - -zq by ring, ← hev]
    simp only [pairSite_quad _ h.symm]
  · rw [he] at hq; cases hq

/-- The conditional statistics of a noisy kernel exist and have a positive semi-definite covariance. -/
theorem kernel_stats {K : Stationary 1 d} {k} (hK : Builds K k) (hN : NoiseTag K true) {z : Fin (n + 1) → ℝ}
    (hz : Monotone z) {X : Fin p → ℝ} (h0 : ∀ j, -10000000000 < X j) (h1 : ∀ j, X j ≤ 10000000000) :
    ∃ P T, conditionalStatistics approxInf X z K.trans = .ok (P, T) ∧ ∀ i, (T i).PosSemidef := by
  obtain ⟨hc, hr, -⟩ := Builds.good hK
  have : ∀ j, ∃ cs, CodeStats approxInf z K.trans (X j) cs := by
    intro j
    obtain ⟨hl, hr⟩ := augmented_between hz (h0 j) (h1 j)
    have hp := (C27_process_covariance_pd hK hN (augmentedTimes approxInf z
      (searchsortedLeft z (X j)).castSucc) (sub_pos.2 hl)).2
    have hs := (C27_process_covariance_psd hK (X j) (sub_nonneg.2 hr)).2.1
    refine (C21_succeeds hp.posSemidef hs).1.2 ?_
    have hu : IsUnit (K.stateTransitions (X j) (augmentedTimes approxInf z
      (searchsortedLeft z (X j)).succ - X j)) := by rw [hc.time]; exact hc.isUnit _
    have := (Matrix.IsUnit.posDef_star_right_conjugate_iff hu).2 hp
    rw [star_eq_conjTranspose, conjTranspose_eq_transpose_of_trivial] at this
    exact PosDef.posSemidef_add hs this
  choose cs hcs using this
  refine ⟨_, _, by unfold conditionalStatistics; rw [conditionalStatisticsAux_of hcs]; rfl, fun i => ?_⟩
  obtain ⟨hl, hr⟩ := augmented_between hz (h0 i) (h1 i)
  exact (C21_bridge (C27_process_covariance_psd hK _ (sub_nonneg.2 hl.le)).2.1
    (C27_process_covariance_psd hK _ (sub_nonneg.2 hr)).2.1 (hcs i)).1

theorem SparsePEP.pd {c : SparsePEP n d} {k} (h : c.Valid k) {q : SSM n d} (hq : q.Nondegenerate) (j) :
    (c.pairCov q j).PosDef := by
  obtain ⟨-, hr, -⟩ := Builds.good h.builds
  exact pairCov_posDef ((NoiseTag.noisy h.noise).2.pd.add_posSemidef (posSemidef_jitter d hr.jit)) (SSM.Kd_posDef hq) j

/-- The code's cavity in closed form. -/
theorem SparsePEP.computeCavity_eq {c : SparsePEP n d} {k} (h : c.Valid k) {q} (hq : c.distQ = .ok q)
    {X : Fin p → ℝ} {P T} (hst : conditionalStatistics approxInf X c.inducing c.kernel.trans = .ok (P, T)) :
    ((∀ t, (c.cavPrec q (c.frac X t) (searchsortedLeft c.inducing (X t))).PosDef) →
      ∃ sx, c.computeMarginals = .ok (neighbours q.mus, c.pairCov q) ∧
      c.removeCavityFromMarginals X (neighbours q.mus, c.pairCov q) = .ok sx ∧
      (projectStateToF (fun t => c.kernel.emission (X t)) fun t => (sx t).1) = (fun t _ => projW c.kernel X P t ⬝ᵥ
        ((c.cavPrec q (c.frac X t) (searchsortedLeft c.inducing (X t)))⁻¹ *ᵥ
          c.cavLin q (c.frac X t) (searchsortedLeft c.inducing (X t)))) ∧
      (projectStateCovarianceToFDiag (fun t => c.kernel.emission (X t)) fun t => (sx t).2) =
       (fun t _ => (c.kernel.emission (X t) * T t * (c.kernel.emission (X t))ᵀ) 0 0 + projW c.kernel X P t ⬝ᵥ
        ((c.cavPrec q (c.frac X t) (searchsortedLeft c.inducing (X t)))⁻¹ *ᵥ projW c.kernel X P t))) ∧
    (¬ (∀ t, (c.cavPrec q (c.frac X t) (searchsortedLeft c.inducing (X t))).PosDef) →
      c.computeMarginals = .ok (neighbours q.mus, c.pairCov q) ∧
      c.removeCavityFromMarginals X (neighbours q.mus, c.pairCov q) = .error .invalidArgument) := by
  obtain ⟨s, hs, hnd, hq1, -⟩ := C47_dist_q h
  have hqn := (hq1 q hq).1
  have hm := SparsePEP.computeMarginals_eq h.builds h.two hq hqn
  obtain ⟨h1, h2⟩ := SparsePEP.cavity_cases (c.pd h hqn) h.symm hst
  refine ⟨fun hp => ⟨_, hm, h1 hp, ?_, ?_⟩, fun hp => ⟨hm, h2 hp⟩⟩
  · funext t a
    obtain rfl : a = 0 := Subsingleton.elim _ _
    rw [(C25_projection _ _ (fun _ => 0) t).1, mulVec_mulVec]
    rfl
  · funext t a
    obtain rfl : a = 0 := Subsingleton.elim _ _
    rw [(C25_projection _ (fun _ => 0) _ t).2.2]
    beta_reduce
    have key : ∀ (H : Mat 1 d) (F : Matrix (Fin d) (Fin d ⊕ Fin d) ℝ) (T : Mat d d)
        (A : Matrix (Fin d ⊕ Fin d) (Fin d ⊕ Fin d) ℝ),
        H * (T + F * A * Fᵀ) * Hᵀ = H * T * Hᵀ + (H * F) * A * (H * F)ᵀ := by
      intro H F T A
      simp only [transpose_mul, Matrix.mul_add, Matrix.add_mul, Matrix.mul_assoc]
    rw [key, Matrix.add_apply, row_conj (_ * _)]
    rfl

theorem SparsePEP.frac_eq {c : SparsePEP n d} (hz : Monotone c.inducing) (X : Fin p → ℝ) (t : Fin p) {j}
    (hj : InInterval c.inducing j (X t)) : c.frac X t = c.alpha / c.count X j ∧ searchsortedLeft c.inducing (X t) = j := by
  have := (inInterval_iff hz j (X t)).2 hj
  refine ⟨?_, this⟩
  rw [SparsePEP.frac, this, (SparsePEP.fraction_eq hz X j).1, div_eq_mul_inv]

/-- C47: `compute_cavity` removes from the joint distribution of the two neighbouring inducing states the fraction
`alpha / c` of the site of the interval (`c` the number of data in it), and predicts from what is left. Between the
first and the last inducing point the joint distribution is that of `dist_q`; in the two outer intervals the missing
neighbour is an independent stationary state. It fails only when nothing positive definite is left. -/
theorem C47_cavity {c : SparsePEP n d} {k} (h : c.Valid k) {q} (hq : c.distQ = .ok q) {X : Fin p → ℝ}
    (h0 : ∀ j, -10000000000 < X j) (h1 : ∀ j, X j ≤ 10000000000) :
    (∀ m v, c.computeCavity X = .ok (m, v) →
      ∃ P T, conditionalStatistics approxInf X c.inducing c.kernel.trans = .ok (P, T) ∧
      ∀ i j, InInterval c.inducing j (X i) → ∃ (μ : Fin d ⊕ Fin d → ℝ) (K : Matrix (Fin d ⊕ Fin d) (Fin d ⊕ Fin d) ℝ)
        (w : Fin d ⊕ Fin d → ℝ), w = (c.kernel.emission (X i) * P i) 0 ∧ K.PosDef ∧
        IsBayesPosterior (gaussLaw μ K)
          (fun u => c.alpha / c.count X j * (c.nat1 j ⬝ᵥ u + u ⬝ᵥ (c.nat2 j *ᵥ u)))
          (gaussLaw (neighbours q.mus j) (c.pairCov q j)) ∧
        m i 0 = w ⬝ᵥ μ ∧
        v i 0 = (c.kernel.emission (X i) * T i * (c.kernel.emission (X i))ᵀ) 0 0 + w ⬝ᵥ (K *ᵥ w) ∧ 0 ≤ v i 0) ∧
    (∀ j, j ≠ 0 → j ≠ Fin.last (n + 1) →
      gaussLaw (neighbours q.mus j) (c.pairCov q j) = q.law.map fun x => neighbours (unstk x) j) ∧
    ((∃ r, c.computeCavity X = .ok r) ∨ c.computeCavity X = .error .invalidArgument) := by
  obtain ⟨s, hs, hnd, hq1, -⟩ := C47_dist_q h
  have hqn := (hq1 q hq).1
  obtain ⟨P, T, hst, hT⟩ := kernel_stats h.builds h.noise h.times.monotone h0 h1
  obtain ⟨hc1, hc2⟩ := SparsePEP.computeCavity_eq h hq hst
  refine ⟨fun m v hmv => ⟨P, T, hst, fun i j hij => ?_⟩, fun j hj0 hj1 => ?_, ?_⟩
  · have hp : ∀ t, (c.cavPrec q (c.frac X t) (searchsortedLeft c.inducing (X t))).PosDef := by
      by_contra hp
      obtain ⟨e1, e2⟩ := hc2 hp
      unfold SparsePEP.computeCavity SparsePEP.computeCavityState at hmv
      simp only [bind, Except.bind, e1, e2] at hmv
      cases hmv
    obtain ⟨sx, e1, e2, e3, e4⟩ := hc1 hp
    have hmv' : c.computeCavity X = .ok ((projectStateToF (fun t => c.kernel.emission (X t)) fun t => (sx t).1),
        projectStateCovarianceToFDiag (fun t => c.kernel.emission (X t)) fun t => (sx t).2) := by
      unfold SparsePEP.computeCavity SparsePEP.computeCavityState
      simp only [bind, Except.bind, e1, e2, pure, Except.pure]
    obtain ⟨rfl, rfl⟩ := Prod.mk.inj (Except.ok.inj (hmv.symm.trans hmv'))
    rw [e3, e4]
    obtain ⟨hf, hj⟩ := SparsePEP.frac_eq h.times.monotone X i hij
    have hpi := hp i
    beta_reduce
    rw [hf, hj] at hpi
    rw [hf, hj]
    set a := c.alpha / c.count X j with ha
    have hpu := isUnit_det' hpi.isUnit
    have hb := (bayes_natural hpi.inv (c.pd h hqn j) (M := a • c.nat2 j)
      (by
        rw [nonsing_inv_nonsing_inv _ hpu, SparsePEP.cavPrec, smul_smul]
        abel)
      (μ := (c.cavPrec q a j)⁻¹ *ᵥ c.cavLin q a j) (μ' := neighbours q.mus j) (l := a • c.nat1 j)
      (by
        rw [nonsing_inv_nonsing_inv _ hpu, mulVec_mulVec, mul_nonsing_inv _ hpu, one_mulVec, SparsePEP.cavLin]
        abel)).1
    refine ⟨_, _, projW c.kernel X P i, rfl, hpi.inv, ?_, rfl, rfl, ?_⟩
    · simp only [smul_dotProduct, smul_mulVec, dotProduct_smul, smul_eq_mul, ← mul_add] at hb
      exact hb
    · refine add_nonneg ?_ ?_
      · exact (posSemidef_conj' (hT i) _).diag_nonneg
      · have := hpi.inv.posSemidef.dotProduct_mulVec_nonneg (projW c.kernel X P i)
        rwa [star_trivial] at this
  · have e : c.pairCov q j = pickMat (nbIdx d j) * q.Kd * (pickMat (nbIdx d j))ᵀ := by
      unfold SparsePEP.pairCov endCov
      rw [if_neg hj0, if_neg hj1, fromBlocks_zero, add_zero]
    rw [e, SSM.law_eq_gauss]
    have := gaussLaw_map_affine q.Kd_posSemidef (stk q.mus) (0 : Fin d ⊕ Fin d → ℝ) (pickMat (nbIdx d j))
    simp only [zero_add, ← neighbours_eq] at this
    exact this.symm
  · rcases Classical.em (∀ t, (c.cavPrec q (c.frac X t) (searchsortedLeft c.inducing (X t))).PosDef) with hp | hp
    · obtain ⟨sx, e1, e2, -⟩ := hc1 hp
      left
      unfold SparsePEP.computeCavity SparsePEP.computeCavityState
      simp only [bind, Except.bind, e1, e2, pure, Except.pure]
      exact ⟨_, rfl⟩
    · obtain ⟨e1, e2⟩ := hc2 hp
      right
      unfold SparsePEP.computeCavity SparsePEP.computeCavityState
      simp only [bind, Except.bind, e1, e2]

theorem inInterval_interior {z : Fin (n + 1) → ℝ} {t : ℝ} (h0 : z 0 < t) (h1 : t ≤ z (Fin.last n)) {j : Fin (n + 2)}
    (hj : InInterval z j t) : j ≠ 0 ∧ j ≠ Fin.last (n + 1) := by
  constructor
  · rintro rfl
    exact absurd (hj.2 0 (Fin.zero_le _)) (not_le.2 h0)
  · rintro rfl
    exact absurd (hj.1 (Fin.last n) (Fin.castSucc_lt_last _)) (not_lt.2 h1)

/-- Raising the site of interval `j` to the power `1 - a` gives the cavity. -/
theorem SparsePEP.scale_marginal {c : SparsePEP n d} {k} (h : c.Valid k) {q} (hq : c.distQ = .ok q) {j : Fin (n + 2)}
    (hj0 : j ≠ 0) (hj1 : j ≠ Fin.last (n + 1)) {a : ℝ} {q'} (hq' : (c.scaleSite j (1 - a)).distQ = .ok q') :
    c.cavPrec q a j = (c.pairCov q' j)⁻¹ ∧ (c.pairCov q' j).PosDef ∧
      c.cavLin q a j = (c.pairCov q' j)⁻¹ *ᵥ neighbours q'.mus j := by
  obtain ⟨s, hs, hnd, hq1, -⟩ := C47_dist_q h
  have hqn := (hq1 q hq).1
  obtain ⟨s', hs', -, hq1', -⟩ := C47_dist_q (h.scale j (1 - a))
  obtain rfl : s' = s := Except.ok.inj (hs'.symm.trans hs)
  have hqn' := (hq1' q' hq').1
  have e : ∀ q : SSM n d, c.pairCov q j = pickMat (nbIdx d j) * q.Kd * (pickMat (nbIdx d j))ᵀ := fun q => by
    unfold SparsePEP.pairCov endCov
    rw [if_neg hj0, if_neg hj1, fromBlocks_zero, add_zero]
  obtain ⟨k1, l1, -⟩ := SparsePEP.distQ_natural h hs hq
  obtain ⟨k2, l2, -⟩ := SparsePEP.distQ_natural (h.scale j (1 - a)) hs' hq'
  have hk : q'.Kd⁻¹ = q.Kd⁻¹ + (pickMat (nbIdx d j))ᵀ * ((2 * a) • c.nat2 j) * pickMat (nbIdx d j) := by
    rw [k1, k2, ← Finset.add_sum_erase _ _ (Finset.mem_univ j), ← Finset.add_sum_erase _ _ (Finset.mem_univ j)]
    have hne : ∀ i ∈ Finset.univ.erase j, (pickMat (nbIdx d i))ᵀ * (c.scaleSite j (1 - a)).nat2 i * pickMat (nbIdx d i) =
        (pickMat (nbIdx d i))ᵀ * c.nat2 i * pickMat (nbIdx d i) := fun i hi => by
      simp only [SparsePEP.scaleSite, Function.update_of_ne (Finset.ne_of_mem_erase hi)]
    rw [Finset.sum_congr rfl hne]
    simp only [SparsePEP.scaleSite, Function.update_self, sub_smul, one_smul, Matrix.mul_sub, Matrix.sub_mul, Matrix.mul_smul,
      Matrix.smul_mul, smul_add, smul_sub, smul_smul]
    abel
  have hl : q'.Kd⁻¹ *ᵥ stk q'.mus = q.Kd⁻¹ *ᵥ stk q.mus + (pickMat (nbIdx d j))ᵀ *ᵥ (-(a • c.nat1 j)) := by
    rw [l1, l2, ← Finset.add_sum_erase _ _ (Finset.mem_univ j), ← Finset.add_sum_erase _ _ (Finset.mem_univ j)]
    have hne : ∀ i ∈ Finset.univ.erase j, (pickMat (nbIdx d i))ᵀ *ᵥ (c.scaleSite j (1 - a)).nat1 i =
        (pickMat (nbIdx d i))ᵀ *ᵥ c.nat1 i := fun i hi => by
      simp only [SparsePEP.scaleSite, Function.update_of_ne (Finset.ne_of_mem_erase hi)]
    rw [Finset.sum_congr rfl hne]
    simp only [SparsePEP.scaleSite, Function.update_self, sub_smul, one_smul, mulVec_sub, mulVec_neg]
    abel
  have hC : (pickMat (nbIdx d j) * q.Kd * (pickMat (nbIdx d j))ᵀ).PosDef := e q ▸ c.pd h hqn j
  refine ⟨?_, c.pd h hqn' j, ?_⟩
  · rw [SparsePEP.cavPrec, e, e, ← marginal_site (SSM.Kd_posDef hqn) (SSM.Kd_posDef hqn') hk hC]
  · rw [SparsePEP.cavLin, e, e]
    have := marginal_site_mean (SSM.Kd_posDef hqn) (SSM.Kd_posDef hqn') hk hC hl
    rw [← neighbours_eq, ← neighbours_eq] at this
    rw [show unstk (stk q'.mus) = q'.mus from rfl, show unstk (stk q.mus) = q.mus from rfl] at this
    rw [this, sub_eq_add_neg]

/-- C47: between the first and the last inducing point the cavity of a datum is what the model itself would predict at
that time had the site of its interval been raised to the power `1 - alpha / c`. -/
theorem C47_leave_out {c : SparsePEP n d} {k} (h : c.Valid k) {q} (hq : c.distQ = .ok q) {X : Fin p → ℝ}
    (h0 : ∀ i, c.inducing 0 < X i) (h1 : ∀ i, X i ≤ c.inducing (Fin.last n)) {q' : Fin (n + 2) → SSM n d}
    (hq' : ∀ j, j ≠ 0 → j ≠ Fin.last (n + 1) → (c.scaleSite j (1 - c.alpha / c.count X j)).distQ = .ok (q' j)) :
    ∃ m v, c.computeCavity X = .ok (m, v) ∧ ∀ i j, InInterval c.inducing j (X i) →
      ∃ post fx, (c.scaleSite j (1 - c.alpha / c.count X j)).posterior = .ok post ∧ post.predictFDiag X = .ok fx ∧
        m i 0 = (fx i).1 0 ∧ v i 0 = (fx i).2 0 := by
  have h0' : ∀ i, -10000000000 < X i := fun i => h.lower.trans (h0 i)
  have h1' : ∀ i, X i ≤ 10000000000 := fun i => (h1 i).trans h.upper
  obtain ⟨P, T, hst, hT⟩ := kernel_stats h.builds h.noise h.times.monotone h0' h1'
  obtain ⟨hc1, -⟩ := SparsePEP.computeCavity_eq h hq hst
  have key : ∀ i j, InInterval c.inducing j (X i) →
      c.cavPrec q (c.alpha / c.count X j) j = (c.pairCov (q' j) j)⁻¹ ∧ (c.pairCov (q' j) j).PosDef ∧
      c.cavLin q (c.alpha / c.count X j) j = (c.pairCov (q' j) j)⁻¹ *ᵥ neighbours (q' j).mus j := fun i j hij => by
    obtain ⟨hj0, hj1⟩ := inInterval_interior (h0 i) (h1 i) hij
    exact SparsePEP.scale_marginal h hq hj0 hj1 (hq' j hj0 hj1)
  obtain ⟨sx, e1, e2, e3, e4⟩ := hc1 fun t => by
    have hij := (inInterval_iff h.times.monotone _ (X t)).1 rfl
    rw [(SparsePEP.frac_eq h.times.monotone X t hij).1]
    obtain ⟨a1, a2, -⟩ := key t _ hij
    rw [a1]
    exact a2.inv
  refine ⟨_, _, by
    unfold SparsePEP.computeCavity SparsePEP.computeCavityState
    simp only [bind, Except.bind, e1, e2, pure, Except.pure]
    rfl, fun i j hij => ?_⟩
  obtain ⟨hj0, hj1⟩ := inInterval_interior (h0 i) (h1 i) hij
  have hqj := hq' j hj0 hj1
  obtain ⟨s', hs', -, hq1', -⟩ := C47_dist_q (h.scale j (1 - c.alpha / c.count X j))
  have hqn' := (hq1' _ hqj).1
  obtain ⟨r, hr⟩ := C22_succeeds (c := (⟨q' j, c.kernel, c.inducing, fun _ => 0⟩ : CondProcess n 1 d)) h.builds h.noise
    hqn' h.two h.times.monotone h0' h1'
  obtain ⟨fx, _, hf, -, -⟩ := (C45_formulas hr 0).2
  refine ⟨⟨q' j, c.kernel, c.inducing, fun _ => 0⟩, fx, ?_, hf, ?_⟩
  · unfold SparsePEP.posterior
    rw [hqj]; rfl
  · obtain ⟨hfr, hj⟩ := SparsePEP.frac_eq h.times.monotone X i hij
    obtain ⟨b1, b2⟩ := pair_predict h.builds hqn' h.two hst hf i
    obtain ⟨a1, a2, a3⟩ := key i j hij
    have a2u := isUnit_det' a2.isUnit
    have e : c.pairCov (q' j) j = pickMat (nbIdx d j) * (q' j).Kd * (pickMat (nbIdx d j))ᵀ := by
      unfold SparsePEP.pairCov endCov
      rw [if_neg hj0, if_neg hj1, fromBlocks_zero, add_zero]
    rw [e3, e4, b1, b2]
    beta_reduce
    rw [hfr, hj, a1, a3, nonsing_inv_nonsing_inv _ a2u, mulVec_mulVec, mul_nonsing_inv _ a2u, one_mulVec]
    refine ⟨rfl, ?_⟩
    rw [restVar, hj, ← e, endCov, if_neg hj0, if_neg hj1, fromBlocks_zero, zero_mulVec, dotProduct_zero, add_zero,
      add_comm]

/-- C47: with bounded sites, `alpha` in `[0, 1]` and data between the first and the last inducing point the cavities
exist, and so do the posteriors with part of one site removed (of any interval). -/
theorem C47_cavity_exists {c : SparsePEP n d} {k} (h : c.Valid k) (hneg : ∀ j v, v ⬝ᵥ (c.nat2 j *ᵥ v) ≤ 0)
    (ha : 0 ≤ c.alpha) (ha1 : c.alpha ≤ 1) {X : Fin p → ℝ} (h0 : ∀ i, c.inducing 0 < X i)
    (h1 : ∀ i, X i ≤ c.inducing (Fin.last n)) :
    (∃ q, c.distQ = .ok q) ∧ (∃ r, c.computeCavity X = .ok r) ∧
      ∀ j, ∃ q', (c.scaleSite j (1 - c.alpha / c.count X j)).distQ = .ok q' := by
  obtain ⟨s, hs, hnd, -, hq2, -⟩ := C47_dist_q h
  obtain ⟨q, hq⟩ := hq2 hneg
  have hsc : ∀ j, ∃ q', (c.scaleSite j (1 - c.alpha / c.count X j)).distQ = .ok q' := fun j => by
    obtain ⟨s', hs', -, -, hq2', -⟩ := C47_dist_q (h.scale j (1 - c.alpha / c.count X j))
    refine hq2' fun i v => ?_
    by_cases hi : i = j
    · subst hi
      simp only [SparsePEP.scaleSite, Function.update_self, smul_mulVec, dotProduct_smul, smul_eq_mul]
      refine mul_nonpos_of_nonneg_of_nonpos ?_ (hneg i v)
      rw [sub_nonneg]
      rcases Nat.eq_zero_or_pos (c.count X i) with h | h
      · rw [h]; simp
      · have : (1 : ℝ) ≤ c.count X i := by exact_mod_cast h
        exact (div_le_self ha this).trans ha1
    · simp only [SparsePEP.scaleSite, Function.update_of_ne hi]
      exact hneg i v
  choose q' hq' using hsc
  obtain ⟨m, v, hmv, -⟩ := C47_leave_out h hq h0 h1 (q' := q') fun j _ _ => hq' j
  exact ⟨⟨q, hq⟩, ⟨_, hmv⟩, fun j => ⟨_, hq' j⟩⟩

open Classical in
/-- C47: one call of `update_sites`: the gradients are taken at the cavity with power `1` whatever `alpha` is; with
`r = alpha * learning_rate` every interval's site becomes `(1 - r) * old + r * (the sum of the new sites of its data)`.
The normalizers are computed from the new sites. -/
theorem C47_update {c : SparsePEP n d} {k} (h : c.Valid k) {q} (hq : c.distQ = .ok q) {X : Fin p → ℝ}
    (h0 : ∀ j, -10000000000 < X j) (h1 : ∀ j, X j ≤ 10000000000) (Y : Fin p → Vec 1) {m v}
    (hmv : c.computeCavity X = .ok (m, v)) :
    ∃ θ₁ θ₂ P T, conditionalStatistics approxInf X c.inducing c.kernel.trans = .ok (P, T) ∧
      (∀ (W : Fin p → Fin d ⊕ Fin d → ℝ), (∀ i, W i = (c.kernel.emission (X i) * P i) 0) →
       ∀ (g : Fin p → ℝ × ℝ), (∀ i, g i = gradientCorrection (m i 0) (v i 0)
          (c.likelihood.grads (m i 0) (v i 0) (Y i 0) 1)) → ∀ j,
        θ₁ j = (1 - c.alpha * c.learningRate) • c.nat1 j + (c.alpha * c.learningRate) •
          ∑ i ∈ Finset.univ.filter (fun i => InInterval c.inducing j (X i)), (g i).1 • W i ∧
        θ₂ j = (1 - c.alpha * c.learningRate) • c.nat2 j + (c.alpha * c.learningRate) •
          ∑ i ∈ Finset.univ.filter (fun i => InInterval c.inducing j (X i)), (g i).2 • vecMulVec (W i) (W i)) ∧
      (∀ z, ({ c with nat1 := θ₁, nat2 := θ₂ } : SparsePEP n d).computeLogNorm X Y = .ok z →
        c.updateSites X Y = .ok { c with nat1 := θ₁, nat2 := θ₂, logNorm := fun j =>
          (1 - c.alpha * c.learningRate) * c.logNorm j + c.alpha * c.learningRate * z j }) ∧
      (∀ e, ({ c with nat1 := θ₁, nat2 := θ₂ } : SparsePEP n d).computeLogNorm X Y = .error e →
        c.updateSites X Y = .error e) := by
  obtain ⟨P, T, hst, hT⟩ := kernel_stats h.builds h.noise h.times.monotone h0 h1
  obtain ⟨hc1, hc2⟩ := SparsePEP.computeCavity_eq h hq hst
  have hp : ∀ t, (c.cavPrec q (c.frac X t) (searchsortedLeft c.inducing (X t))).PosDef := by
    by_contra hp
    obtain ⟨e1, e2⟩ := hc2 hp
    unfold SparsePEP.computeCavity SparsePEP.computeCavityState at hmv
    simp only [bind, Except.bind, e1, e2] at hmv
    cases hmv
  obtain ⟨sx, e1, e2, e3, e4⟩ := hc1 hp
  have hmv' : c.computeCavity X = .ok ((projectStateToF (fun t => c.kernel.emission (X t)) fun t => (sx t).1),
      projectStateCovarianceToFDiag (fun t => c.kernel.emission (X t)) fun t => (sx t).2) := by
    unfold SparsePEP.computeCavity SparsePEP.computeCavityState
    simp only [bind, Except.bind, e1, e2, pure, Except.pure]
  obtain ⟨rfl, rfl⟩ := Prod.mk.inj (Except.ok.inj (hmv.symm.trans hmv'))
  clear hmv hmv' e3 e4
  set m := projectStateToF (fun t => c.kernel.emission (X t)) fun t => (sx t).1
  set v := projectStateCovarianceToFDiag (fun t => c.kernel.emission (X t)) fun t => (sx t).2
  let bp := backProjectNats
    (fun t a => (gradientCorrection (m t a) (v t a) (c.likelihood.grads (m t a) (v t a) (Y t a) 1)).1)
    (fun t a => (gradientCorrection (m t a) (v t a) (c.likelihood.grads (m t a) (v t a) (Y t a) 1)).2)
    (fun t => c.kernel.emission (X t) * P t)
  let θ₁ : Fin (n + 2) → Fin d ⊕ Fin d → ℝ := fun j => (1 - c.learningRate) • c.nat1 j + c.learningRate •
    ((1 - c.alpha) • c.nat1 j + c.alpha • partitionSum (fun t => searchsortedLeft c.inducing (X t)) bp.1 j)
  let θ₂ : Fin (n + 2) → Matrix (Fin d ⊕ Fin d) (Fin d ⊕ Fin d) ℝ := fun j => (1 - c.learningRate) • c.nat2 j +
    c.learningRate •
    ((1 - c.alpha) • c.nat2 j + c.alpha • partitionSum (fun t => searchsortedLeft c.inducing (X t)) bp.2 j)
  have hn : c.computeNewSites X Y = .ok (θ₁, θ₂) := by
    unfold SparsePEP.computeNewSites SparsePEP.backProject
    simp only [bind, Except.bind, e1, e2, hst, pure, Except.pure]
    rfl
  refine ⟨θ₁, θ₂, P, T, hst, fun W hW g hg j => ?_, fun z hz => ?_, fun e he => ?_⟩
  · have s1 : partitionSum (fun t => searchsortedLeft c.inducing (X t)) bp.1 j =
        ∑ i ∈ Finset.univ.filter (fun i => InInterval c.inducing j (X i)), (g i).1 • W i := by
      simp only [partitionSum_eq, inInterval_iff h.times.monotone]
      rw [← Finset.sum_filter]
      refine Finset.sum_congr rfl fun i _ => ?_
      funext a
      simp only [bp, backProjectNats, Fin.sum_univ_one, hW, hg, Pi.smul_apply, smul_eq_mul]
      ring
    have s2 : partitionSum (fun t => searchsortedLeft c.inducing (X t)) bp.2 j =
        ∑ i ∈ Finset.univ.filter (fun i => InInterval c.inducing j (X i)), (g i).2 • vecMulVec (W i) (W i) := by
      simp only [partitionSum_eq, inInterval_iff h.times.monotone]
      rw [← Finset.sum_filter]
      refine Finset.sum_congr rfl fun i _ => ?_
      ext a b
      simp only [bp, backProjectNats, Fin.sum_univ_one, hW, hg, Matrix.smul_apply, smul_eq_mul, vecMulVec_apply, of_apply]
      ring
    simp only [θ₁, θ₂, s1, s2]
    constructor
    · funext a
      simp only [Pi.add_apply, Pi.smul_apply, smul_eq_mul]
      ring
    · ext a b
      simp only [Matrix.add_apply, Matrix.smul_apply, smul_eq_mul]
      ring
  · unfold SparsePEP.updateSites
    simp only [bind, Except.bind, hn, hz, pure, Except.pure]
    congr 2
    funext j
    ring
  · unfold SparsePEP.updateSites
    simp only [bind, Except.bind, hn, he]

/-- Evidence in two steps. -/
theorem evidence_chain {Ω : Type*} [MeasurableSpace Ω] {π ρ₁ : Measure Ω} {ℓ₁ ℓ₂ : Ω → ℝ}
    (h₁ : Measurable ℓ₁) (h₂ : Measurable ℓ₂) (hb₁ : IsBayesPosterior π ℓ₁ ρ₁) :
    evidence π (fun x => ℓ₁ x + ℓ₂ x) = evidence π ℓ₁ * evidence ρ₁ ℓ₂ := by
  obtain ⟨hz, ht, rfl⟩ := hb₁
  have m₁ : Measurable fun x => ENNReal.ofReal (Real.exp (ℓ₁ x)) := by fun_prop
  have m₂ : Measurable fun x => ENNReal.ofReal (Real.exp (ℓ₂ x)) := by fun_prop
  have e : evidence ((evidence π ℓ₁)⁻¹ • π.withDensity fun x => ENNReal.ofReal (Real.exp (ℓ₁ x))) ℓ₂ =
      (evidence π ℓ₁)⁻¹ * evidence π (fun x => ℓ₁ x + ℓ₂ x) := by
    unfold evidence
    rw [lintegral_smul_measure, smul_eq_mul, lintegral_withDensity_eq_lintegral_mul _ m₁ m₂]
    congr 1
    refine lintegral_congr fun x => ?_
    rw [Pi.mul_apply, ← ENNReal.ofReal_mul (Real.exp_pos _).le, Real.exp_add]
  rw [e, ← mul_assoc, ENNReal.mul_inv_cancel hz ht, one_mul]

/-- The sites of the scaled model and the removed part. -/
theorem SparsePEP.scale_split (c : SparsePEP n d) (j : Fin (n + 2)) (a : ℝ) (u : Fin (n + 1) → Vec d) :
    pairSiteLogLik c.nat1 c.nat2 u =
      pairSiteLogLik (c.scaleSite j (1 - a)).nat1 (c.scaleSite j (1 - a)).nat2 u +
      a * (c.nat1 j ⬝ᵥ neighbours u j + neighbours u j ⬝ᵥ (c.nat2 j *ᵥ neighbours u j)) := by
  unfold pairSiteLogLik
  rw [← Finset.add_sum_erase _ _ (Finset.mem_univ j), ← Finset.add_sum_erase _ _ (Finset.mem_univ j)]
  have hne : ∀ i ∈ Finset.univ.erase j, (c.scaleSite j (1 - a)).nat1 i ⬝ᵥ neighbours u i +
      neighbours u i ⬝ᵥ ((c.scaleSite j (1 - a)).nat2 i *ᵥ neighbours u i) =
      c.nat1 i ⬝ᵥ neighbours u i + neighbours u i ⬝ᵥ (c.nat2 i *ᵥ neighbours u i) := fun i hi => by
    simp only [SparsePEP.scaleSite, Function.update_of_ne (Finset.ne_of_mem_erase hi)]
  rw [Finset.sum_congr rfl hne]
  simp only [SparsePEP.scaleSite, Function.update_self, smul_dotProduct, smul_mulVec, dotProduct_smul, smul_eq_mul]
  ring

theorem measurable_pairSite (θ₁ : Fin (n + 2) → Fin d ⊕ Fin d → ℝ)
    (θ₂ : Fin (n + 2) → Matrix (Fin d ⊕ Fin d) (Fin d ⊕ Fin d) ℝ) (j : Fin (n + 2)) :
    Measurable fun x : Ix n d → ℝ => θ₁ j ⬝ᵥ neighbours (unstk x) j +
      neighbours (unstk x) j ⬝ᵥ (θ₂ j *ᵥ neighbours (unstk x) j) := by
  simp only [neighbours_eq]
  unfold mulVec dotProduct
  fun_prop

theorem measurable_pairSites (θ₁ : Fin (n + 2) → Fin d ⊕ Fin d → ℝ)
    (θ₂ : Fin (n + 2) → Matrix (Fin d ⊕ Fin d) (Fin d ⊕ Fin d) ℝ) :
    Measurable fun x : Ix n d → ℝ => pairSiteLogLik θ₁ θ₂ (unstk x) :=
  Finset.measurable_sum _ fun j _ => measurable_pairSite θ₁ θ₂ j

/-- The difference of the normalizers. -/
theorem SparsePEP.normalizers {c : SparsePEP n d} {k} (h : c.Valid k) {q} (hq : c.distQ = .ok q) (j : Fin (n + 2)) (a : ℝ)
    {q'} (hq' : (c.scaleSite j (1 - a)).distQ = .ok q') : ∃ zq zc, q.normalizer = .ok zq ∧ q'.normalizer = .ok zc ∧
      0 < ∫ x, Real.exp (a * (c.nat1 j ⬝ᵥ neighbours (unstk x) j +
        neighbours (unstk x) j ⬝ᵥ (c.nat2 j *ᵥ neighbours (unstk x) j))) ∂q'.law ∧
      zq - zc = Real.log (∫ x, Real.exp (a * (c.nat1 j ⬝ᵥ neighbours (unstk x) j +
        neighbours (unstk x) j ⬝ᵥ (c.nat2 j *ᵥ neighbours (unstk x) j))) ∂q'.law) := by
  obtain ⟨s, hs, hnd, hq1, -⟩ := C47_dist_q h
  obtain ⟨s', hs', -, hq1', -⟩ := C47_dist_q (h.scale j (1 - a))
  obtain rfl : s' = s := Except.ok.inj (hs'.symm.trans hs)
  obtain ⟨-, -, zq, zp, hzq, hzp, hev⟩ := SparsePEP.distQ_natural h hs hq
  obtain ⟨-, -, zc, zp', hzc, hzp', hev'⟩ := SparsePEP.distQ_natural (h.scale j (1 - a)) hs' hq'
  obtain rfl : zp' = zp := Except.ok.inj (hzp'.symm.trans hzp)
  have hb := (hq1 q hq).2
  have hb' := (hq1' q' hq').2
  simp only [c.scale_split j a] at hb hev
  have hm := (measurable_pairSite c.nat1 c.nat2 j).const_mul a
  have hch := IsBayesPosterior.chain (measurable_pairSites _ _) hm hb' hb
  have hec := evidence_chain (measurable_pairSites _ _) hm hb'
  rw [hev, hev', IsBayesPosterior.evidence_eq hm hch, ← ENNReal.ofReal_mul (Real.exp_pos _).le,
    ENNReal.ofReal_eq_ofReal_iff (Real.exp_pos _).le (mul_nonneg (Real.exp_pos _).le
      (integral_nonneg fun _ => (Real.exp_pos _).le))] at hec
  have hpos : 0 < ∫ x, Real.exp (a * (c.nat1 j ⬝ᵥ neighbours (unstk x) j +
        neighbours (unstk x) j ⬝ᵥ (c.nat2 j *ᵥ neighbours (unstk x) j))) ∂q'.law := by
    by_contra hn
    have := Real.exp_pos (zq - zp')
    rw [hec] at this
    exact absurd this (not_lt.2 (mul_nonpos_of_nonneg_of_nonpos (Real.exp_pos _).le (not_lt.1 hn)))
  refine ⟨zq, zc, hzq, hzc, hpos, ?_⟩
  have := congrArg Real.log hec
  rw [Real.log_exp, Real.log_mul (Real.exp_pos _).ne' hpos.ne', Real.log_exp] at this
  linarith

open Classical in
/-- C47: `compute_log_norm`, given the cavities and the posteriors with a fraction `alpha / c` of one site removed: for
every interval `1 / alpha` times the sum over its data of `log_expected_density` at the cavity minus the log of the
expected removed part of the site. -/
theorem C47_log_norm {c : SparsePEP n d} {k} (h : c.Valid k) {q} (hq : c.distQ = .ok q) {X : Fin p → ℝ}
    (h0 : ∀ j, -10000000000 < X j) (h1 : ∀ j, X j ≤ 10000000000) (Y : Fin p → Vec 1) {m v}
    (hmv : c.computeCavity X = .ok (m, v)) {q' : Fin (n + 2) → SSM n d}
    (hq' : ∀ j, (c.scaleSite j (1 - c.alpha / c.count X j)).distQ = .ok (q' j)) :
    c.computeLogNorm X Y = .ok fun j => (1 / c.alpha) *
      ∑ i ∈ Finset.univ.filter (fun i => InInterval c.inducing j (X i)),
        (c.likelihood.logExpectedDensity (m i 0) (v i 0) (Y i 0) c.alpha -
          Real.log (∫ x, Real.exp (c.alpha / c.count X j * (c.nat1 j ⬝ᵥ neighbours (unstk x) j +
            neighbours (unstk x) j ⬝ᵥ (c.nat2 j *ᵥ neighbours (unstk x) j))) ∂(q' j).law)) := by
  obtain ⟨P, T, hst, hT⟩ := kernel_stats h.builds h.noise h.times.monotone h0 h1
  obtain ⟨hc1, hc2⟩ := SparsePEP.computeCavity_eq h hq hst
  have hp : ∀ t, (c.cavPrec q (c.frac X t) (searchsortedLeft c.inducing (X t))).PosDef := by
    by_contra hp
    obtain ⟨e1, e2⟩ := hc2 hp
    unfold SparsePEP.computeCavity SparsePEP.computeCavityState at hmv
    simp only [bind, Except.bind, e1, e2] at hmv
    cases hmv
  obtain ⟨sx, e1, e2, -, -⟩ := hc1 hp
  have hmv' : c.computeCavity X = .ok ((projectStateToF (fun t => c.kernel.emission (X t)) fun t => (sx t).1),
      projectStateCovarianceToFDiag (fun t => c.kernel.emission (X t)) fun t => (sx t).2) := by
    unfold SparsePEP.computeCavity SparsePEP.computeCavityState
    simp only [bind, Except.bind, e1, e2, pure, Except.pure]
  obtain ⟨rfl, rfl⟩ := Prod.mk.inj (Except.ok.inj (hmv.symm.trans hmv'))
  choose zq zc hzq hzc hpos hz using fun j => SparsePEP.normalizers h hq j (c.alpha / c.count X j) (hq' j)
  have hzz : ∀ j, zq j = zq 0 := fun j => Except.ok.inj ((hzq j).symm.trans (hzq 0))
  have hsc : ∀ m : Fin (n + 2), c.computePosteriorSSM
      (fun j => (1 - (if m = j then (c.numDataPerInterval X m)⁻¹ * c.alpha else 0)) • c.nat1 j)
      (fun j => (1 - (if m = j then (c.numDataPerInterval X m)⁻¹ * c.alpha else 0)) • c.nat2 j) = .ok (q' m) := by
    intro m
    rw [← hq' m]
    have a1 : (fun j => (1 - (if m = j then (c.numDataPerInterval X m)⁻¹ * c.alpha else 0)) • c.nat1 j) =
        (c.scaleSite m (1 - c.alpha / c.count X m)).nat1 := by
      funext j
      by_cases hj : m = j
      · subst hj
        simp only [if_true, SparsePEP.scaleSite, Function.update_self, (SparsePEP.fraction_eq h.times.monotone X m).2]
        rw [div_eq_inv_mul]
      · simp only [if_neg hj, SparsePEP.scaleSite, Function.update_of_ne (Ne.symm hj), sub_zero, one_smul]
    have a2 : (fun j => (1 - (if m = j then (c.numDataPerInterval X m)⁻¹ * c.alpha else 0)) • c.nat2 j) =
        (c.scaleSite m (1 - c.alpha / c.count X m)).nat2 := by
      funext j
      by_cases hj : m = j
      · subst hj
        simp only [if_true, SparsePEP.scaleSite, Function.update_self, (SparsePEP.fraction_eq h.times.monotone X m).2]
        rw [div_eq_inv_mul]
      · simp only [if_neg hj, SparsePEP.scaleSite, Function.update_of_ne (Ne.symm hj), sub_zero, one_smul]
    rw [a1, a2]
    rfl
  have hseq : (seqFin fun m : Fin (n + 2) => (c.computePosteriorSSM
      (fun j => (1 - (if m = j then (c.numDataPerInterval X m)⁻¹ * c.alpha else 0)) • c.nat1 j)
      (fun j => (1 - (if m = j then (c.numDataPerInterval X m)⁻¹ * c.alpha else 0)) • c.nat2 j)).bind
        fun s => s.normalizer) = .ok zc := seqFin_ok fun m => by
    rw [hsc m]; exact hzc m
  unfold SparsePEP.computeLogNorm
  simp only [bind, Except.bind, e1, e2, hq, hzq 0, pure, Except.pure]
  simp only [Except.bind] at hseq
  rw [hseq]
  simp only [SparsePEP.localObjectiveGradients]
  congr 1
  funext j
  rw [partitionSum_eq]
  simp only [inInterval_iff h.times.monotone]
  rw [← Finset.sum_filter, div_eq_inv_mul, one_div]
  congr 1
  refine Finset.sum_congr rfl fun i hi => ?_
  have hj := (inInterval_iff h.times.monotone j (X i)).2 (Finset.mem_filter.1 hi).2
  rw [hj, ← hz j, hzz j]
  ring


open Classical in
/-- C47: `energy()`: the log of the expectation under the prior of the product of the sites, plus `1 / alpha` times, for
every datum, `log_expected_density` at its cavity minus the log of the expected removed part of its interval's site. -/
theorem C47_energy {c : SparsePEP n d} {k} (h : c.Valid k) {X : Fin p → ℝ}
    (h0 : ∀ j, -10000000000 < X j) (h1 : ∀ j, X j ≤ 10000000000) (Y : Fin p → Vec 1) {m v}
    (hmv : c.computeCavity X = .ok (m, v)) {J : Fin p → Fin (n + 2)} (hJ : ∀ i, InInterval c.inducing (J i) (X i))
    {q' : Fin (n + 2) → SSM n d}
    (hq' : ∀ j, (c.scaleSite j (1 - c.alpha / c.count X j)).distQ = .ok (q' j)) :
    ∃ s : SSM n d, c.distP = .ok s ∧
      c.energy X Y = .ok (Real.log (∫ x, Real.exp (pairSiteLogLik c.nat1 c.nat2 (unstk x)) ∂s.law) + (1 / c.alpha) *
        ∑ i, (c.likelihood.logExpectedDensity (m i 0) (v i 0) (Y i 0) c.alpha -
          Real.log (∫ x, Real.exp (c.alpha / c.count X (J i) * (c.nat1 (J i) ⬝ᵥ neighbours (unstk x) (J i) +
            neighbours (unstk x) (J i) ⬝ᵥ (c.nat2 (J i) *ᵥ neighbours (unstk x) (J i)))) ∂(q' (J i)).law))) := by
  obtain ⟨s, hs, hnd, hq1, -, hq3⟩ := C47_dist_q h
  obtain ⟨q, hq⟩ : ∃ q, c.distQ = .ok q := by
    rcases hq3 with hq | hq
    · exact hq
    · unfold SparsePEP.computeCavity SparsePEP.computeCavityState SparsePEP.computeMarginals at hmv
      simp only [bind, Except.bind, hq] at hmv
      cases hmv
  obtain ⟨-, -, zq, zp, hzq, hzp, hev⟩ := SparsePEP.distQ_natural h hs hq
  have hln := C47_log_norm h hq h0 h1 Y hmv hq'
  refine ⟨s, hs, ?_⟩
  unfold SparsePEP.energy
  simp only [bind, Except.bind, hln, hq, hzq, hs, hzp, pure, Except.pure]
  congr 2
  · rw [IsBayesPosterior.evidence_eq (measurable_pairSites _ _) (hq1 q hq).2,
      ENNReal.ofReal_eq_ofReal_iff (integral_nonneg fun _ => (Real.exp_pos _).le) (Real.exp_pos _).le] at hev
    rw [hev, Real.log_exp]
  · rw [← Finset.mul_sum]
    congr 1
    simp only [Finset.sum_filter]
    rw [Finset.sum_comm]
    refine Finset.sum_congr rfl fun i _ => ?_
    rw [Finset.sum_eq_single (J i) (fun b _ hb => if_neg fun hc => hb
      ((C36_one_interval h.times.monotone (X i)).unique hc (hJ i))) (by simp), if_pos (hJ i)]

/-- The new sites with the Gaussian likelihood. -/
theorem gauss_site_neg {σ2 : ℝ} (hσ : 0 < σ2) (S : Finset (Fin p)) (W : Fin p → Fin d ⊕ Fin d → ℝ) (v) :
    v ⬝ᵥ ((∑ i ∈ S, (-1 / (2 * σ2)) • vecMulVec (W i) (W i)) *ᵥ v) ≤ 0 := by
  rw [Matrix.sum_mulVec, dotProduct_sum]
  refine Finset.sum_nonpos fun i _ => ?_
  rw [smul_mulVec, dotProduct_smul, vecMulVec_mulVec, smul_eq_mul]
  have : v ⬝ᵥ (MulOpposite.op (W i ⬝ᵥ v) • W i) = (W i ⬝ᵥ v) ^ 2 := by
    rw [op_smul_eq_smul, dotProduct_smul, smul_eq_mul, dotProduct_comm v, sq]
  rw [this]
  exact mul_nonpos_of_nonpos_of_nonneg (div_nonpos_of_nonpos_of_nonneg (by norm_num) (by positivity)) (sq_nonneg _)

open Classical in
/-- One update with the Gaussian likelihood. -/
theorem SparsePEP.gaussian_step {c : SparsePEP n d} {k} (h : c.Valid k) (hneg : ∀ j v, v ⬝ᵥ (c.nat2 j *ᵥ v) ≤ 0) {σ2 : ℝ}
    (hσ : 0 < σ2) (hlik : c.likelihood = pepGaussian σ2) (ha : 0 ≤ c.alpha) (ha1 : c.alpha ≤ 1)
    (hr0 : 0 ≤ c.alpha * c.learningRate) (hr1 : c.alpha * c.learningRate ≤ 1) {X : Fin p → ℝ}
    (h0 : ∀ i, c.inducing 0 < X i) (h1 : ∀ i, X i ≤ c.inducing (Fin.last n)) (Y : Fin p → Vec 1) {P T}
    (hst : conditionalStatistics approxInf X c.inducing c.kernel.trans = .ok (P, T)) :
    ∃ θ₁ θ₂ z, c.updateSites X Y = .ok { c with nat1 := θ₁, nat2 := θ₂, logNorm := z } ∧
      ({ c with nat1 := θ₁, nat2 := θ₂, logNorm := z } : SparsePEP n d).Valid k ∧ (∀ j v, v ⬝ᵥ (θ₂ j *ᵥ v) ≤ 0) ∧ ∀ j,
        θ₁ j = (1 - c.alpha * c.learningRate) • c.nat1 j + (c.alpha * c.learningRate) •
          ∑ i ∈ Finset.univ.filter (fun i => InInterval c.inducing j (X i)), (Y i 0 / σ2) • projW c.kernel X P i ∧
        θ₂ j = (1 - c.alpha * c.learningRate) • c.nat2 j + (c.alpha * c.learningRate) •
          ∑ i ∈ Finset.univ.filter (fun i => InInterval c.inducing j (X i)),
            (-1 / (2 * σ2)) • vecMulVec (projW c.kernel X P i) (projW c.kernel X P i) := by
  have h0' : ∀ i, -10000000000 < X i := fun i => h.lower.trans (h0 i)
  have h1' : ∀ i, X i ≤ 10000000000 := fun i => (h1 i).trans h.upper
  obtain ⟨⟨q, hq⟩, ⟨⟨m, v⟩, hmv⟩, -⟩ := C47_cavity_exists h hneg ha ha1 h0 h1
  have hv0 : ∀ i, 0 ≤ v i 0 := fun i => by
    obtain ⟨_, _, _, hc⟩ := (C47_cavity h hq h0' h1').1 m v hmv
    obtain ⟨_, _, _, -, -, -, -, -, h⟩ := hc i _ ((inInterval_iff h.times.monotone _ (X i)).1 rfl)
    exact h
  obtain ⟨θ₁, θ₂, P', T', hst', hθ, hu, -⟩ := C47_update h hq h0' h1' Y hmv
  obtain ⟨rfl, rfl⟩ := Prod.mk.inj (Except.ok.inj (hst'.symm.trans hst))
  have hθ := hθ (projW c.kernel X P') (fun _ => rfl) (fun i => (Y i 0 / σ2, -1 / (2 * σ2))) fun i => by
    rw [hlik, C37_gaussian_exact hσ (hv0 i)]
  have hneg' : ∀ j v, v ⬝ᵥ (θ₂ j *ᵥ v) ≤ 0 := fun j v => by
    rw [(hθ j).2, add_mulVec, smul_mulVec, smul_mulVec, dotProduct_add, dotProduct_smul, dotProduct_smul, smul_eq_mul,
      smul_eq_mul]
    exact add_nonpos (mul_nonpos_of_nonneg_of_nonpos (sub_nonneg.2 hr1) (hneg j v))
      (mul_nonpos_of_nonneg_of_nonpos hr0 (gauss_site_neg hσ _ _ _))
  have hval : ∀ z, ({ c with nat1 := θ₁, nat2 := θ₂, logNorm := z } : SparsePEP n d).Valid k := fun z =>
    ⟨h.builds, h.noise, h.jitter, h.times, h.lower, h.upper, h.two, fun j => by
      show (θ₂ j)ᵀ = θ₂ j
      rw [(hθ j).2]
      simp only [transpose_add, transpose_smul, h.symm, transpose_sum, transpose_vecMulVec]⟩
  obtain ⟨⟨q1, hq1⟩, ⟨⟨m1, v1⟩, hmv1⟩, hsc⟩ := C47_cavity_exists (hval c.logNorm) hneg' ha ha1 h0 h1
  choose q' hq' using hsc
  have := C47_log_norm (hval c.logNorm) hq1 h0' h1' Y hmv1 hq'
  exact ⟨θ₁, θ₂, _, hu _ this, hval _, hneg', hθ⟩

open Classical in
/-- C47: with a Gaussian likelihood, data between the first and the last inducing point, `0 ≤ alpha ≤ 1` and
`0 ≤ r = alpha * learning_rate ≤ 1`, from bounded sites any number `t` of updates succeeds, and leaves
`(1 - r)^t * old + (1 - (1 - r)^t) * (sum of the exact Gaussian sites of the interval's data)`. -/
theorem C47_gaussian_updates {c : SparsePEP n d} {k} (h : c.Valid k) (hneg : ∀ j v, v ⬝ᵥ (c.nat2 j *ᵥ v) ≤ 0) {σ2 : ℝ}
    (hσ : 0 < σ2) (hlik : c.likelihood = pepGaussian σ2) (ha : 0 ≤ c.alpha) (ha1 : c.alpha ≤ 1)
    (hr0 : 0 ≤ c.alpha * c.learningRate) (hr1 : c.alpha * c.learningRate ≤ 1) {X : Fin p → ℝ}
    (h0 : ∀ i, c.inducing 0 < X i) (h1 : ∀ i, X i ≤ c.inducing (Fin.last n)) (Y : Fin p → Vec 1) {P T}
    (hst : conditionalStatistics approxInf X c.inducing c.kernel.trans = .ok (P, T)) (W : Fin p → Fin d ⊕ Fin d → ℝ)
    (hW : ∀ i, W i = (c.kernel.emission (X i) * P i) 0) (t : ℕ) :
    ∃ c' q, SparsePEP.updates X Y t c = .ok c' ∧ c'.Valid k ∧ c'.distQ = .ok q ∧ (∀ j v, v ⬝ᵥ (c'.nat2 j *ᵥ v) ≤ 0) ∧
      c' = { c with nat1 := c'.nat1, nat2 := c'.nat2, logNorm := c'.logNorm } ∧ ∀ j,
        c'.nat1 j = (1 - c.alpha * c.learningRate) ^ t • c.nat1 j + (1 - (1 - c.alpha * c.learningRate) ^ t) •
          ∑ i ∈ Finset.univ.filter (fun i => InInterval c.inducing j (X i)), (Y i 0 / σ2) • W i ∧
        c'.nat2 j = (1 - c.alpha * c.learningRate) ^ t • c.nat2 j + (1 - (1 - c.alpha * c.learningRate) ^ t) •
          ∑ i ∈ Finset.univ.filter (fun i => InInterval c.inducing j (X i)), (-1 / (2 * σ2)) • vecMulVec (W i) (W i) := by
  obtain rfl : W = projW c.kernel X P := funext hW
  induction t generalizing c with
  | zero =>
    obtain ⟨⟨q, hq⟩, -⟩ := C47_cavity_exists h hneg ha ha1 h0 h1
    exact ⟨c, q, rfl, h, hq, hneg, rfl, fun j => by simp⟩
  | succ t ih =>
    obtain ⟨θ₁, θ₂, z, hu, hv, hn, hθ⟩ := SparsePEP.gaussian_step h hneg hσ hlik ha ha1 hr0 hr1 h0 h1 Y hst
    obtain ⟨c', q, hc', hv', hq, hn', e, hs⟩ := ih hv hn hlik ha ha1 hr0 hr1 h0 h1 hst hW
    refine ⟨c', q, ?_, hv', hq, hn', e, fun j => ?_⟩
    · simp only [SparsePEP.updates, bind, Except.bind, hu]
      exact hc'
    · obtain ⟨e1, e2⟩ := hs j
      rw [e1, e2]
      dsimp only
      rw [(hθ j).1, (hθ j).2]
      constructor
      · funext a
        simp only [Pi.add_apply, Pi.smul_apply, smul_eq_mul]
        ring
      · ext a b
        simp only [Matrix.add_apply, Matrix.smul_apply, smul_eq_mul]
        ring

/-- C47: with a Gaussian likelihood one update of power EP is one update of sparse CVI with learning rate
`alpha * learning_rate`. -/
theorem C47_gaussian_cvi {c : SparsePEP n d} {k} (h : c.Valid k) (hneg : ∀ j v, v ⬝ᵥ (c.nat2 j *ᵥ v) ≤ 0) {σ2 : ℝ}
    (hσ : 0 < σ2) (hlik : c.likelihood = pepGaussian σ2) (ha : 0 ≤ c.alpha) (ha1 : c.alpha ≤ 1)
    (hr0 : 0 ≤ c.alpha * c.learningRate) (hr1 : c.alpha * c.learningRate ≤ 1) {X : Fin p → ℝ}
    (h0 : ∀ i, c.inducing 0 < X i) (h1 : ∀ i, X i ≤ c.inducing (Fin.last n)) (Y : Fin p → Vec 1) :
    ∃ (c' : SparsePEP n d) (s' : SparseCVI n d), c.updateSites X Y = .ok c' ∧
      SparseCVI.updateSites ⟨c.kernel, c.inducing, gaussianLikelihood σ2, c.meanFunction, c.alpha * c.learningRate,
        c.nat1, c.nat2⟩ X Y = .ok s' ∧ c'.nat1 = s'.nat1 ∧ c'.nat2 = s'.nat2 ∧ c'.distQ = s'.distQ ∧
        c'.posterior = s'.posterior ∧ c'.classicElbo X Y = s'.classicElbo X Y := by
  classical
  obtain ⟨⟨q, hq⟩, -⟩ := C47_cavity_exists h hneg ha ha1 h0 h1
  have hsp : (⟨c.kernel, c.inducing, gaussianLikelihood σ2, c.meanFunction, c.alpha * c.learningRate,
        c.nat1, c.nat2⟩ : SparseCVI n d).Valid k :=
    ⟨h.builds, h.noise, h.jitter, h.times, h.lower, h.upper, h.two, h.symm⟩
  obtain ⟨s', post, fx, P, T, hu, -, hf, hst, hs', hW⟩ := C36_update hsp (q := q) hq
    (fun i => h.lower.trans (h0 i)) (fun i => (h1 i).trans h.upper) Y
  have hW := hW (projW c.kernel X P) (fun _ => rfl) _ (fun _ => rfl)
  simp only [localGradients_gaussian hσ.ne'] at hW
  obtain ⟨θ₁, θ₂, z, hu', hv, hn, hθ⟩ := SparsePEP.gaussian_step h hneg hσ hlik ha ha1 hr0 hr1 h0 h1 Y hst
  have e1 : θ₁ = s'.nat1 := funext fun j => (hθ j).1.trans (hW j).1.symm
  have e2 : θ₂ = s'.nat2 := funext fun j => (hθ j).2.trans (hW j).2.symm
  refine ⟨_, s', hu', hu, e1, e2, ?_, ?_, ?_⟩
  · rw [hs', e1, e2]; rfl
  · rw [hs', e1, e2]; rfl
  · rw [hs', e1, e2]
    unfold SparsePEP.classicElbo
    rw [hlik]
    rfl

/-- The sparse variational model (C35) with the same prior and data distribution and an arbitrary `q`. -/
def SparsePEP.toSVGP (c : SparsePEP n d) (q : SSM n d) : SVGP n 1 d :=
  ⟨c.kernel, c.likelihood.base, c.inducing, fun _ => 0, none, q⟩

/-- C47: with a Gaussian likelihood and `alpha * learning_rate = 1` a single update reaches the best variational
distribution over the inducing states. -/
theorem C47_gaussian_optimal {c : SparsePEP n d} {k} (h : c.Valid k) (hneg : ∀ j v, v ⬝ᵥ (c.nat2 j *ᵥ v) ≤ 0) {σ2 : ℝ}
    (hσ : 0 < σ2) (hlik : c.likelihood = pepGaussian σ2) (ha : 0 ≤ c.alpha) (ha1 : c.alpha ≤ 1)
    (hr : c.alpha * c.learningRate = 1) {X : Fin p → ℝ}
    (h0 : ∀ i, c.inducing 0 < X i) (h1 : ∀ i, X i ≤ c.inducing (Fin.last n)) (Y : Fin p → Vec 1) :
    ∃ (c' : SparsePEP n d) (q' : SSM n d) (e' : ℝ), c.updateSites X Y = .ok c' ∧ c'.distQ = .ok q' ∧
      c'.classicElbo X Y = .ok e' ∧
      ∀ q₂ : SSM n d, q₂.Nondegenerate → ∃ e₂, (c.toSVGP q₂).elbo X Y = .ok e₂ ∧
        klDiv q₂.law q'.law ≠ ⊤ ∧ e₂ = e' - (klDiv q₂.law q'.law).toReal := by
  obtain ⟨⟨q, hq⟩, -⟩ := C47_cavity_exists h hneg ha ha1 h0 h1
  obtain ⟨c', s', hc', hs', -, -, hd, -, he⟩ := C47_gaussian_cvi h hneg hσ hlik ha ha1 (hr ▸ zero_le_one) hr.le h0 h1 Y
  have hsp : (⟨c.kernel, c.inducing, gaussianLikelihood σ2, c.meanFunction, c.alpha * c.learningRate,
        c.nat1, c.nat2⟩ : SparseCVI n d).Valid k :=
    ⟨h.builds, h.noise, h.jitter, h.times, h.lower, h.upper, h.two, h.symm⟩
  obtain ⟨s'', q', e', hs'', hq', he', hopt⟩ := C36_gaussian_optimal hsp (q := q) hq hσ rfl hr
    (fun i => h.lower.trans (h0 i)) (fun i => (h1 i).trans h.upper) Y
  obtain rfl : s'' = s' := Except.ok.inj (hs''.symm.trans hs')
  refine ⟨c', q', e', hc', hd.trans hq', he.trans he', fun q₂ hq₂ => ?_⟩
  obtain ⟨e₂, h1, h2⟩ := hopt q₂ hq₂
  refine ⟨e₂, ?_, h2⟩
  rw [← h1]
  unfold SparsePEP.toSVGP
  rw [hlik]
  rfl

/-! ### data at the inducing points -/

theorem interval_at_inducing {z : Fin (n + 1) → ℝ} (hz : StrictMono z) (i : Fin n) :
    InInterval z i.succ.castSucc (z i.succ) :=
  ⟨fun _ ha => hz (Fin.castSucc_lt_castSucc_iff.1 ha), fun _ ha => hz.monotone (Fin.castSucc_le_castSucc_iff.1 ha)⟩

theorem stats_at_inducing {K : Stationary 1 d} {k} (hK : Builds K k) (hj : K.jitter = 0) {z : Fin (n + 1) → ℝ}
    (hz : StrictMono z) {X : Fin p → ℝ} {P T}
    (hst : conditionalStatistics approxInf X z K.trans = .ok (P, T)) (i : Fin p) {a : Fin n} (ha : X i = z a.succ) :
    P i = fromCols 0 1 ∧ T i = 0 := by
  obtain ⟨hc, hr, -⟩ := Builds.good hK
  unfold conditionalStatistics at hst
  cases hA : conditionalStatisticsAux approxInf X z K.trans with
  | error e => rw [hA] at hst; cases hst
  | ok r =>
    obtain ⟨cs, hcs, rfl⟩ := conditionalStatisticsAux_ok hA
    rw [hA] at hst
    obtain ⟨rfl, rfl⟩ := Prod.mk.inj (Except.ok.inj hst)
    have hi := hcs i
    have hs : searchsortedLeft z (X i) = a.succ.castSucc :=
      (inInterval_iff hz.monotone _ _).2 (ha ▸ interval_at_inducing hz a)
    unfold CodeStats at hi
    have e1 : augmentedTimes approxInf z (searchsortedLeft z (X i)).succ - X i = 0 := by
      rw [hs, augmentedTimes_mid, ha, sub_self]
    have e2 : 0 ≤ X i - augmentedTimes approxInf z (searchsortedLeft z (X i)).castSucc := by
      rw [hs]
      have : (a.succ.castSucc : Fin (n + 2)).castSucc = a.castSucc.castSucc.succ := by ext; simp
      rw [this, augmentedTimes_mid, ha, sub_nonneg]
      exact hz.monotone (Fin.castSucc_lt_succ).le
    simp only [Stationary.trans] at hi
    rw [e1, hc.time (X i) 0, hc.zero, (C27_stationary hK hj (X i) le_rfl le_rfl).2.2.2.1] at hi
    obtain ⟨hD, hE, hT⟩ := condStats_at_zero (C27_process_covariance_psd hK _ e2).2.1 hi
    exact ⟨by dsimp only; rw [hD, hE], hT⟩

theorem projW_at_inducing {K : Stationary 1 d} {k} (hK : Builds K k) (hj : K.jitter = 0) {z : Fin (n + 1) → ℝ}
    (hz : StrictMono z) {X : Fin p → ℝ} {P T}
    (hst : conditionalStatistics approxInf X z K.trans = .ok (P, T)) (i : Fin p) {a : Fin n} (ha : X i = z a.succ)
    (u : Fin (n + 1) → Vec d) :
    projW K X P i ⬝ᵥ neighbours u a.succ.castSucc = (K.emission (X i) *ᵥ u a.succ) 0 := by
  rw [projW, (stats_at_inducing hK hj hz hst i ha).1]
  have : (K.emission (X i) * (fromCols 0 1 : Matrix (Fin d) (Fin d ⊕ Fin d) ℝ)) 0 ⬝ᵥ neighbours u a.succ.castSucc =
      ((K.emission (X i) * (fromCols 0 1 : Matrix (Fin d) (Fin d ⊕ Fin d) ℝ)) *ᵥ neighbours u a.succ.castSucc) 0 := rfl
  rw [this, ← mulVec_mulVec, neighbours, fromCols_mulVec_sumElim, zero_mulVec, zero_add, one_mulVec, Fin.snoc_castSucc]

open Classical in
/-- C47: Gaussian likelihood, `alpha = learning_rate = 1`, the data at distinct inducing points other than the first: a
single update, from any bounded sites, gives the exact posterior of Gaussian process regression, and `energy()` is then
the log marginal likelihood. -/
theorem C47_gaussian_regression {c : SparsePEP n d} {k} (h : c.Valid k) (hneg : ∀ j v, v ⬝ᵥ (c.nat2 j *ᵥ v) ≤ 0) {σ2 : ℝ}
    (hσ : 0 < σ2) (hlik : c.likelihood = pepGaussian σ2) (ha : c.alpha = 1) (hr : c.learningRate = 1)
    (a : Fin p → Fin n) (hinj : Function.Injective a) (Y : Fin p → Vec 1) :
    ∃ (c' : SparsePEP n d) (q s : SSM n d), c.updateSites (fun i => c.inducing (a i).succ) Y = .ok c' ∧
      c'.distQ = .ok q ∧ c.distP = .ok s ∧
      IsBayesPosterior s.law (fun x => ∑ i, (gaussianLikelihood σ2).logProb
        ((c.kernel.emission (c.inducing (a i).succ) *ᵥ unstk x (a i).succ) 0) (Y i 0)) q.law ∧
      c'.energy (fun i => c.inducing (a i).succ) Y = .ok (Real.log (evidence
        (gpLaw (fun _ => 0) k fun i => c.inducing (a i).succ) (outputLogLik (gaussianLikelihood σ2) Y)).toReal) := by
  set X : Fin p → ℝ := fun i => c.inducing (a i).succ with hX
  have h0 : ∀ i, c.inducing 0 < X i := fun i => h.times (Fin.succ_pos _)
  have h1 : ∀ i, X i ≤ c.inducing (Fin.last n) := fun i => h.times.monotone (Fin.le_last _)
  have h0' : ∀ i, -10000000000 < X i := fun i => h.lower.trans (h0 i)
  have h1' : ∀ i, X i ≤ 10000000000 := fun i => (h1 i).trans h.upper
  obtain ⟨P, T, hst, hT⟩ := kernel_stats h.builds h.noise h.times.monotone h0' h1'
  obtain ⟨θ₁, θ₂, lz, hu, hv, hn, hθ⟩ := SparsePEP.gaussian_step h hneg hσ hlik (by rw [ha]; norm_num) ha.le
    (by rw [ha, hr]; norm_num) (by rw [ha, hr]; norm_num) h0 h1 Y hst
  simp only [ha, hr, mul_one, sub_self, zero_smul, zero_add, one_smul] at hθ
  set c' : SparsePEP n d := { c with nat1 := θ₁, nat2 := θ₂, logNorm := lz } with hc'
  have ha' : c'.alpha = 1 := ha
  obtain ⟨⟨q, hq⟩, ⟨⟨m, v⟩, hmv⟩, hsc⟩ := C47_cavity_exists hv hn (by rw [ha']; norm_num) ha'.le h0 h1
  choose q' hq' using hsc
  have hJ : ∀ i, InInterval c.inducing (a i).succ.castSucc (X i) := fun i => interval_at_inducing h.times _
  have hJ' : ∀ i j, InInterval c.inducing j (X i) ↔ j = (a i).succ.castSucc := fun i j =>
    ⟨fun hj => (C36_one_interval h.times.monotone (X i)).unique hj (hJ i), fun hj => hj ▸ hJ i⟩
  have hcount : ∀ i, c'.count X (a i).succ.castSucc = 1 := fun i => by
    unfold SparsePEP.count
    rw [Finset.card_eq_one]
    refine ⟨i, Finset.ext fun b => ?_⟩
    simp only [Finset.mem_filter, Finset.mem_univ, true_and, Finset.mem_singleton]
    refine ⟨fun hb => ?_, fun hb => hb ▸ hJ i⟩
    have := (hJ' b _).1 hb
    exact (hinj (Fin.succ_injective _ (Fin.castSucc_injective _ this))).symm
  obtain ⟨s, hs, hE⟩ := C47_energy hv h0' h1' Y hmv (J := fun i => (a i).succ.castSucc) hJ hq'
  obtain ⟨s', hs', hnd, hq1, -⟩ := C47_dist_q hv
  obtain rfl : s' = s := Except.ok.inj (hs'.symm.trans hs)
  -- the latent function at the data
  set f : (Ix n d → ℝ) → Fin p → ℝ := fun x i => (c.kernel.emission (X i) *ᵥ unstk x (a i).succ) 0 with hf
  have hfm : ∀ i, Measurable fun x => f x i := fun i => by
    simp only [hf, mulVec, dotProduct, unstk]
    fun_prop
  have hpw : ∀ x i, projW c.kernel X P i ⬝ᵥ neighbours (unstk x) (a i).succ.castSucc = f x i := fun x i =>
    projW_at_inducing h.builds h.jitter h.times hst i rfl _
  set C : Fin p → ℝ := fun i => -(1 / 2) * (Real.log (2 * Real.pi) + Real.log σ2 + Y i 0 ^ 2 / σ2) with hC
  have hlp : ∀ i g, (gaussianLikelihood σ2).logProb g (Y i 0) = (Y i 0 / σ2 * g + -1 / (2 * σ2) * g ^ 2) + C i := by
    intro i g
    simp only [gaussianLikelihood, hC]
    field_simp
    ring
  have hsum : ∀ x : Ix n d → ℝ, pairSiteLogLik θ₁ θ₂ (unstk x) = ∑ i, (Y i 0 / σ2 * f x i + -1 / (2 * σ2) * f x i ^ 2) := by
    intro x
    rw [gauss_sites h.times.monotone X (fun i => Y i 0) σ2 (projW c.kernel X P)]
    · refine Finset.sum_congr rfl fun i _ => ?_
      rw [(inInterval_iff h.times.monotone _ _).2 (hJ i), hpw]
    · intro j
      rw [(hθ j).1, partitionSum_eq, Finset.sum_filter]
      simp only [inInterval_iff h.times.monotone]
    · intro j
      rw [(hθ j).2, partitionSum_eq, Finset.sum_filter]
      simp only [inInterval_iff h.times.monotone]
  have hsum' : ∀ x : Ix n d → ℝ, ∑ i, (gaussianLikelihood σ2).logProb (f x i) (Y i 0) =
      pairSiteLogLik θ₁ θ₂ (unstk x) + ∑ i, C i := fun x => by
    rw [hsum, ← Finset.sum_add_distrib]
    exact Finset.sum_congr rfl fun i _ => hlp i _
  have hpost : IsBayesPosterior s'.law (fun x => ∑ i, (gaussianLikelihood σ2).logProb (f x i) (Y i 0)) q.law := by
    simp only [hsum']
    exact IsBayesPosterior.add_const (measurable_pairSites _ _) _ (hq1 q hq).2
  have hlm : Measurable fun x => ∑ i, (gaussianLikelihood σ2).logProb (f x i) (Y i 0) := by
    simp only [hsum']
    exact (measurable_pairSites _ _).add_const _
  refine ⟨c', q, s', hu, hq, hs, hpost, ?_⟩
  rw [hE]
  -- the evidence
  have hlaw : s'.law.map (fun x => fun i : Fin p × Fin 1 => f x i.1) = gpLaw (fun _ => 0) k X := by
    have h1 := (C33_prior h.builds h.jitter (fun _ => 0) hs).1
    have h2 := congrArg (fun μ => μ.map fun g : Fin (n + 1) × Fin 1 → ℝ =>
      g ∘ fun i : Fin p × Fin 1 => ((a i.1).succ, i.2)) h1
    rw [Measure.map_map (by fun_prop) (measurable_latentOf _ _ _)] at h2
    have e : (fun x => fun i : Fin p × Fin 1 => f x i.1) = (fun g : Fin (n + 1) × Fin 1 → ℝ =>
        g ∘ fun i : Fin p × Fin 1 => ((a i.1).succ, i.2)) ∘ latentOf c.kernel (fun _ => 0) c.inducing := by
      funext x i
      obtain ⟨i, b⟩ := i
      obtain rfl : b = 0 := Subsingleton.elim _ _
      simp [hf, latentOf]
      rfl
    rw [e, h2]
    exact gaussLaw_comp (gpGram_psd h.builds c.inducing) _ _
  have hev : evidence (gpLaw (fun _ => 0) k X) (outputLogLik (gaussianLikelihood σ2) Y) =
      evidence s'.law (fun x => ∑ i, (gaussianLikelihood σ2).logProb (f x i) (Y i 0)) := by
    rw [← hlaw]
    unfold evidence
    have hmo := measurable_outputLogLik (gaussianLikelihood_exact σ2) Y
    have hmf : Measurable fun x => fun i : Fin p × Fin 1 => f x i.1 := measurable_pi_lambda _ fun i => hfm i.1
    rw [lintegral_map (by fun_prop) hmf]
    simp only [outputLogLik, Fin.sum_univ_one]
  rw [hev, IsBayesPosterior.evidence_eq hlm hpost, ENNReal.toReal_ofReal (integral_nonneg fun _ => (Real.exp_pos _).le)]
  have hpos : 0 < ∫ x, Real.exp (pairSiteLogLik θ₁ θ₂ (unstk x)) ∂s'.law := by
    have := (hq1 q hq).2
    by_contra hcon
    exact this.1 (by rw [IsBayesPosterior.evidence_eq (measurable_pairSites _ _) this,
      ENNReal.ofReal_eq_zero.2 (not_lt.1 hcon)])
  simp only [hsum', Real.exp_add, integral_mul_const]
  rw [Real.log_mul hpos.ne' (Real.exp_pos _).ne', Real.log_exp]
  congr 2
  rw [ha', div_one, one_mul]
  refine Finset.sum_congr rfl fun i _ => ?_
  -- one datum: its cavity
  have hsite : ∀ x : Ix n d → ℝ, θ₁ (a i).succ.castSucc ⬝ᵥ neighbours (unstk x) (a i).succ.castSucc +
      neighbours (unstk x) (a i).succ.castSucc ⬝ᵥ (θ₂ (a i).succ.castSucc *ᵥ neighbours (unstk x) (a i).succ.castSucc) =
      (gaussianLikelihood σ2).logProb (f x i) (Y i 0) - C i := by
    intro x
    have hfil : Finset.univ.filter (fun b => InInterval c.inducing (a i).succ.castSucc (X b)) = {i} := by
      refine Finset.ext fun b => ?_
      simp only [Finset.mem_filter, Finset.mem_univ, true_and, Finset.mem_singleton]
      refine ⟨fun hb => ?_, fun hb => hb ▸ hJ i⟩
      exact (hinj (Fin.succ_injective _ (Fin.castSucc_injective _ ((hJ' b _).1 hb)))).symm
    rw [(hθ _).1, (hθ _).2, hfil, Finset.sum_singleton, Finset.sum_singleton, smul_dotProduct, smul_mulVec,
      dotProduct_smul, vecMulVec_mulVec, op_smul_eq_smul, dotProduct_smul, dotProduct_comm (neighbours _ _), hpw, hlp]
    simp only [smul_eq_mul]
    ring
  have hone : c'.alpha / c'.count X (a i).succ.castSucc = 1 := by rw [ha', hcount]; norm_num
  obtain ⟨m', v', hmv', hlo⟩ := C47_leave_out hv hq h0 h1 (q' := q') fun j _ _ => hq' j
  obtain ⟨rfl, rfl⟩ := Prod.mk.inj (Except.ok.inj (hmv.symm.trans hmv'))
  obtain ⟨post, fx, hpo, hfx, e1, e2⟩ := hlo i _ (hJ i)
  have hpo' : post = ⟨q' (a i).succ.castSucc, c.kernel, c.inducing, fun _ => 0⟩ := by
    unfold SparsePEP.posterior at hpo
    rw [hq'] at hpo
    exact (Except.ok.inj hpo).symm
  subst hpo'
  obtain ⟨s₂, -, -, hqn, -⟩ := C47_dist_q (hv.scale (a i).succ.castSucc (1 - c'.alpha / c'.count X (a i).succ.castSucc))
  have hqn := (hqn _ (hq' _)).1
  obtain ⟨b1, b2⟩ := pair_predict h.builds hqn h.two hst hfx i
  have hsi : searchsortedLeft c.inducing (X i) = (a i).succ.castSucc := (inInterval_iff h.times.monotone _ _).2 (hJ i)
  have hT0 := (stats_at_inducing h.builds h.jitter h.times hst i rfl).2
  obtain ⟨hj0, hj1⟩ := inInterval_interior (h0 i) (h1 i) (hJ i)
  rw [restVar, hT0, hsi, endCov, if_neg hj0, if_neg hj1, fromBlocks_zero, Matrix.mul_zero, Matrix.zero_mul,
    Matrix.zero_apply, zero_mulVec, dotProduct_zero, add_zero, add_zero] at b2
  rw [hsi] at b1
  obtain ⟨hvn, hl⟩ := neighbours_law (q' (a i).succ.castSucc) (projW c.kernel X P i) (a i).succ.castSucc
  rw [← b1, ← b2, ← e1, ← e2] at hl
  rw [← b2, ← e2] at hvn
  simp only [hpw] at hl
  have hone' : (1 : ℝ) / c'.count X (a i).succ.castSucc = 1 := by rw [hcount]; norm_num
  simp only [hone', one_mul]
  have hgl := gaussian_log_evidence hvn hσ (m i 0) (Y i 0)
  have hmL : Measurable fun g : ℝ => (gaussianLikelihood σ2).logProb g (Y i 0) := (gaussianLikelihood_exact σ2).measurable _
  have hnonneg : ∀ x, 0 ≤ Real.exp ((gaussianLikelihood σ2).logProb (f x i) (Y i 0)) := fun x => (Real.exp_pos _).le
  have hee : (evidence (gaussianReal (m i 0) (v i 0).toNNReal) fun x => (gaussianLikelihood σ2).logProb x (Y i 0)).toReal =
      ∫ x, Real.exp ((gaussianLikelihood σ2).logProb (f x i) (Y i 0)) ∂(q' (a i).succ.castSucc).law := by
    rw [← hl, integral_eq_lintegral_of_nonneg_ae (Filter.Eventually.of_forall hnonneg)
      (Real.measurable_exp.comp (hmL.comp (hfm i))).aestronglyMeasurable]
    unfold evidence
    rw [lintegral_map (by fun_prop) (hfm i)]
  rw [hee] at hgl
  have hI : ∀ x : Ix n d → ℝ, Real.exp (c'.nat1 (a i).succ.castSucc ⬝ᵥ neighbours (unstk x) (a i).succ.castSucc +
      neighbours (unstk x) (a i).succ.castSucc ⬝ᵥ (c'.nat2 (a i).succ.castSucc *ᵥ neighbours (unstk x) (a i).succ.castSucc)) =
      Real.exp ((gaussianLikelihood σ2).logProb (f x i) (Y i 0)) * Real.exp (-C i) := fun x => by
    rw [← Real.exp_add, ← sub_eq_add_neg]
    exact congrArg Real.exp (hsite x)
  obtain ⟨_, _, -, -, hp0, -⟩ := SparsePEP.normalizers hv hq (a i).succ.castSucc _ (hq' (a i).succ.castSucc)
  simp only [hone, one_mul, hI, integral_mul_const] at hp0
  have hp1 := pos_of_mul_pos_left hp0 (Real.exp_pos _).le
  simp only [hI, integral_mul_const]
  rw [Real.log_mul hp1.ne' (Real.exp_pos _).ne', Real.log_exp, hgl]
  show c.likelihood.logExpectedDensity _ _ _ _ - _ = _
  rw [hlik]
  simp only [pepGaussian, gpflowGaussian]
  rw [add_comm σ2, show (m i 0 - Y i 0) ^ 2 = (Y i 0 - m i 0) ^ 2 by ring]
  ring

/-- C47, finding: the mean function passed to the constructor is never used. -/
theorem C47_mean_function_ignored (c : SparsePEP n d) (μ : ℝ → Vec 1) (X : Fin p → ℝ) (Y : Fin p → Vec 1) :
    ({ c with meanFunction := μ } : SparsePEP n d).distQ = c.distQ ∧
    ({ c with meanFunction := μ } : SparsePEP n d).posterior = c.posterior ∧
    ({ c with meanFunction := μ } : SparsePEP n d).computeCavity X = c.computeCavity X ∧
    ({ c with meanFunction := μ } : SparsePEP n d).energy X Y = c.energy X Y ∧
    ({ c with meanFunction := μ } : SparsePEP n d).classicElbo X Y = c.classicElbo X Y ∧
    ({ c with meanFunction := μ } : SparsePEP n d).updateSites X Y =
      (c.updateSites X Y).map (fun c' => { c' with meanFunction := μ }) := by
  refine ⟨rfl, rfl, rfl, rfl, rfl, ?_⟩
  unfold SparsePEP.updateSites
  have e : ({ c with meanFunction := μ } : SparsePEP n d).computeNewSites X Y = c.computeNewSites X Y := rfl
  rw [e]
  simp only [bind, Except.bind, pure, Except.pure]
  cases c.computeNewSites X Y with
  | error e => rfl
  | ok f =>
    have e' : ({ c with meanFunction := μ, nat1 := f.1, nat2 := f.2 } : SparsePEP n d).computeLogNorm X Y =
      ({ c with nat1 := f.1, nat2 := f.2 } : SparsePEP n d).computeLogNorm X Y := rfl
    simp only [e']
    cases ({ c with nat1 := f.1, nat2 := f.2 } : SparsePEP n d).computeLogNorm X Y with
    | error e => rfl
    | ok f => rfl

/-- Non-vacuity: Matérn 3/2 kernel, three inducing points, `alpha = 1 / 2`; four data in unsorted order, two in the same
interval, with their cavities; and data at the last two inducing points for the regression theorem. -/
example : ∃ (c : SparsePEP 2 2) (k : ℝ → ℝ → Mat 1 1) (q : SSM 2 2) (X : Fin 4 → ℝ) (a : Fin 2 → Fin 2), c.Valid k ∧
    c.distQ = .ok q ∧ c.likelihood = pepGaussian 2 ∧ c.learningRate = 1 ∧ c.alpha = 1 / 2 ∧
    (∀ j v, v ⬝ᵥ (c.nat2 j *ᵥ v) ≤ 0) ∧ (∀ j, c.inducing 0 < X j) ∧ (∀ j, X j ≤ c.inducing (Fin.last 2)) ∧
    InInterval c.inducing 1 (X 0) ∧ InInterval c.inducing 1 (X 2) ∧ InInterval c.inducing 2 (X 1) ∧ c.count X 1 = 2 ∧
    (∃ r, c.computeCavity X = .ok r) ∧ Function.Injective a ∧
    ({ c with alpha := 1 } : SparsePEP 2 2).Valid k := by
  obtain ⟨K, hK⟩ := (C28_constructors (o := 1) 2 3 1 1 1 0).2.1.2 (by norm_num)
  obtain ⟨hv, hneg, q, hq⟩ := C47_init (z := ![0, 1, 3]) (.leaf (.matern32 hK)) (.matern32 hK)
    (by rw [(kernelInit_ok hK).2.2]; rfl)
    (Fin.strictMono_iff_lt_succ.2 fun i => by fin_cases i <;> simp)
    (by show -10000000000 < (0 : ℝ); norm_num) (by show (3 : ℝ) ≤ 10000000000; norm_num) (by norm_num)
    (pepGaussian 2) none 1 (1 / 2)
  have h0 : ∀ j, (![0, 1, 3] : Fin 3 → ℝ) 0 < (![1, 5 / 2, 1 / 2, 2] : Fin 4 → ℝ) j := fun j => by
    fin_cases j <;> simp
  have h1 : ∀ j, (![1, 5 / 2, 1 / 2, 2] : Fin 4 → ℝ) j ≤ (![0, 1, 3] : Fin 3 → ℝ) (Fin.last 2) := fun j => by
    fin_cases j <;> simp [Fin.last] <;> norm_num
  have hi : ∀ j, InInterval ![0, 1, 3] 1 ((![1, 5 / 2, 1 / 2, 2] : Fin 4 → ℝ) j) ↔ j = 0 ∨ j = 2 := by
    intro j
    unfold InInterval
    simp only [Fin.forall_fin_succ, Fin.lt_def, Fin.le_def]
    fin_cases j <;> simp <;> norm_num
  refine ⟨_, _, q, ![1, 5 / 2, 1 / 2, 2], id, hv, hq, rfl, rfl, rfl, hneg, h0, h1, (hi 0).2 (.inl rfl),
    (hi 2).2 (.inr rfl), ?_, ?_, ?_, Function.injective_id, ?_⟩
  · constructor
    · intro i hi
      fin_cases i <;> simp [SparsePEP.init, Fin.lt_def] at hi ⊢ <;> norm_num
    · intro i hi
      fin_cases i <;> simp [SparsePEP.init, Fin.le_def] at hi ⊢ <;> norm_num
  · classical
    unfold SparsePEP.count
    show (Finset.univ.filter fun j => InInterval ![0, 1, 3] 1 ((![1, 5 / 2, 1 / 2, 2] : Fin 4 → ℝ) j)).card = 2
    simp only [hi]
    decide
  · exact (C47_cavity_exists hv hneg (by show (0 : ℝ) ≤ 1 / 2; norm_num) (by show (1 / 2 : ℝ) ≤ 1; norm_num) h0 h1).2.1
  · exact ⟨hv.builds, hv.noise, hv.jitter, hv.times, hv.lower, hv.upper, hv.two, hv.symm⟩

end MF
