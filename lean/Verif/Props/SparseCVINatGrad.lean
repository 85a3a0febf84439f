import Verif.Lemmas.SparseCVIGrad
import Verif.Props.CVINatGrad
import Verif.Props.SparseCVI

/-!
# C56, sparse models: natural gradient descent on the sparse variational GP and the sparse CVI update are the same algorithm
-/

namespace MF
open Matrix Spec MeasureTheory ProbabilityTheory InformationTheory
variable {n d p : ℕ}

/-- The value of `loss((X, Y))` as a function of `dist_q`. -/
noncomputable def SVGP.lossOf {o : ℕ} (v : SVGP n o d) (X : Fin p → ℝ) (Y : Fin p → Vec o) (s : SSM n d) : ℝ :=
  match ({ v with q := s } : SVGP n o d).loss X Y with
  | .ok x => x
  | .error _ => 0

theorem SparseCVI.toSVGP_valid {c : SparseCVI n d} {k} (h : c.Valid k) {q : SSM n d} (hq : q.Nondegenerate) : (c.toSVGP q).Valid k :=
  ⟨h.builds, h.noise, h.jitter, h.times, h.lower, h.upper, h.two, hq⟩

/-- The loss as a function of the distribution of the inducing states. -/
theorem SVGP.lossOf_eq {c : SparseCVI n d} {k} (h : c.Valid k) {X : Fin p → ℝ} (h0 : ∀ j, -10000000000 < X j)
    (h1 : ∀ j, X j ≤ 10000000000) (Y : Fin p → Vec 1) {P T}
    (hst : conditionalStatistics approxInf X c.inducing c.kernel.trans = .ok (P, T)) (q : SSM n d) :
    ∃ s : SSM n d, c.kernel.stateSpaceModel c.inducing = .ok s ∧ s.Nondegenerate ∧
      ∀ s' : SSM n d, s'.Nondegenerate → (∃ e, (c.toSVGP s').loss X Y = .ok e ∧ (c.toSVGP q).lossOf X Y s' = e) ∧
        (c.toSVGP q).lossOf X Y s' = (klDiv s'.law s.law).toReal -
        ∑ i, c.likelihood.varExp
          (projW c.kernel X P i ⬝ᵥ neighbours s'.mus (searchsortedLeft c.inducing (X i)))
          (projW c.kernel X P i ⬝ᵥ ((pickMat (nbIdx d (searchsortedLeft c.inducing (X i))) * s'.Kd *
            (pickMat (nbIdx d (searchsortedLeft c.inducing (X i))))ᵀ) *ᵥ projW c.kernel X P i) + restVar c.kernel c.inducing X P T i)
          (Y i 0) := by
  obtain ⟨hco, -, -⟩ := Builds.good h.builds
  obtain ⟨s, hs, hnd⟩ := kernel_ssm_nondegenerate h.builds h.noise h.two h.times
  refine ⟨s, hs, hnd, fun q₂ hq₂ => ?_⟩
  obtain ⟨r, hr⟩ := C22_succeeds (c := (⟨q₂, c.kernel, c.inducing, fun _ => 0⟩ : CondProcess n 1 d)) h.builds h.noise
    hq₂ h.two h.times.monotone h0 h1
  obtain ⟨f, _, hf, -, -⟩ := (C45_formulas hr 0).2
  obtain ⟨kl, hkl, hkl', hkl0, -⟩ := C13_kl_divergence q₂ s hq₂ hnd h.two hco.pos
  have hkl' : klDiv q₂.law s.law = ENNReal.ofReal kl := hkl'
  have hpp := fun i => pair_predict h.builds hq₂ h.two hst hf i
  have he : (c.toSVGP q₂).loss X Y = .ok (-((∑ i, c.likelihood.varExps (f i).1 (f i).2 (Y i)) - kl)) := by
    unfold SVGP.loss SVGP.elbo SVGP.posterior SVGP.distP
    simp only [SparseCVI.toSVGP]
    rw [hf, hs]
    simp only [bind, Except.bind, pure, Except.pure, hkl, mul_one]
  have hL : (c.toSVGP q).lossOf X Y q₂ = -((∑ i, c.likelihood.varExps (f i).1 (f i).2 (Y i)) - kl) := by
    unfold SVGP.lossOf
    rw [show ({ c.toSVGP q with q := q₂ } : SVGP n 1 d) = c.toSVGP q₂ from rfl, he]
  refine ⟨⟨_, he, hL⟩, ?_⟩
  rw [hL, hkl', ENNReal.toReal_ofReal hkl0, neg_sub]
  congr 1
  refine Finset.sum_congr rfl fun i _ => ?_
  unfold ScalarLikelihood.varExps
  rw [Fin.sum_univ_one, (hpp i).1, (hpp i).2]

open Classical in
/-- C56, sparse: the gradient of the sparse variational GP's `loss((X, Y))` in the expectation parameters of `dist_q` is the difference
between the natural parameters of `dist_q` and those of the prior times, for every datum, a Gaussian factor on the pair of inducing states
around it: `exp(g₁ᵢ Wᵢvᵢ + g₂ᵢ (Wᵢvᵢ)²)` with `Wᵢvᵢ` the prior conditional mean of `f(xᵢ)` and `gᵢ` the derivatives of its variational
expectation in expectation parameters, at the predicted mean and variance. -/
theorem C56_sparse_gradient {c : SparseCVI n d} {k} (h : c.Valid k) (hlik : DifferentiableVarExp c.likelihood)
    {q : SSM n d} (hqn : q.Nondegenerate) {X : Fin p → ℝ}
    (h0 : ∀ j, -10000000000 < X j) (h1 : ∀ j, X j ≤ 10000000000) (hem : ∀ j, c.kernel.emission (X j) ≠ 0) (Y : Fin p → Vec 1) :
    ∃ (s : SSM n d) (η : ExpPar n d) (fx : Fin p → Vec 1 × Vec 1) (P : Fin p → Matrix (Fin d) (Fin d ⊕ Fin d) ℝ) (T : Fin p → Mat d d),
      c.kernel.stateSpaceModel c.inducing = .ok s ∧ ssmToExpectations q = .ok η ∧ (c.toSVGP q).posterior.predictFDiag X = .ok fx ∧
      conditionalStatistics approxInf X c.inducing c.kernel.trans = .ok (P, T) ∧ (∀ i, 0 < (fx i).2 0) ∧
      ∀ (W : Fin p → Fin d ⊕ Fin d → ℝ), (∀ i, W i = (c.kernel.emission (X i) * P i) 0) →
      ∀ (g : Fin p → ℝ × ℝ), (∀ i, g i = localGradients c.likelihood ((fx i).1 0) ((fx i).2 0) (Y i 0)) →
        IsTotalGradient (lossOfExpectations ((c.toSVGP q).lossOf X Y)) η (ssmToNaturals q - (ssmToNaturals s + pairSiteNaturals
          (fun j => ∑ i ∈ Finset.univ.filter (fun i => InInterval c.inducing j (X i)), (g i).1 • W i)
          (fun j => ∑ i ∈ Finset.univ.filter (fun i => InInterval c.inducing j (X i)), (g i).2 • vecMulVec (W i) (W i)))) := by
  obtain ⟨hc, -, -⟩ := Builds.good h.builds
  obtain ⟨r, hr⟩ := C22_succeeds (c := (⟨q, c.kernel, c.inducing, fun _ => 0⟩ : CondProcess n 1 d)) h.builds h.noise
    hqn h.two h.times.monotone h0 h1
  obtain ⟨fx, _, hf, -, -⟩ := (C45_formulas hr 0).2
  obtain ⟨cs, hcs, -⟩ := predictState_ok hqn h.two hc.pos hr
  have hst : conditionalStatistics approxInf X c.inducing c.kernel.trans =
      .ok (fun j => fromCols (cs j).D (cs j).E, fun j => (cs j).T) := by
    unfold conditionalStatistics
    rw [conditionalStatisticsAux_of hcs]; rfl
  generalize (fun j => fromCols (cs j).D (cs j).E) = P at hst
  generalize (fun j => (cs j).T) = T at hst
  obtain ⟨s, hs, hsn, hL⟩ := SVGP.lossOf_eq h h0 h1 Y hst q
  have hpp := fun i => pair_predict h.builds hqn h.two hst hf i
  have hpos := fun i => pair_var_pos h.builds h.noise h.jitter hqn h.times.monotone h0 h1 hst i (hem i)
  refine ⟨s, expPar q, fx, P, T, hs, ssmToExpectations_eq q hqn h.two hc.pos, hf, hst, fun i => by rw [(hpp i).2]; exact hpos i,
    fun W hW g hg => ?_⟩
  obtain rfl : W = fun i => projW c.kernel X P i := funext hW
  set J : Fin p → Fin (n + 2) := fun i => searchsortedLeft c.inducing (X i) with hJ
  set α : Fin p → ExpPar n d := fun i => pairSiteNaturals (Pi.single (J i) (projW c.kernel X P i)) 0 with hα
  set β : Fin p → ExpPar n d := fun i => pairSiteNaturals 0 (Pi.single (J i) (vecMulVec (projW c.kernel X P i) (projW c.kernel X P i))) with hβ
  have hsum : pairSiteNaturals
          (fun j => ∑ i ∈ Finset.univ.filter (fun i => InInterval c.inducing j (X i)), (g i).1 • projW c.kernel X P i)
          (fun j => ∑ i ∈ Finset.univ.filter (fun i => InInterval c.inducing j (X i)), (g i).2 • vecMulVec (projW c.kernel X P i) (projW c.kernel X P i)) =
      ∑ i, ((g i).1 • α i + (g i).2 • β i) := by
    simp only [hα, hβ, ← pairSiteNaturals_smul, ← pairSiteNaturals_add, smul_zero, add_zero, zero_add]
    rw [← pairSiteNaturals_sum]
    congr 1
    · funext j
      rw [Finset.sum_apply, Finset.sum_filter]
      refine Finset.sum_congr rfl fun i _ => ?_
      by_cases hi : InInterval c.inducing j (X i)
      · obtain rfl : J i = j := (inInterval_iff h.times.monotone _ _).2 hi
        rw [if_pos hi, Pi.smul_apply, Pi.single_eq_same]
      · have : j ≠ J i := fun e => hi ((inInterval_iff h.times.monotone _ _).1 e.symm)
        rw [if_neg hi, Pi.smul_apply, Pi.single_eq_of_ne this, smul_zero]
    · funext j
      rw [Finset.sum_apply, Finset.sum_filter]
      refine Finset.sum_congr rfl fun i _ => ?_
      by_cases hi : InInterval c.inducing j (X i)
      · obtain rfl : J i = j := (inInterval_iff h.times.monotone _ _).2 hi
        rw [if_pos hi, Pi.smul_apply, Pi.single_eq_same]
      · have : j ≠ J i := fun e => hi ((inInterval_iff h.times.monotone _ _).1 e.symm)
        rw [if_neg hi, Pi.smul_apply, Pi.single_eq_of_ne this, smul_zero]
  rw [hsum, ← sub_sub]
  refine totalGradient_elbo hqn hsn (c := 0) (α := α) (β := β) (g := g)
    (F := fun i e => c.likelihood.varExp e.1 (e.2 - e.1 ^ 2 + restVar c.kernel c.inducing X P T i) (Y i 0))
    (fun i => pairSiteNaturals_symDiag fun j => transpose_zero) (fun i => pairSiteNaturals_symDiag fun j => ?_) (fun i => ?_) fun s' hs' => ?_
  · by_cases hj : j = J i
    · rw [hj, Pi.single_eq_same, transpose_vecMulVec]
    · rw [Pi.single_eq_of_ne hj, transpose_zero]
  · obtain ⟨e1, e2⟩ := pairing_single (projW c.kernel X P i) (J i) q
    rw [e1, e2]
    set m := projW c.kernel X P i ⬝ᵥ neighbours q.mus (J i) with hm
    set v := projW c.kernel X P i ⬝ᵥ ((pickMat (nbIdx d (J i)) * q.Kd * (pickMat (nbIdx d (J i)))ᵀ) *ᵥ projW c.kernel X P i) with hv
    have hd := (hlik m _ (Y i 0) (hpos i)).hasFDerivAt
    set R := restVar c.kernel c.inducing X P T i with hR
    set lik' : ScalarLikelihood := ⟨c.likelihood.logProb, fun m s y => c.likelihood.varExp m (s + R) y⟩ with hl
    have hsh : HasFDerivAt (fun x : ℝ × ℝ => (x.1, x.2 + R))
        ((ContinuousLinearMap.fst ℝ ℝ ℝ).prod (ContinuousLinearMap.snd ℝ ℝ ℝ)) (m, v) :=
      hasFDerivAt_fst.prodMk (hasFDerivAt_snd.add_const _)
    have hd' : HasFDerivAt (fun x : ℝ × ℝ => lik'.varExp x.1 x.2 (Y i 0)) _ (m, v) :=
      HasFDerivAt.comp (g := fun x : ℝ × ℝ => c.likelihood.varExp x.1 x.2 (Y i 0)) (f := fun x : ℝ × ℝ => (x.1, x.2 + R)) (m, v) hd hsh
    refine (C34_gradient hd').congr_fderiv ?_
    rw [hg i, (hpp i).1, (hpp i).2]
    unfold localGradients gradMeanVarToExpectation
    have ed := deriv_comp_add_const (fun x => c.likelihood.varExp m x (Y i 0)) R v
    simp only [hl, ed]
    rfl
  · rw [(hL s' hs').2, add_zero]
    congr 1
    refine Finset.sum_congr rfl fun i _ => ?_
    obtain ⟨e1, e2⟩ := pairing_single (projW c.kernel X P i) (J i) s'
    beta_reduce
    rw [e1, e2, add_sub_cancel_right]

/-- The natural parameters of `dist_q`: those of the prior plus the sites. -/
noncomputable def SparseCVI.thetas (c : SparseCVI n d) (s : SSM n d) : ExpPar n d :=
  ssmToNaturals s + pairSiteNaturals c.nat1 c.nat2

theorem SparseCVI.distQ_naturals {c : SparseCVI n d} {k} (h : c.Valid k) {s : SSM n d} (hs : c.kernel.stateSpaceModel c.inducing = .ok s)
    (hnd : s.Nondegenerate) : c.distQ = naturalsToSSM (c.thetas s).1 (c.thetas s).2.1 (c.thetas s).2.2 := by
  have h0 := (kernel_moments h.builds h.jitter hs).1
  unfold SparseCVI.distQ SparseCVI.distP
  rw [hs]
  simp only [bind, Except.bind, SSM.precision_eq hnd h.two, Option.getD_some]
  unfold SparseCVI.thetas
  rw [ssmToNaturals_eq s hnd, h0, mulVec_zero]
  congr 1
  funext t j
  show _ = (0 : ℝ) + (c.nat1 t.succ (.inl j) + c.nat1 t.castSucc (.inr j))
  rw [zero_add]

theorem SparseCVI.symDiag_thetas {c : SparseCVI n d} {k} (h : c.Valid k) {s : SSM n d} (hnd : s.Nondegenerate) : SymDiag (c.thetas s) :=
  SymDiag.add (symDiag_naturals hnd) (pairSiteNaturals_symDiag h.symm)

/-- C56, sparse: the bound that `classic_elbo()` returns is the `elbo()` of the sparse variational GP at `dist_q`. -/
theorem C56_sparse_same_bound {c : SparseCVI n d} {q : SSM n d} (hq : c.distQ = .ok q) (X : Fin p → ℝ) (Y : Fin p → Vec 1) :
    c.classicElbo X Y = (c.toSVGP q).elbo X Y := by
  unfold SparseCVI.classicElbo SparseCVI.posterior SVGP.elbo SparseCVI.distP SVGP.distP
  rw [hq]
  simp only [bind, Except.bind, pure, Except.pure, SparseCVI.toSVGP, SVGP.posterior, mul_one]

/-- C56, sparse: one `update_sites((X, Y))` with learning rate `r` does to `dist_q` what one natural gradient step of rate `r` on the sparse
variational GP's `loss((X, Y))` does: the results are the same, parameter by parameter, or both fail (in the same way). -/
theorem C56_sparse_step {c : SparseCVI n d} {k} (h : c.Valid k) (hlik : DifferentiableVarExp c.likelihood)
    {X : Fin p → ℝ} (h0 : ∀ j, -10000000000 < X j) (h1 : ∀ j, X j ≤ 10000000000) (hem : ∀ j, c.kernel.emission (X j) ≠ 0)
    (Y : Fin p → Vec 1) {q : SSM n d} (hq : c.distQ = .ok q)
    {η g : ExpPar n d} (hη : ssmToExpectations q = .ok η) (hg : IsGradient (lossOfExpectations ((c.toSVGP q).lossOf X Y)) η g)
    (opt : NatGrad n d) (hm : opt.momentum = false) (hr : opt.gamma = c.learningRate) (gθ : ExpPar n d) :
    ∃ c', c.updateSites X Y = .ok c' ∧ opt.step q g gθ = c'.distQ.map fun q' => (opt, q') := by
  obtain ⟨hco, -, -⟩ := Builds.good h.builds
  obtain ⟨s, hs, hsn, hq1, -⟩ := C36_dist_q h
  have hqn := (hq1 q hq).1
  obtain ⟨s', η', fx, P, T, hs', hη', hf, hst, -, hgr⟩ := C56_sparse_gradient h hlik hqn h0 h1 hem Y
  replace hgr := fun W hW g hg => isGradient_of_total hqn h.two (Builds.good h.builds).1.pos hη' (hgr W hW g hg)
  obtain rfl : s = s' := Except.ok.inj (hs.symm.trans hs')
  obtain rfl : η = η' := Except.ok.inj (hη.symm.trans hη')
  have hgr := hgr _ (fun _ => rfl) _ (fun _ => rfl)
  have eg := IsGradient.unique hg hgr
  obtain ⟨c', post, fx', P', T', hu, hpost, hf', hst', hcs, hup⟩ := C36_update h hq h0 h1 Y
  obtain ⟨rfl, rfl⟩ := Prod.mk.inj (Except.ok.inj (hst.symm.trans hst'))
  have hpost' : c.posterior = .ok (c.toSVGP q).posterior := by
    unfold SparseCVI.posterior; rw [hq]; rfl
  obtain rfl := Except.ok.inj (hpost'.symm.trans hpost)
  obtain rfl : fx = fx' := Except.ok.inj (hf.symm.trans hf')
  have hup := hup _ (fun _ => rfl) _ (fun _ => rfl)
  refine ⟨c', hu, ?_⟩
  have hv' : c'.Valid k := C36_reachable h hu
  have hsc' : c'.kernel.stateSpaceModel c'.inducing = .ok s := by rw [hcs]; exact hs
  have hθq : ssmToNaturals q = c.thetas s := by
    have hd := SparseCVI.distQ_naturals h hs hsn
    have hsy := SparseCVI.symDiag_thetas h hsn
    by_cases hP : ProperNaturals (c.thetas s)
    · obtain ⟨q2, b1, b2, b3⟩ := C17_naturals_round_trip (c.thetas s).1 (c.thetas s).2.1 (c.thetas s).2.2 h.two hco.pos hsy hP
      obtain rfl : q = q2 := Except.ok.inj (hq.symm.trans (hd.trans b1))
      exact b3
    · rw [hd, C17_improper_raises (c.thetas s).1 (c.thetas s).2.1 (c.thetas s).2.2 h.two hsy hP] at hq
      cases hq
  have key : ssmToNaturals q - opt.gamma • g = c'.thetas s := by
    obtain ⟨G1, G2, eg', e1, e2⟩ : ∃ (G1 : PairVec n d) (G2 : PairMat n d),
        g = ssmToNaturals q - (ssmToNaturals s + pairSiteNaturals G1 G2) ∧ c'.nat1 = (1 - c.learningRate) • c.nat1 + c.learningRate • G1 ∧
        c'.nat2 = (1 - c.learningRate) • c.nat2 + c.learningRate • G2 :=
      ⟨_, _, eg, funext fun j => (hup j).1, funext fun j => (hup j).2⟩
    have e3 : c'.thetas s = ssmToNaturals s + ((1 - c.learningRate) • pairSiteNaturals c.nat1 c.nat2 +
        c.learningRate • pairSiteNaturals G1 G2) := by
      unfold SparseCVI.thetas
      rw [e1, e2, ← pairSiteNaturals_smul, ← pairSiteNaturals_smul, ← pairSiteNaturals_add]
    rw [e3, eg', hr, hθq]
    unfold SparseCVI.thetas
    module
  rw [SparseCVI.distQ_naturals hv' hsc' hsn, step_eq opt hm, key]
  have hsy := SparseCVI.symDiag_thetas hv' hsn
  obtain ⟨t1, t2⟩ := natgrad_tail h.two hco.pos hsy opt
  by_cases hP : ProperNaturals (c'.thetas s)
  · obtain ⟨q', b1, -, -, b4⟩ := t1 hP
    rw [b1, b4]; rfl
  · rw [t2 hP, C17_improper_raises (c'.thetas s).1 (c'.thetas s).2.1 (c'.thetas s).2.2 h.two hsy hP]; rfl

/-- `N` calls of `update_sites` (sparse_variational_cvi.py:176-221), the `i`-th on minibatch `i`. -/
noncomputable def SparseCVI.updates (X : ℕ → Fin p → ℝ) (Y : ℕ → Fin p → Vec 1) (c : SparseCVI n d) : ℕ → Except Err (SparseCVI n d)
  | 0 => .ok c
  | N + 1 => do
    let c' ← SparseCVI.updates X Y c N
    c'.updateSites (X N) (Y N)

theorem SparseCVI.updates_ok {X : ℕ → Fin p → ℝ} {Y : ℕ → Fin p → Vec 1} {c c' : SparseCVI n d} {k} (h : c.Valid k) {N : ℕ}
    (hu : SparseCVI.updates X Y c N = .ok c') : c'.Valid k ∧ c' = { c with nat1 := c'.nat1, nat2 := c'.nat2 } := by
  induction N generalizing c' with
  | zero => rw [← Except.ok.inj hu]; exact ⟨h, rfl⟩
  | succ N ih =>
    rw [SparseCVI.updates] at hu
    simp only [bind, Except.bind] at hu
    cases h1 : SparseCVI.updates X Y c N with
    | error e => rw [h1] at hu; cases hu
    | ok c1 =>
      rw [h1] at hu
      obtain ⟨i1, i2⟩ := ih h1
      have hu : c1.updateSites (X N) (Y N) = .ok c' := hu
      refine ⟨C36_reachable i1 hu, ?_⟩
      unfold SparseCVI.updateSites at hu
      simp only [bind, Except.bind, pure, Except.pure] at hu
      split at hu
      · cases hu
      split at hu
      · cases hu
      split at hu
      · cases hu
      rw [← Except.ok.inj hu]
      have k1 : c1.kernel = c.kernel := by rw [i2]
      have k2 : c1.inducing = c.inducing := by rw [i2]
      have k3 : c1.likelihood = c.likelihood := by rw [i2]
      have k4 : c1.meanFunction = c.meanFunction := by rw [i2]
      have k5 : c1.learningRate = c.learningRate := by rw [i2]
      simp only [k1, k2, k3, k4, k5]

/-- C56, sparse: any number of steps, each on its own minibatch. -/
theorem C56_sparse_steps {c : SparseCVI n d} {k} (h : c.Valid k) (hlik : DifferentiableVarExp c.likelihood)
    {X : ℕ → Fin p → ℝ} (h0 : ∀ i j, -10000000000 < X i j) (h1 : ∀ i j, X i j ≤ 10000000000)
    (hem : ∀ i j, c.kernel.emission (X i j) ≠ 0) (Y : ℕ → Fin p → Vec 1) {q : SSM n d} (hq : c.distQ = .ok q)
    {grad : ℕ → SSM n d → ExpPar n d × ExpPar n d}
    (hgrad : ∀ i q' η, q'.Nondegenerate → ssmToExpectations q' = .ok η →
      IsGradient (lossOfExpectations ((c.toSVGP q).lossOf (X i) (Y i))) η (grad i q').1)
    (opt : NatGrad n d) (hm : opt.momentum = false) (hr : opt.gamma = c.learningRate) (N : ℕ) :
    NatGrad.steps grad N (opt, q) = ((SparseCVI.updates X Y c N) >>= SparseCVI.distQ).map fun q' => (opt, q') := by
  induction N with
  | zero =>
    simp only [NatGrad.steps, SparseCVI.updates, bind, Except.bind, hq]
    rfl
  | succ N ih =>
    rw [NatGrad.steps, ih, SparseCVI.updates]
    simp only [bind, Except.bind]
    cases h3 : SparseCVI.updates X Y c N with
    | error e => rfl
    | ok c1 =>
      simp only
      obtain ⟨hv1, hcs⟩ := SparseCVI.updates_ok h h3
      cases h2 : c1.distQ with
      | error e =>
        have : c1.updateSites (X N) (Y N) = .error e := by
          unfold SparseCVI.updateSites SparseCVI.posterior
          rw [h2]; rfl
        rw [this]; rfl
      | ok q1 =>
        obtain ⟨hco, -, -⟩ := Builds.good h.builds
        obtain ⟨_, -, -, hq1, -⟩ := C36_dist_q hv1
        have hqn := (hq1 q1 h2).1
        have hη := ssmToExpectations_eq q1 hqn h.two hco.pos
        have eL : (c1.toSVGP q1).lossOf (X N) (Y N) = (c.toSVGP q).lossOf (X N) (Y N) := by rw [hcs]; rfl
        have hem1 : ∀ j, c1.kernel.emission (X N j) ≠ 0 := by rw [hcs]; exact hem N
        have hl1 : DifferentiableVarExp c1.likelihood := by rw [hcs]; exact hlik
        have hr1 : opt.gamma = c1.learningRate := by rw [hcs]; exact hr
        have hg := hgrad N q1 _ hqn hη
        rw [← eL] at hg
        obtain ⟨c', b1, b2⟩ := C56_sparse_step hv1 hl1 (h0 N) (h1 N) hem1 (Y N) h2 hη hg opt hm hr1 (grad N q1).2
        rw [b1]
        exact b2

/-- C56, sparse: the fixed points of `update_sites((X, Y))` are the stationary points of the sparse bound. -/
theorem C56_sparse_fixed_point {c : SparseCVI n d} {k} (h : c.Valid k) (hlik : DifferentiableVarExp c.likelihood)
    {X : Fin p → ℝ} (h0 : ∀ j, -10000000000 < X j) (h1 : ∀ j, X j ≤ 10000000000) (hem : ∀ j, c.kernel.emission (X j) ≠ 0)
    (Y : Fin p → Vec 1) (hr : c.learningRate ≠ 0) {q : SSM n d} (hq : c.distQ = .ok q)
    {η : ExpPar n d} (hη : ssmToExpectations q = .ok η) :
    (∃ c' q', c.updateSites X Y = .ok c' ∧ c'.distQ = .ok q' ∧ q'.law = q.law) ↔
      IsGradient (lossOfExpectations ((c.toSVGP q).lossOf X Y)) η 0 := by
  obtain ⟨hco, -, -⟩ := Builds.good h.builds
  obtain ⟨_, -, -, hq1, -⟩ := C36_dist_q h
  have hqn := (hq1 q hq).1
  obtain ⟨s', η', fx, P, T, hs', hη', hf, hst, -, hgr⟩ := C56_sparse_gradient h hlik hqn h0 h1 hem Y
  replace hgr := fun W hW g hg => isGradient_of_total hqn h.two (Builds.good h.builds).1.pos hη' (hgr W hW g hg)
  obtain rfl : η = η' := Except.ok.inj (hη.symm.trans hη')
  have hgr := hgr _ (fun _ => rfl) _ (fun _ => rfl)
  generalize hgd : (ssmToNaturals q - (ssmToNaturals s' + _)) = g at hgr
  set opt : NatGrad n d := NatGrad.init c.learningRate false 0 0 0 with ho
  obtain ⟨c', b1, b2⟩ := C56_sparse_step h hlik h0 h1 hem Y hq hη hgr opt rfl rfl 0
  have hsg : SymDiag g := hgr.1
  obtain ⟨s1, s2⟩ := C39_step opt rfl hqn h.two hco.pos g 0 hsg
  rw [b2] at s1 s2
  constructor
  · rintro ⟨c'', q', e1, e2, e3⟩
    obtain rfl : c' = c'' := Except.ok.inj (b1.symm.trans e1)
    rw [e2] at s1 s2
    by_cases hP : ProperNaturals (ssmToNaturals q - opt.gamma • g)
    · obtain ⟨q2, f1, f2, f3⟩ := s1 hP
      obtain rfl : q' = q2 := congrArg Prod.snd (Except.ok.inj f1)
      rw [naturals_of_law f2 hqn e3] at f3
      have : opt.gamma • g = 0 := by rwa [eq_comm, sub_eq_self] at f3
      have hg0 : g = 0 := (smul_eq_zero.1 this).resolve_left hr
      rwa [hg0] at hgr
    · cases s2 hP
  · intro h0
    have hg0 : g = 0 := IsGradient.unique hgr h0
    rw [hg0, smul_zero, sub_zero] at s1
    obtain ⟨q', f1, f2, f3⟩ := s1 (proper_of_ssm hqn)
    refine ⟨c', q', b1, ?_, law_of_naturals f2 hqn f3⟩
    cases h3 : c'.distQ with
    | error e => rw [h3] at f1; cases f1
    | ok q2 =>
      rw [h3] at f1
      exact congrArg Except.ok (congrArg Prod.snd (Except.ok.inj f1))

/-- Non-vacuity: a Matérn 3/2 kernel, three inducing points, a minibatch of four counts with a Poisson likelihood, learning rate 1/2: the
hypotheses hold and the gradient exists. -/
example : ∃ (c : SparseCVI 2 2) (k : ℝ → ℝ → Mat 1 1) (q : SSM 2 2) (X : Fin 4 → ℝ) (Y : Fin 4 → Vec 1) (η g : ExpPar 2 2), c.Valid k ∧
    c.distQ = .ok q ∧ DifferentiableVarExp c.likelihood ∧ c.likelihood = poissonLikelihood ∧ c.learningRate = 1 / 2 ∧
    (∀ j, -10000000000 < X j) ∧ (∀ j, X j ≤ 10000000000) ∧ (∀ j, c.kernel.emission (X j) ≠ 0) ∧
    ssmToExpectations q = .ok η ∧ IsGradient (lossOfExpectations ((c.toSVGP q).lossOf X Y)) η g := by
  obtain ⟨K, hK⟩ := (C28_constructors (o := 1) 2 3 1 1 1 0).2.1.2 (by norm_num)
  obtain ⟨hv, s, q, -, hq, -⟩ := C36_init (z := ![0, 1, 3]) (.leaf (.matern32 hK)) (.matern32 hK)
    (by rw [(kernelInit_ok hK).2.2]; rfl)
    (Fin.strictMono_iff_lt_succ.2 fun i => by fin_cases i <;> simp)
    (by show -10000000000 < (0 : ℝ); norm_num) (by show (3 : ℝ) ≤ 10000000000; norm_num) (by norm_num)
    poissonLikelihood none (1 / 2)
  have hem : ∀ t : ℝ, K.emission t ≠ 0 := fun t h0 => by
    have : K.emission t 0 0 = 0 := congrFun (congrFun h0 0) 0
    rw [(kernelInit_ok hK).2.2] at this
    simp [Stationary.base, sdeEmission] at this
  have a0 : ∀ j, -10000000000 < (![1, 4, 1 / 2, 2] : Fin 4 → ℝ) j := fun j => by fin_cases j <;> simp <;> norm_num
  have a1 : ∀ j, (![1, 4, 1 / 2, 2] : Fin 4 → ℝ) j ≤ 10000000000 := fun j => by fin_cases j <;> simp <;> norm_num
  obtain ⟨_, -, -, hq1, -⟩ := C36_dist_q hv
  obtain ⟨s', η, fx, P, T, hs', hη, hf, hst, -, hgr⟩ := C56_sparse_gradient hv poisson_differentiable (hq1 q hq).1 a0 a1 (fun _ => hem _)
    fun i => ![(i : ℝ)]
  exact ⟨_, _, q, _, _, η, _, hv, hq, poisson_differentiable, rfl, rfl, a0, a1, fun _ => hem _, hη,
    isGradient_of_total (hq1 q hq).1 hv.two (Builds.good hv.builds).1.pos hη (hgr _ (fun _ => rfl) _ fun _ => rfl)⟩

end MF
