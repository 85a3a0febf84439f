import Verif.Lemmas.SVGPNatGrad
import Verif.Props.Descent
import Verif.Props.SVGP

/-!
# C69: natural gradients of the sparse variational GP (several outputs, mean function, minibatch scaling)
-/

namespace MF
open Matrix Spec MeasureTheory ProbabilityTheory InformationTheory Filter Topology
variable {n d o p N : ℕ}

/-- The loss as a function of the distribution of the inducing states. -/
theorem SVGP.lossOf_formula {v : SVGP n o d} {k} (h : v.Valid k) {X : Fin p → ℝ} (h0 : ∀ j, -10000000000 < X j)
    (h1 : ∀ j, X j ≤ 10000000000) (Y : Fin p → Vec o) {P T}
    (hst : conditionalStatistics approxInf X v.inducing v.kernel.trans = .ok (P, T)) :
    ∃ s : SSM n d, v.kernel.stateSpaceModel v.inducing = .ok s ∧ s.Nondegenerate ∧
      ∀ s' : SSM n d, s'.Nondegenerate →
        ({ v with q := s' } : SVGP n o d).elbo X Y = .ok (-v.lossOf X Y s') ∧
        v.lossOf X Y s' = (klDiv s'.law s.law).toReal -
        ∑ i : Fin p × Fin o, v.scale p * v.likelihood.varExp
          (projRow v.kernel X P i.1 i.2 ⬝ᵥ neighbours s'.mus (searchsortedLeft v.inducing (X i.1)) + v.meanFunction (X i.1) i.2)
          (projRow v.kernel X P i.1 i.2 ⬝ᵥ ((pickMat (nbIdx d (searchsortedLeft v.inducing (X i.1))) * s'.Kd *
            (pickMat (nbIdx d (searchsortedLeft v.inducing (X i.1))))ᵀ) *ᵥ projRow v.kernel X P i.1 i.2) +
              restRow v.kernel v.inducing X P T i.1 i.2)
          (Y i.1 i.2) := by
  obtain ⟨hco, -, -⟩ := Builds.good h.builds
  obtain ⟨s, hs, hnd⟩ := kernel_ssm_nondegenerate h.builds h.noise h.two h.times
  refine ⟨s, hs, hnd, fun q₂ hq₂ => ?_⟩
  obtain ⟨r, hr⟩ := C22_succeeds (c := (⟨q₂, v.kernel, v.inducing, v.meanFunction⟩ : CondProcess n o d)) h.builds h.noise
    hq₂ h.two h.times.monotone h0 h1
  obtain ⟨f, _, hf, -, -⟩ := (C45_formulas hr 0).2
  obtain ⟨kl, hkl, hkl', hkl0, -⟩ := C13_kl_divergence q₂ s hq₂ hnd h.two hco.pos
  have hkl' : klDiv q₂.law s.law = ENNReal.ofReal kl := hkl'
  have hpp := fun i a => row_predict h.builds hq₂ h.two hst hf i a
  have he : ({ v with q := q₂ } : SVGP n o d).elbo X Y =
      .ok ((∑ i, v.likelihood.varExps (f i).1 (f i).2 (Y i)) * v.scale p - kl) := by
    unfold SVGP.elbo SVGP.posterior SVGP.distP
    rw [hf, hs]
    simp only [Bind.bind, Except.bind, Pure.pure, Except.pure, hkl]
    rfl
  have hL : v.lossOf X Y q₂ = -((∑ i, v.likelihood.varExps (f i).1 (f i).2 (Y i)) * v.scale p - kl) := by
    unfold SVGP.lossOf SVGP.loss
    rw [he]; rfl
  refine ⟨by rw [hL, neg_neg]; exact he, ?_⟩
  rw [hL, hkl', ENNReal.toReal_ofReal hkl0, neg_sub, Fintype.sum_prod_type, Finset.sum_mul]
  congr 1
  refine Finset.sum_congr rfl fun i _ => ?_
  unfold ScalarLikelihood.varExps
  rw [Finset.sum_mul]
  refine Finset.sum_congr rfl fun a _ => ?_
  rw [(hpp i a).1, (hpp i a).2, mul_comm]

theorem SVGP.ofLaw {v : SVGP n o d} {k} (h : v.Valid k) {X : Fin p → ℝ} (h0 : ∀ j, -10000000000 < X j)
    (h1 : ∀ j, X j ≤ 10000000000) (Y : Fin p → Vec o) {P T}
    (hst : conditionalStatistics approxInf X v.inducing v.kernel.trans = .ok (P, T)) : OfLaw (v.lossOf X Y) := by
  obtain ⟨s, hs, hsn, hL⟩ := SVGP.lossOf_formula h h0 h1 Y hst
  intro a b ha hb he
  obtain ⟨m1, m2⟩ := mus_Kd_of_law he
  have he' : a.law = b.law := he
  rw [(hL a ha).2, (hL b hb).2, m1, m2, he']

theorem SVGP.stats_ok {v : SVGP n o d} {k} (h : v.Valid k) {X : Fin p → ℝ} (h0 : ∀ j, -10000000000 < X j)
    (h1 : ∀ j, X j ≤ 10000000000) : ∃ fx P T, v.posterior.predictFDiag X = .ok fx ∧
      conditionalStatistics approxInf X v.inducing v.kernel.trans = .ok (P, T) := by
  obtain ⟨hc, -, -⟩ := Builds.good h.builds
  obtain ⟨r, hr⟩ := C22_succeeds (c := v.posterior) h.builds h.noise h.q h.two h.times.monotone h0 h1
  obtain ⟨fx, _, hf, -, -⟩ := (C45_formulas hr 0).2
  obtain ⟨cs, hcs, -⟩ := predictState_ok h.q h.two hc.pos hr
  refine ⟨fx, fun j => fromCols (cs j).D (cs j).E, fun j => (cs j).T, hf, ?_⟩
  unfold conditionalStatistics
  have := conditionalStatisticsAux_of hcs
  rw [show v.inducing = v.posterior.times from rfl, show v.kernel = v.posterior.kernel from rfl, this]; rfl

open Classical in
/-- The sites of the data, collected per interval, as a sum over data and outputs. -/
theorem pairSites_sum {z : Fin (n + 1) → ℝ} (hz : Monotone z) (X : Fin p → ℝ) (W : Fin p → Fin o → Fin d ⊕ Fin d → ℝ)
    (g : Fin p → Fin o → ℝ × ℝ) :
    pairSiteNaturals
      (fun j => ∑ i ∈ Finset.univ.filter (fun i => InInterval z j (X i)), ∑ a, (g i a).1 • W i a)
      (fun j => ∑ i ∈ Finset.univ.filter (fun i => InInterval z j (X i)), ∑ a, (g i a).2 • vecMulVec (W i a) (W i a)) =
    ∑ i : Fin p × Fin o, ((g i.1 i.2).1 • pairSiteNaturals (Pi.single (searchsortedLeft z (X i.1)) (W i.1 i.2)) 0 +
      (g i.1 i.2).2 • pairSiteNaturals 0 (Pi.single (searchsortedLeft z (X i.1)) (vecMulVec (W i.1 i.2) (W i.1 i.2)))) := by
  simp only [← pairSiteNaturals_smul, ← pairSiteNaturals_add, smul_zero, add_zero, zero_add]
  rw [← pairSiteNaturals_sum]
  congr 1
  · funext j
    rw [Finset.sum_apply, Fintype.sum_prod_type, Finset.sum_filter]
    refine Finset.sum_congr rfl fun i _ => ?_
    by_cases hi : InInterval z j (X i)
    · obtain rfl : searchsortedLeft z (X i) = j := (inInterval_iff hz _ _).2 hi
      rw [if_pos hi]
      exact Finset.sum_congr rfl fun a _ => by rw [Pi.smul_apply, Pi.single_eq_same]
    · have : j ≠ searchsortedLeft z (X i) := fun e => hi ((inInterval_iff hz _ _).1 e.symm)
      rw [if_neg hi]
      exact (Finset.sum_eq_zero fun a _ => by rw [Pi.smul_apply, Pi.single_eq_of_ne this, smul_zero]).symm
  · funext j
    rw [Finset.sum_apply, Fintype.sum_prod_type, Finset.sum_filter]
    refine Finset.sum_congr rfl fun i _ => ?_
    by_cases hi : InInterval z j (X i)
    · obtain rfl : searchsortedLeft z (X i) = j := (inInterval_iff hz _ _).2 hi
      rw [if_pos hi]
      exact Finset.sum_congr rfl fun a _ => by rw [Pi.smul_apply, Pi.single_eq_same]
    · have : j ≠ searchsortedLeft z (X i) := fun e => hi ((inInterval_iff hz _ _).1 e.symm)
      rw [if_neg hi]
      exact (Finset.sum_eq_zero fun a _ => by rw [Pi.smul_apply, Pi.single_eq_of_ne this, smul_zero]).symm

open Classical in
/-- C69: the gradient of the sparse variational GP's `loss((X, Y))` in the expectation parameters of `dist_q`, for any number of outputs, any
mean function and any `num_data`: the natural parameters of `dist_q` minus those of the prior times, for every datum and output, a Gaussian factor
on the pair of inducing states around it, raised to the power `num_data / minibatch size`. -/
theorem C69_gradient {v : SVGP n o d} {k} (h : v.Valid k) (hlik : DifferentiableVarExp v.likelihood) {X : Fin p → ℝ}
    (h0 : ∀ j, -10000000000 < X j) (h1 : ∀ j, X j ≤ 10000000000) (hem : ∀ j a, v.kernel.emission (X j) a ≠ 0) (Y : Fin p → Vec o) :
    ∃ (s : SSM n d) (η : ExpPar n d) (fx : Fin p → Vec o × Vec o) (P : Fin p → Matrix (Fin d) (Fin d ⊕ Fin d) ℝ) (T : Fin p → Mat d d),
      v.kernel.stateSpaceModel v.inducing = .ok s ∧ ssmToExpectations v.q = .ok η ∧ v.posterior.predictFDiag X = .ok fx ∧
      conditionalStatistics approxInf X v.inducing v.kernel.trans = .ok (P, T) ∧ (∀ i a, 0 < (fx i).2 a) ∧
      ∀ (W : Fin p → Fin o → Fin d ⊕ Fin d → ℝ), (∀ i a, W i a = (v.kernel.emission (X i) * P i) a) →
      ∀ (g : Fin p → Fin o → ℝ × ℝ), (∀ i a, g i a =
        (deriv (fun x => v.likelihood.varExp x ((fx i).2 a) (Y i a)) ((fx i).1 a) -
          2 * deriv (fun x => v.likelihood.varExp ((fx i).1 a) x (Y i a)) ((fx i).2 a) * ((fx i).1 a - v.meanFunction (X i) a),
         deriv (fun x => v.likelihood.varExp ((fx i).1 a) x (Y i a)) ((fx i).2 a))) →
        IsTotalGradient (lossOfExpectations (v.lossOf X Y)) η (ssmToNaturals v.q - (ssmToNaturals s + v.scale p • pairSiteNaturals
          (fun j => ∑ i ∈ Finset.univ.filter (fun i => InInterval v.inducing j (X i)), ∑ a, (g i a).1 • W i a)
          (fun j => ∑ i ∈ Finset.univ.filter (fun i => InInterval v.inducing j (X i)), ∑ a, (g i a).2 • vecMulVec (W i a) (W i a)))) := by
  obtain ⟨hc, -, -⟩ := Builds.good h.builds
  obtain ⟨fx, P, T, hf, hst⟩ := SVGP.stats_ok h h0 h1
  obtain ⟨s, hs, hsn, hL⟩ := SVGP.lossOf_formula h h0 h1 Y hst
  have hpp := fun i a => row_predict h.builds h.q h.two hst hf i a
  have hpos := fun i a => row_var_pos h.builds h.noise h.jitter h.q h.times.monotone h0 h1 hst i a (hem i a)
  refine ⟨s, expPar v.q, fx, P, T, hs, ssmToExpectations_eq v.q h.q h.two hc.pos, hf, hst, fun i a => by rw [(hpp i a).2]; exact hpos i a,
    fun W hW g hg => ?_⟩
  obtain rfl : W = fun i a => projRow v.kernel X P i a := funext fun i => funext (hW i)
  set J : Fin p → Fin (n + 2) := fun i => searchsortedLeft v.inducing (X i) with hJ
  rw [pairSites_sum h.times.monotone X (fun i a => projRow v.kernel X P i a) g, ← sub_sub, Finset.smul_sum]
  have hre : ∀ i : Fin p × Fin o, v.scale p • ((g i.1 i.2).1 • pairSiteNaturals (Pi.single (J i.1) (projRow v.kernel X P i.1 i.2)) 0 +
      (g i.1 i.2).2 • pairSiteNaturals 0 (Pi.single (J i.1) (vecMulVec (projRow v.kernel X P i.1 i.2) (projRow v.kernel X P i.1 i.2)))) =
      (v.scale p * (g i.1 i.2).1) • pairSiteNaturals (Pi.single (J i.1) (projRow v.kernel X P i.1 i.2)) 0 +
      (v.scale p * (g i.1 i.2).2) • pairSiteNaturals 0
        (Pi.single (J i.1) (vecMulVec (projRow v.kernel X P i.1 i.2) (projRow v.kernel X P i.1 i.2))) := fun i => by
    rw [smul_add, smul_smul, smul_smul]
  rw [Finset.sum_congr rfl fun i _ => hre i]
  refine totalGradient_elbo h.q hsn (c := 0)
    (α := fun i : Fin p × Fin o => pairSiteNaturals (Pi.single (J i.1) (projRow v.kernel X P i.1 i.2)) 0)
    (β := fun i => pairSiteNaturals 0 (Pi.single (J i.1) (vecMulVec (projRow v.kernel X P i.1 i.2) (projRow v.kernel X P i.1 i.2))))
    (g := fun i => (v.scale p * (g i.1 i.2).1, v.scale p * (g i.1 i.2).2))
    (F := fun i e => v.scale p * v.likelihood.varExp (e.1 + v.meanFunction (X i.1) i.2)
      (e.2 - e.1 ^ 2 + restRow v.kernel v.inducing X P T i.1 i.2) (Y i.1 i.2))
    (fun i => pairSiteNaturals_symDiag fun j => transpose_zero) (fun i => pairSiteNaturals_symDiag fun j => ?_) (fun i => ?_) fun s' hs' => ?_
  · by_cases hj : j = J i.1
    · rw [hj, Pi.single_eq_same, transpose_vecMulVec]
    · rw [Pi.single_eq_of_ne hj, transpose_zero]
  · obtain ⟨i, a⟩ := i
    dsimp only
    obtain ⟨e1, e2⟩ := pairing_single (projRow v.kernel X P i a) (J i) v.q
    rw [e1, e2]
    set m := projRow v.kernel X P i a ⬝ᵥ neighbours v.q.mus (J i) with hm
    set var := projRow v.kernel X P i a ⬝ᵥ ((pickMat (nbIdx d (J i)) * v.q.Kd * (pickMat (nbIdx d (J i)))ᵀ) *ᵥ projRow v.kernel X P i a) with hv
    set R := restRow v.kernel v.inducing X P T i a with hR
    set c := v.meanFunction (X i) a with hcm
    have hd := (hlik (m + c) (var + R) (Y i a) (hpos i a)).hasFDerivAt
    set lik' : ScalarLikelihood := ⟨v.likelihood.logProb, fun m s y => v.scale p * v.likelihood.varExp (m + c) (s + R) y⟩ with hl
    have hsh : HasFDerivAt (fun x : ℝ × ℝ => (x.1 + c, x.2 + R))
        ((ContinuousLinearMap.fst ℝ ℝ ℝ).prod (ContinuousLinearMap.snd ℝ ℝ ℝ)) (m, var) :=
      (hasFDerivAt_fst.add_const _).prodMk (hasFDerivAt_snd.add_const _)
    have hd' : HasFDerivAt (fun x : ℝ × ℝ => lik'.varExp x.1 x.2 (Y i a)) _ (m, var) :=
      (HasFDerivAt.comp (g := fun x : ℝ × ℝ => v.likelihood.varExp x.1 x.2 (Y i a)) (f := fun x : ℝ × ℝ => (x.1 + c, x.2 + R)) (m, var)
        hd hsh).const_mul (v.scale p)
    refine (C34_gradient hd').congr_fderiv ?_
    rw [hg i a, (hpp i a).1, (hpp i a).2]
    have d1 : deriv (fun x => lik'.varExp x var (Y i a)) m =
        v.scale p * deriv (fun x => v.likelihood.varExp x (var + R) (Y i a)) (m + c) := by
      show deriv (fun x => v.scale p * v.likelihood.varExp (x + c) (var + R) (Y i a)) m = _
      rw [deriv_const_mul_field, deriv_comp_add_const (fun x => v.likelihood.varExp x (var + R) (Y i a)) c m]
    have d2 : deriv (fun x => lik'.varExp m x (Y i a)) var =
        v.scale p * deriv (fun x => v.likelihood.varExp (m + c) x (Y i a)) (var + R) := by
      show deriv (fun x => v.scale p * v.likelihood.varExp (m + c) (x + R) (Y i a)) var = _
      rw [deriv_const_mul_field, deriv_comp_add_const (fun x => v.likelihood.varExp (m + c) x (Y i a)) R var]
    unfold localGradients gradMeanVarToExpectation
    simp only [d1, d2]
    rw [show m + c - c = m by ring]
    congr 2
    ring
  · rw [(hL s' hs').2, add_zero]
    congr 1
    refine Finset.sum_congr rfl fun i _ => ?_
    obtain ⟨e1, e2⟩ := pairing_single (projRow v.kernel X P i.1 i.2) (J i.1) s'
    beta_reduce
    rw [e1, e2, add_sub_cancel_right]

/-- C69: stochastic natural gradients are unbiased. For every partition of the data into minibatches, the minibatch gradients, averaged with
weights proportional to the sizes, give the gradient of the full objective; no assumption on the likelihood is needed. -/
theorem C69_unbiased {v : SVGP n o d} {k} (h : v.Valid k) (hN : v.numData = some N) {X : Fin N → ℝ}
    (h0 : ∀ j, -10000000000 < X j) (h1 : ∀ j, X j ≤ 10000000000) (Y : Fin N → Vec o) {B : ℕ} (size : Fin B → ℕ) (hs : ∀ b, 0 < size b)
    (hpos : 0 < N) (e : (Σ b, Fin (size b)) ≃ Fin N) {η : ExpPar n d} (hη : ssmToExpectations v.q = .ok η) {g : Fin B → ExpPar n d}
    (hg : ∀ b, IsGradient (lossOfExpectations (v.lossOf (fun i => X (e ⟨b, i⟩)) fun i => Y (e ⟨b, i⟩))) η (g b)) :
    IsGradient (lossOfExpectations (v.lossOf X Y)) η (∑ b, (size b / N : ℝ) • g b) := by
  obtain ⟨hc, -, -⟩ := Builds.good h.builds
  have e1 := ssmToExpectations_eq v.q h.q h.two hc.pos
  rw [hη] at e1
  obtain rfl : η = expPar v.q := Except.ok.inj e1
  obtain ⟨fx, P, T, hf, hst⟩ := SVGP.stats_ok h h0 h1
  obtain ⟨s, -, -, hL⟩ := SVGP.lossOf_formula h h0 h1 Y hst
  refine ⟨SymDiag.sum _ fun b => SymDiag.smul (hg b).1 _, fun hh hsym => ?_⟩
  have hcc : Continuous fun t : ℝ => expPar v.q + t • hh := by fun_prop
  obtain ⟨hev, -⟩ := ExpPar.path h.q (fun t => expPar v.q + t • hh) hcc.continuousAt (by rw [zero_smul, add_zero])
    (fun t => SymDiag.add (symDiag_expPar v.q) (SymDiag.smul hsym t))
  have hsum : HasDerivAt (fun t : ℝ => ∑ b, (size b / N : ℝ) *
      lossOfExpectations (v.lossOf (fun i => X (e ⟨b, i⟩)) fun i => Y (e ⟨b, i⟩)) (expPar v.q + t • hh))
      (∑ b, (size b / N : ℝ) * pairing (g b) hh) 0 :=
    HasDerivAt.fun_sum fun b _ => ((hg b).2 hh hsym).const_mul _
  rw [pairing_sum_left]
  simp only [pairing_smul_left]
  refine hsum.congr_of_eventuallyEq ?_
  filter_upwards [hev] with t ht
  obtain ⟨q', a, b, -⟩ := ht
  unfold lossOfExpectations
  rw [a]
  dsimp only
  obtain ⟨eb, f1, f2⟩ := C35_partition (v := { v with q := q' }) hN (hL q' b).1 size hs hpos e
  have hb : ∀ b, v.lossOf (fun i => X (e ⟨b, i⟩)) (fun i => Y (e ⟨b, i⟩)) q' = -eb b := fun b => by
    unfold SVGP.lossOf SVGP.loss
    rw [f1 b]; rfl
  simp only [hb, mul_neg, Finset.sum_neg_distrib]
  rw [f2, neg_neg]

theorem denseOf_sum {ι : Type*} (S : Finset ι) (w : ι → ℝ) (θ : ι → ExpPar n d) :
    denseOf (∑ i ∈ S, w i • θ i) = ∑ i ∈ S, w i • denseOf (θ i) := by
  classical
  have hz : denseOf (0 : ExpPar n d) = 0 := by
    have := denseOf_add_smul (0 : ExpPar n d) 0 1
    rw [smul_zero, add_zero, one_smul] at this
    exact left_eq_add.1 this
  induction S using Finset.induction_on with
  | empty => rw [Finset.sum_empty, Finset.sum_empty, hz]
  | insert i S hi ih => rw [Finset.sum_insert hi, Finset.sum_insert hi, add_comm, denseOf_add_smul, ih, add_comm]

/-- C69: in terms of steps. From the same `dist_q`, if the natural gradient steps on all minibatches of a partition succeed (no momentum), then
so does the step on the full data, and its natural parameters are the average of theirs, weighted by the sizes. -/
theorem C69_average_step {v : SVGP n o d} {k} (h : v.Valid k) (hN : v.numData = some N) {X : Fin N → ℝ}
    (h0 : ∀ j, -10000000000 < X j) (h1 : ∀ j, X j ≤ 10000000000) (Y : Fin N → Vec o) {B : ℕ} (size : Fin B → ℕ) (hs : ∀ b, 0 < size b)
    (hpos : 0 < N) (e : (Σ b, Fin (size b)) ≃ Fin N) {η : ExpPar n d} (hη : ssmToExpectations v.q = .ok η) {gfull : ExpPar n d}
    {g : Fin B → ExpPar n d} (hg : ∀ b, IsGradient (lossOfExpectations (v.lossOf (fun i => X (e ⟨b, i⟩)) fun i => Y (e ⟨b, i⟩))) η (g b))
    (hgf : IsGradient (lossOfExpectations (v.lossOf X Y)) η gfull) (gθ : Fin B → ExpPar n d) (gθf : ExpPar n d)
    (opt : NatGrad n d) (hm : opt.momentum = false) {q : Fin B → SSM n d} (hq : ∀ b, opt.step v.q (g b) (gθ b) = .ok (opt, q b)) :
    ∃ q', opt.step v.q gfull gθf = .ok (opt, q') ∧ q'.Nondegenerate ∧
      ssmToNaturals q' = ∑ b, (size b / N : ℝ) • ssmToNaturals (q b) := by
  obtain ⟨hc, -, -⟩ := Builds.good h.builds
  have hu : gfull = ∑ b, (size b / N : ℝ) • g b := IsGradient.unique hgf (C69_unbiased h hN h0 h1 Y size hs hpos e hη hg)
  have hNr : (0 : ℝ) < N := by exact_mod_cast hpos
  have hcard : ∑ b, size b = N := by
    have := Fintype.card_congr e
    simpa using this
  have hw : ∑ b, (size b / N : ℝ) = 1 := by
    rw [← Finset.sum_div, ← Nat.cast_sum, hcard, div_self hNr.ne']
  have hstep : ∀ b, ProperNaturals (ssmToNaturals v.q - opt.gamma • g b) ∧ ssmToNaturals (q b) = ssmToNaturals v.q - opt.gamma • g b := fun b => by
    obtain ⟨s1, s2⟩ := C39_step opt hm h.q h.two hc.pos (g b) (gθ b) (hg b).1
    by_cases hP : ProperNaturals (ssmToNaturals v.q - opt.gamma • g b)
    · obtain ⟨q2, f1, -, f3⟩ := s1 hP
      rw [hq b] at f1
      obtain rfl : q b = q2 := congrArg Prod.snd (Except.ok.inj f1)
      exact ⟨hP, f3⟩
    · rw [hq b] at s2; cases s2 hP
  have hθ : ssmToNaturals v.q - opt.gamma • gfull = ∑ b, (size b / N : ℝ) • (ssmToNaturals v.q - opt.gamma • g b) := by
    simp only [smul_sub, Finset.sum_sub_distrib]
    rw [← Finset.sum_smul, hw, one_smul, hu, Finset.smul_sum]
    congr 1
    exact Finset.sum_congr rfl fun b _ => smul_comm _ _ _
  have hB : Nonempty (Fin B) := ⟨(e.symm ⟨0, hpos⟩).1⟩
  have hP : ProperNaturals (ssmToNaturals v.q - opt.gamma • gfull) := by
    show (denseOf (ssmToNaturals v.q - opt.gamma • gfull)).PosDef
    rw [hθ, denseOf_sum]
    refine Matrix.posDef_sum Finset.univ_nonempty fun b _ => ?_
    have hp : (denseOf (ssmToNaturals v.q - opt.gamma • g b)).PosDef := (hstep b).1
    have hsb : (0 : ℝ) < size b := by exact_mod_cast hs b
    exact hp.smul (div_pos hsb hNr)
  obtain ⟨q', f1, f2, f3⟩ := (C39_step opt hm h.q h.two hc.pos gfull gθf hgf.1).1 hP
  refine ⟨q', f1, f2, f3.trans (hθ.trans (Finset.sum_congr rfl fun b _ => by rw [(hstep b).2]))⟩

/-- C69: natural gradient steps on the sparse variational GP make progress. With the gradient `g` of `loss((X, Y))`: either `g = 0`, or all
steps with small enough rates succeed and strictly increase `elbo((X, Y))`. -/
theorem C69_progress {v : SVGP n o d} {k} (h : v.Valid k) (hlik : DifferentiableVarExp v.likelihood) {X : Fin p → ℝ}
    (h0 : ∀ j, -10000000000 < X j) (h1 : ∀ j, X j ≤ 10000000000) (hem : ∀ j a, v.kernel.emission (X j) a ≠ 0) (Y : Fin p → Vec o)
    {η g : ExpPar n d} (hη : ssmToExpectations v.q = .ok η) (hg : IsGradient (lossOfExpectations (v.lossOf X Y)) η g) (gθ : ExpPar n d) :
    g = 0 ∨ ∃ ε : ℝ, 0 < ε ∧ ∀ opt : NatGrad n d, opt.momentum = false → 0 < opt.gamma → opt.gamma < ε →
      ∃ q' e e', opt.step v.q g gθ = .ok (opt, q') ∧ v.elbo X Y = .ok e ∧ ({ v with q := q' } : SVGP n o d).elbo X Y = .ok e' ∧ e < e' := by
  obtain ⟨hco, -, -⟩ := Builds.good h.builds
  obtain ⟨s', η', fx, P, T, hs', hη', hf, hst, -, hgr⟩ := C69_gradient h hlik h0 h1 hem Y
  have hgr := hgr _ (fun _ _ => rfl) _ (fun _ _ => rfl)
  obtain rfl : η = η' := Except.ok.inj (hη.symm.trans hη')
  have hu := (C68_total_gradient h.q h.two hco.pos hη hgr).2 hg
  rw [← hu] at hgr
  by_cases hg0 : g = 0
  · exact .inl hg0
  refine .inr ?_
  obtain ⟨ε, hε, hs⟩ := C68_step (SVGP.ofLaw h h0 h1 Y hst) h.q h.two hco.pos hη hgr hg0 gθ
  refine ⟨ε, hε, fun opt hm hp1 hp2 => ?_⟩
  obtain ⟨q', a1, a2, a3⟩ := hs opt hm hp1 hp2
  obtain ⟨s, -, -, hL⟩ := SVGP.lossOf_formula h h0 h1 Y hst
  exact ⟨q', _, _, a1, (hL v.q h.q).1, (hL q' a2).1, by linarith⟩

/-- C69: Gaussian likelihood. There is a best variational distribution `q*`: the objective of every `q` is that of `q*` minus `KL(q ‖ q*)`; and
one natural gradient step of rate 1 reaches it from any `dist_q`; with rates in `[0, 1]` the natural parameters approach those of `q*`
geometrically. -/
theorem C69_gaussian {v : SVGP n o d} {k} (h : v.Valid k) {σ2 : ℝ} (hσ : 0 < σ2) (hlik : v.likelihood = gaussianLikelihood σ2)
    {X : Fin p → ℝ} (h0 : ∀ j, -10000000000 < X j) (h1 : ∀ j, X j ≤ 10000000000) (Y : Fin p → Vec o) :
    ∃ (qs : SSM n d) (E : ℝ), qs.Nondegenerate ∧
      (∀ s : SSM n d, s.Nondegenerate → klDiv s.law qs.law ≠ ⊤ ∧
        ({ v with q := s } : SVGP n o d).elbo X Y = .ok (E - (klDiv s.law qs.law).toReal)) ∧
      ∀ (grad : ℕ → SSM n d → ExpPar n d × ExpPar n d), GivesGradient (v.lossOf X Y) grad →
        ∀ opt : NatGrad n d, opt.momentum = false →
        (opt.gamma = 1 → ∃ q', opt.step v.q (grad 0 v.q).1 (grad 0 v.q).2 = .ok (opt, q') ∧ q'.law = qs.law) ∧
        (0 ≤ opt.gamma → opt.gamma ≤ 1 → ∀ M, ∃ q', NatGrad.steps grad M (opt, v.q) = .ok (opt, q') ∧
          ssmToNaturals q' - ssmToNaturals qs = (1 - opt.gamma) ^ M • (ssmToNaturals v.q - ssmToNaturals qs)) := by
  obtain ⟨hc, -, -⟩ := Builds.good h.builds
  obtain ⟨fx, P, T, hf, hst⟩ := SVGP.stats_ok h h0 h1
  obtain ⟨s, hs, hsn, hL⟩ := SVGP.lossOf_formula h h0 h1 Y hst
  have hsc : 0 ≤ v.scale p := by
    unfold SVGP.scale
    split
    · positivity
    · exact zero_le_one
  set W : Fin p × Fin o → Fin d ⊕ Fin d → ℝ := fun i => projRow v.kernel X P i.1 i.2 with hW
  set J : Fin p × Fin o → Fin (n + 2) := fun i => searchsortedLeft v.inducing (X i.1) with hJ
  set b1 : Fin p × Fin o → ℝ := fun i => v.scale p * ((Y i.1 i.2 - v.meanFunction (X i.1) i.2) / σ2) with hb1
  set b2 : ℝ := -(v.scale p / (2 * σ2)) with hb2
  have hb2n : b2 ≤ 0 := by
    rw [hb2, neg_nonpos]; positivity
  set t1 : PairVec n d := ∑ i, b1 i • Pi.single (J i) (W i) with ht1
  set t2 : PairMat n d := ∑ i, b2 • Pi.single (J i) (vecMulVec (W i) (W i)) with ht2
  have hsingle : ∀ i j, (b2 • (Pi.single (J i) (vecMulVec (W i) (W i)) : PairMat n d)) j = if j = J i then b2 • vecMulVec (W i) (W i) else 0 :=
    fun i j => by
      by_cases hj : j = J i
      · rw [if_pos hj, Pi.smul_apply, hj, Pi.single_eq_same]
      · rw [if_neg hj, Pi.smul_apply, Pi.single_eq_of_ne hj, smul_zero]
  have hsym : ∀ j, (t2 j)ᵀ = t2 j := fun j => by
    rw [ht2, Finset.sum_apply, transpose_sum]
    refine Finset.sum_congr rfl fun i _ => ?_
    rw [hsingle]
    split_ifs
    · rw [transpose_smul, transpose_vecMulVec]
    · exact transpose_zero
  have hneg : ∀ j x, x ⬝ᵥ (t2 j *ᵥ x) ≤ 0 := fun j x => by
    rw [ht2, Finset.sum_apply, sum_mulVec, dotProduct_sum]
    refine Finset.sum_nonpos fun i _ => ?_
    rw [hsingle]
    split_ifs
    · rw [smul_mulVec, dotProduct_smul, vecMulVec_mulVec]
      simp only [smul_eq_mul, MulOpposite.smul_eq_mul_unop, MulOpposite.unop_op, dotProduct_smul]
      rw [dotProduct_comm x]
      nlinarith [mul_self_nonneg (W i ⬝ᵥ x)]
    · rw [zero_mulVec, dotProduct_zero]
  obtain ⟨qs, hqs, hθ⟩ := exists_of_proper (SymDiag.add (symDiag_naturals hsn) (pairSiteNaturals_symDiag (t1 := t1) hsym))
    (proper_pairSites hsn t1 hsym hneg)
  set cst : ℝ := ∑ i : Fin p × Fin o, v.scale p * (-(1 / 2) * Real.log (2 * Real.pi) - 1 / 2 * Real.log σ2 -
    ((Y i.1 i.2 - v.meanFunction (X i.1) i.2) ^ 2 + restRow v.kernel v.inducing X P T i.1 i.2) / (2 * σ2)) with hcst
  set E : ℝ := cst - (s.logPdf 0 - qs.logPdf 0) * (-1) with hE
  have hLs : ∀ s' : SSM n d, s'.Nondegenerate → v.lossOf X Y s' = (klDiv s'.law qs.law).toReal + -E := fun s' hs' => by
    rw [(hL s' hs').2, (klDiv_natural hs' hsn).2, (klDiv_natural hs' hqs).2, hθ]
    have hpair : pairing (pairSiteNaturals t1 t2) (expPar s') = ∑ i, (b1 i * (W i ⬝ᵥ neighbours s'.mus (J i)) +
        b2 * (W i ⬝ᵥ ((pickMat (nbIdx d (J i)) * s'.Kd * (pickMat (nbIdx d (J i)))ᵀ) *ᵥ W i) + (W i ⬝ᵥ neighbours s'.mus (J i)) ^ 2)) := by
      rw [ht1, ht2, pairSiteNaturals_sum, pairing_sum_left]
      refine Finset.sum_congr rfl fun i _ => ?_
      obtain ⟨e1, e2⟩ := pairing_single (W i) (J i) s'
      have : pairSiteNaturals (b1 i • Pi.single (J i) (W i)) (b2 • Pi.single (J i) (vecMulVec (W i) (W i))) =
          b1 i • pairSiteNaturals (n := n) (Pi.single (J i) (W i)) 0 + b2 • pairSiteNaturals 0 (Pi.single (J i) (vecMulVec (W i) (W i))) := by
        rw [← pairSiteNaturals_smul, ← pairSiteNaturals_smul, ← pairSiteNaturals_add, smul_zero, smul_zero, add_zero, zero_add]
      rw [this, pairing_add_left, pairing_smul_left, pairing_smul_left, e1, e2]
    rw [← sub_sub, pairing_sub_left (_ - _), hpair, hE, hcst, hlik]
    have hterm : ∀ i : Fin p × Fin o, v.scale p * (gaussianLikelihood σ2).varExp
          (projRow v.kernel X P i.1 i.2 ⬝ᵥ neighbours s'.mus (searchsortedLeft v.inducing (X i.1)) + v.meanFunction (X i.1) i.2)
          (projRow v.kernel X P i.1 i.2 ⬝ᵥ ((pickMat (nbIdx d (searchsortedLeft v.inducing (X i.1))) * s'.Kd *
            (pickMat (nbIdx d (searchsortedLeft v.inducing (X i.1))))ᵀ) *ᵥ projRow v.kernel X P i.1 i.2) +
              restRow v.kernel v.inducing X P T i.1 i.2)
          (Y i.1 i.2) = v.scale p * (-(1 / 2) * Real.log (2 * Real.pi) - 1 / 2 * Real.log σ2 -
    ((Y i.1 i.2 - v.meanFunction (X i.1) i.2) ^ 2 + restRow v.kernel v.inducing X P T i.1 i.2) / (2 * σ2)) +
      (b1 i * (W i ⬝ᵥ neighbours s'.mus (J i)) +
        b2 * (W i ⬝ᵥ ((pickMat (nbIdx d (J i)) * s'.Kd * (pickMat (nbIdx d (J i)))ᵀ) *ᵥ W i) + (W i ⬝ᵥ neighbours s'.mus (J i)) ^ 2)) := fun i => by
      simp only [hb1, hb2, hW, hJ]
      unfold gaussianLikelihood
      field_simp
      ring
    rw [Finset.sum_congr rfl fun i _ => hterm i, Finset.sum_add_distrib]
    ring
  refine ⟨qs, E, hqs, fun s' hs' => ⟨(klDiv_natural hs' hqs).1, ?_⟩, fun grad hgrad opt hm => ⟨fun hr => ?_, fun hr0 hr1 M => ?_⟩⟩
  · rw [(hL s' hs').1, hLs s' hs']
    congr 1; ring
  · exact C39_conjugate_one_step h.q hqs h.two hc.pos hLs hgrad opt hm hr
  · obtain ⟨q', a1, a2, a3, -⟩ := C39_conjugate h.q hqs h.two hc.pos hLs hgrad opt hm hr0 hr1 M
    refine ⟨q', a1, ?_⟩
    rw [a3]; module

/-- Non-vacuity: a Matérn 3/2 kernel, Poisson likelihood, a mean function, three inducing points, five data in two minibatches of two and three:
the hypotheses hold and all gradients exist. -/
example : ∃ (v : SVGP 2 1 2) (k : ℝ → ℝ → Mat 1 1) (X : Fin 5 → ℝ) (Y : Fin 5 → Vec 1) (η gfull : ExpPar 2 2) (size : Fin 2 → ℕ)
    (e : (Σ b, Fin (size b)) ≃ Fin 5) (g : Fin 2 → ExpPar 2 2), v.Valid k ∧ DifferentiableVarExp v.likelihood ∧
    (∀ j, -10000000000 < X j) ∧ (∀ j, X j ≤ 10000000000) ∧ (∀ j a, v.kernel.emission (X j) a ≠ 0) ∧ v.numData = some 5 ∧
    size = ![2, 3] ∧ v.meanFunction 1 ≠ 0 ∧ ssmToExpectations v.q = .ok η ∧ IsGradient (lossOfExpectations (v.lossOf X Y)) η gfull ∧
    ∀ b, IsGradient (lossOfExpectations (v.lossOf (fun i => X (e ⟨b, i⟩)) fun i => Y (e ⟨b, i⟩))) η (g b) := by
  obtain ⟨K, hK⟩ := (C28_constructors (o := 1) 2 3 1 1 1 0).2.1.2 (by norm_num)
  have hv : ∃ k, SVGP.Valid (⟨K, poissonLikelihood, ![0, 1, 3], fun t => ![t], some 5,
      ⟨![1, 0], 1, fun _ => 1, fun _ => 0, fun _ => 1⟩⟩ : SVGP 2 1 2) k := by
    refine ⟨_, .leaf (.matern32 hK), .matern32 hK, by rw [(kernelInit_ok hK).2.2]; rfl, ?_, ?_, ?_, by norm_num, ?_⟩
    · refine Fin.strictMono_iff_lt_succ.2 fun i => ?_
      fin_cases i <;> simp
    · show -10000000000 < (0 : ℝ); norm_num
    · show (3 : ℝ) ≤ 10000000000; norm_num
    · intro i
      refine Fin.cases ?_ (fun i => ?_) i <;>
      exact ⟨fun a b hab => Matrix.one_apply_ne hab.ne, fun a => (Matrix.one_apply_eq (α := ℝ) a).trans_ne one_ne_zero⟩
  obtain ⟨k, hv⟩ := hv
  have hem : ∀ (t : ℝ) (a : Fin 1), K.emission t a ≠ 0 := fun t a h0 => by
    have : K.emission t 0 0 = 0 := by rw [Subsingleton.elim a 0] at h0; exact congrFun h0 0
    rw [(kernelInit_ok hK).2.2] at this
    simp [Stationary.base, sdeEmission] at this
  have h0 : ∀ j : Fin 5, (-10000000000 : ℝ) < ![2, 1 / 2, 0, 3, 1] j := fun j => by fin_cases j <;> simp <;> norm_num
  have h1 : ∀ j : Fin 5, (![2, 1 / 2, 0, 3, 1] : Fin 5 → ℝ) j ≤ 10000000000 := fun j => by fin_cases j <;> simp <;> norm_num
  obtain ⟨hco, -, -⟩ := Builds.good hv.builds
  have hgr : ∀ {p : ℕ} (X : Fin p → ℝ) (Y : Fin p → Vec 1), (∀ j, -10000000000 < X j) → (∀ j, X j ≤ 10000000000) → ∃ g,
      IsGradient (lossOfExpectations ((⟨K, poissonLikelihood, ![0, 1, 3], fun t => ![t], some 5,
      ⟨![1, 0], 1, fun _ => 1, fun _ => 0, fun _ => 1⟩⟩ : SVGP 2 1 2).lossOf X Y))
        (expPar (⟨![1, 0], 1, fun _ => 1, fun _ => 0, fun _ => 1⟩ : SSM 2 2)) g := fun X Y a0 a1 => by
    obtain ⟨s', η, fx, P, T, hs', hη, hf, hst, -, hgr⟩ := C69_gradient hv poisson_differentiable a0 a1 (fun _ => hem _) Y
    have e := ssmToExpectations_eq _ hv.q hv.two hco.pos
    rw [hη] at e
    have := isGradient_of_total hv.q hv.two hco.pos hη (hgr _ (fun _ _ => rfl) _ fun _ _ => rfl)
    rw [Except.ok.inj e] at this
    exact ⟨_, this⟩
  obtain ⟨gf, hgf⟩ := hgr ![2, 1 / 2, 0, 3, 1] (fun i => ![(i : ℝ)]) h0 h1
  have e : (Σ b, Fin ((![2, 3] : Fin 2 → ℕ) b)) ≃ Fin 5 := Fintype.equivFinOfCardEq (by simp)
  choose g hg using fun b : Fin 2 => hgr (fun i => ![2, 1 / 2, 0, 3, 1] (e ⟨b, i⟩)) (fun i => ![((e ⟨b, i⟩ : Fin 5) : ℝ)])
    (fun _ => h0 _) (fun _ => h1 _)
  exact ⟨_, k, _, _, _, gf, _, e, g, hv, poisson_differentiable, h0, h1, fun _ => hem _, rfl, rfl,
    fun h => by have := congrFun h 0; simp at this, ssmToExpectations_eq _ hv.q hv.two hco.pos, hgf, hg⟩

end MF
