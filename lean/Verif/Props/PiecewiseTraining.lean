import Verif.Props.PiecewiseVariational
import Verif.Props.NatGradConvergence

/-!
# C83: training variational and CVI models over a piecewise kernel
-/

namespace MF
open Matrix Spec MeasureTheory ProbabilityTheory InformationTheory Filter Topology
variable {n d o p m : ℕ}

section vgp
variable {ker : Fin (m + 1) → Stationary o d} {k : Fin (m + 1) → ℝ → ℝ → Mat o o} {cp : Fin m → ℝ}

/-- The value of `loss()` as a function of `dist_q`. -/
noncomputable def PWVGP.lossOf (v : PWVGP n o d) (s : SSM n d) : ℝ :=
  match ({ v with q := s } : PWVGP n o d).loss with
  | .ok x => x
  | .error _ => 0

theorem PWVGP.lossOf_eq {v : PWVGP n o d} (h : PWValid ker k cp v.kernel v.times) : ∃ p : SSM n d, v.distP = .ok p ∧
    p.Nondegenerate ∧ stk p.mus = 0 ∧ ∀ s : SSM n d, s.Nondegenerate → ({ v with q := s } : PWVGP n o d).elbo = .ok (-v.lossOf s) ∧
      v.lossOf s = (klDiv s.law p.law).toReal -
      ∑ i : Fin (n + 1) × Fin o, v.likelihood.varExp
        ((pwEmission ker cp (v.times i.1) *ᵥ s.mus i.1) i.2 + v.meanFunction (v.times i.1) i.2)
        ((pwEmission ker cp (v.times i.1) * blk s.Kd i.1 i.1 * (pwEmission ker cp (v.times i.1))ᵀ) i.2 i.2)
        (v.observations i.1 i.2) := by
  obtain ⟨p, hp, hnd, h0, -⟩ := h.ssm
  refine ⟨p, hp, hnd, h0, fun s hs => ?_⟩
  obtain ⟨kl, hkl, hkl', hkl0, -⟩ := C13_kl_divergence s p hs hnd h.two (h.core 0).pos
  obtain ⟨f, hf, hfv⟩ := PWValid.predict_ok (c := ({ v with q := s } : PWVGP n o d).posterior) h hs
  have he : ({ v with q := s } : PWVGP n o d).elbo = .ok ((∑ i, v.likelihood.varExps (f i).1 (f i).2 (v.observations i)) - kl) := by
    unfold PWVGP.elbo PWVGP.distP
    simp only [show ({ v with q := s } : PWVGP n o d).posterior.times = v.times from rfl] at hf
    rw [hf, hp]
    simp only [Bind.bind, Except.bind, hkl, Pure.pure, Except.pure]
  have hl : v.lossOf s = -((∑ i, v.likelihood.varExps (f i).1 (f i).2 (v.observations i)) - kl) := by
    unfold PWVGP.lossOf PWVGP.loss
    rw [he]; rfl
  rw [hl, neg_neg]
  refine ⟨he, ?_⟩
  rw [show klDiv s.law p.law = ENNReal.ofReal kl from hkl', ENNReal.toReal_ofReal hkl0, neg_sub, Fintype.sum_prod_type]
  congr 1
  refine Finset.sum_congr rfl fun i _ => Finset.sum_congr rfl fun a _ => ?_
  rw [(hfv i a).1, (hfv i a).2, outMat_conj_diag]
  rfl

/-- C83: the gradient of `loss()` with respect to the expectation parameters of `dist_q`: the natural parameters of `dist_q` minus those of the
piecewise prior with one Gaussian site per output, built from the derivatives of the variational expectations. -/
theorem C83_gradient {v : PWVGP n o d} (h : PWValid ker k cp v.kernel v.times) (hq : v.q.Nondegenerate)
    (hlik : DifferentiableVarExp v.likelihood) (hem : ∀ t a, pwEmission ker cp (v.times t) a ≠ 0) :
    ∃ (p : SSM n d) (η : ExpPar n d) (m var : Fin (n + 1) → Vec o),
      v.distP = .ok p ∧ ssmToExpectations v.q = .ok η ∧
      (∀ t a, 0 < var t a ∧ v.q.law.map (fun x => (pwEmission ker cp (v.times t) *ᵥ unstk x t) a) =
        gaussianReal (m t a) (var t a).toNNReal) ∧
      IsTotalGradient (lossOfExpectations v.lossOf) η (ssmToNaturals v.q - (ssmToNaturals p +
        siteNaturals (fun t => pwEmission ker cp (v.times t))
          (fun t a => deriv (fun x => v.likelihood.varExp x (var t a) (v.observations t a)) (m t a + v.meanFunction (v.times t) a) -
            2 * deriv (fun x => v.likelihood.varExp (m t a + v.meanFunction (v.times t) a) x (v.observations t a)) (var t a) * m t a)
          (fun t a => deriv (fun x => v.likelihood.varExp (m t a + v.meanFunction (v.times t) a) x (v.observations t a)) (var t a)))) := by
  obtain ⟨p, hp, hpn, -, hL⟩ := PWVGP.lossOf_eq h
  set H : Fin (n + 1) → Mat o d := fun t => pwEmission ker cp (v.times t) with hH
  refine ⟨p, expPar v.q, fun t a => (H t *ᵥ v.q.mus t) a, fun t a => (H t * blk v.q.Kd t t * (H t)ᵀ) a a, hp,
    ssmToExpectations_eq v.q hq h.two (h.core 0).pos, fun t a => ⟨out_var_pos hq (hem t a) t, ?_⟩, ?_⟩
  · have hC : (outMat (pwOut ker cp) v.times * v.q.Kd * (outMat (pwOut ker cp) v.times)ᵀ).PosSemidef := posSemidef_conj' v.q.Kd_posSemidef _
    have := congrArg (fun μ => μ.map fun x : Fin (n + 1) × Fin o → ℝ => x (t, a)) (latentOf_gauss (pwOut ker cp) (fun _ => 0) v.times v.q)
    rw [gaussLaw_eval hC, Measure.map_map (measurable_pi_apply _) (measurable_latentOf _ _ _), outMat_conj_diag] at this
    simp only [Pi.zero_apply, add_zero] at this
    refine Eq.trans ?_ this
    congr 1
    funext x
    simp [latentOf, pwOut]
  · rw [← sub_sub, siteNaturals_split]
    refine totalGradient_elbo hq hpn (c := 0) (α := fun i => siteNaturals H (unitSite i) 0) (β := fun i => siteNaturals H 0 (unitSite i))
      (g := fun i : Fin (n + 1) × Fin o => (_, _)) (F := fun i e => v.likelihood.varExp (e.1 + v.meanFunction (v.times i.1) i.2) (e.2 - e.1 ^ 2)
        (v.observations i.1 i.2)) (fun i => siteNaturals_symDiag _ _ _) (fun i => siteNaturals_symDiag _ _ _) (fun i => ?_) fun s hs => ?_
    · obtain ⟨e1, e2⟩ := pairing_unitSite H i v.q
      rw [e1, e2]
      obtain ⟨t, a⟩ := i
      have hd := (hlik ((H t *ᵥ v.q.mus t) a + v.meanFunction (v.times t) a) _ (v.observations t a) (out_var_pos hq (hem t a) t)).hasFDerivAt
      set lik' : ScalarLikelihood := ⟨v.likelihood.logProb, fun m s y => v.likelihood.varExp (m + v.meanFunction (v.times t) a) s y⟩ with hl
      have hsh : HasFDerivAt (fun x : ℝ × ℝ => (x.1 + v.meanFunction (v.times t) a, x.2))
          ((ContinuousLinearMap.fst ℝ ℝ ℝ).prod (ContinuousLinearMap.snd ℝ ℝ ℝ))
          ((H t *ᵥ v.q.mus t) a, (H t * blk v.q.Kd t t * (H t)ᵀ) a a) :=
        (hasFDerivAt_fst.add_const _).prodMk hasFDerivAt_snd
      have hd' : HasFDerivAt (fun x : ℝ × ℝ => lik'.varExp x.1 x.2 (v.observations t a)) _
          ((H t *ᵥ v.q.mus t) a, (H t * blk v.q.Kd t t * (H t)ᵀ) a a) :=
        HasFDerivAt.comp (g := fun x : ℝ × ℝ => v.likelihood.varExp x.1 x.2 (v.observations t a))
          (f := fun x : ℝ × ℝ => (x.1 + v.meanFunction (v.times t) a, x.2)) ((H t *ᵥ v.q.mus t) a, (H t * blk v.q.Kd t t * (H t)ᵀ) a a) hd hsh
      refine (C34_gradient hd').congr_fderiv ?_
      unfold localGradients gradMeanVarToExpectation
      have ed := deriv_comp_add_const (fun x => v.likelihood.varExp x ((H t * blk v.q.Kd t t * (H t)ᵀ) a a) (v.observations t a))
        (v.meanFunction (v.times t) a) ((H t *ᵥ v.q.mus t) a)
      simp only [hl, ed]
      rfl
    · rw [(hL s hs).2, add_zero]
      congr 1
      refine Finset.sum_congr rfl fun i _ => ?_
      obtain ⟨e1, e2⟩ := pairing_unitSite H i s
      beta_reduce
      rw [e1, e2, add_sub_cancel_right]

/-- the moments of neighbouring states that predictions use -/
noncomputable def nbMean (q : SSM n d) : Fin (n + 3) → Vec d := Fin.cons 0 (Fin.snoc (α := fun _ => Vec d) q.mus 0)
/-- the moments of neighbouring states that predictions use -/
noncomputable def nbCov (P0 : Mat d d) (q : SSM n d) : Fin (n + 3) → Mat d d :=
  Fin.cons P0 (Fin.snoc (α := fun _ => Mat d d) (fun k => blk q.Kd k k) P0)
/-- the moments of neighbouring states that predictions use -/
noncomputable def nbSub (q : SSM n d) : Fin (n + 2) → Mat d d :=
  Fin.cons 0 (Fin.snoc (α := fun _ => Mat d d) (fun k : Fin n => blk q.Kd k.succ k.castSucc) 0)

theorem nb_tendsto {run : ℕ → SSM n d} {best : SSM n d} (P0 : Mat d d) (h1 : Tendsto (fun N => (run N).mus) atTop (𝓝 best.mus))
    (h2 : Tendsto (fun N => (run N).Kd) atTop (𝓝 best.Kd)) : (∀ i, Tendsto (fun N => nbMean (run N) i) atTop (𝓝 (nbMean best i))) ∧
    (∀ i, Tendsto (fun N => nbCov P0 (run N) i) atTop (𝓝 (nbCov P0 best i))) ∧ ∀ i, Tendsto (fun N => nbSub (run N) i) atTop (𝓝 (nbSub best i)) := by
  have hent : ∀ i j, Tendsto (fun N => (run N).Kd i j) atTop (𝓝 (best.Kd i j)) := fun i j =>
    ((continuous_apply_apply i j).continuousAt.tendsto.comp h2)
  refine ⟨fun i => ?_, fun i => ?_, fun i => ?_⟩
  · refine Fin.cases ?_ (fun i => Fin.lastCases ?_ (fun i => ?_) i) i
    · exact tendsto_const_nhds
    · simp only [nbMean, Fin.cons_succ, Fin.snoc_last]; exact tendsto_const_nhds
    · simp only [nbMean, Fin.cons_succ, Fin.snoc_castSucc]
      exact (continuous_apply i).continuousAt.tendsto.comp h1
  · refine Fin.cases ?_ (fun i => Fin.lastCases ?_ (fun i => ?_) i) i
    · exact tendsto_const_nhds
    · simp only [nbCov, Fin.cons_succ, Fin.snoc_last]; exact tendsto_const_nhds
    · simp only [nbCov, Fin.cons_succ, Fin.snoc_castSucc]
      exact tendsto_pi_nhds.2 fun a => tendsto_pi_nhds.2 fun b => hent _ _
  · refine Fin.cases ?_ (fun i => Fin.lastCases ?_ (fun i => ?_) i) i
    · exact tendsto_const_nhds
    · simp only [nbSub, Fin.cons_succ, Fin.snoc_last]; exact tendsto_const_nhds
    · simp only [nbSub, Fin.cons_succ, Fin.snoc_castSucc]
      exact tendsto_pi_nhds.2 fun a => tendsto_pi_nhds.2 fun b => hent _ _

/-- the value of `predict_state` -/
noncomputable def nbPredict (P0 : Mat d d) (P : Matrix (Fin d) (Fin d ⊕ Fin d) ℝ) (T : Mat d d) (i : Fin (n + 2)) (q : SSM n d) : Vec d × Mat d d :=
  (P.toCols₁ *ᵥ nbMean q i.castSucc + P.toCols₂ *ᵥ nbMean q i.succ,
    T + P * fromBlocks (nbCov P0 q i.castSucc) (nbSub q i)ᵀ (nbSub q i) (nbCov P0 q i.succ) * Pᵀ)

theorem nbPredict_tendsto {run : ℕ → SSM n d} {best : SSM n d} (P0 : Mat d d) (h1 : Tendsto (fun N => (run N).mus) atTop (𝓝 best.mus))
    (h2 : Tendsto (fun N => (run N).Kd) atTop (𝓝 best.Kd)) (P : Matrix (Fin d) (Fin d ⊕ Fin d) ℝ) (T : Mat d d) (i : Fin (n + 2)) :
    Tendsto (fun N => nbPredict P0 P T i (run N)) atTop (𝓝 (nbPredict P0 P T i best)) := by
  obtain ⟨tm, tC, tS⟩ := nb_tendsto P0 h1 h2
  have := stats_tendsto ⟨P.toCols₁, P.toCols₂, T⟩ (tm i.castSucc) (tm i.succ) (tC i.castSucc) (tS i) (tC i.succ)
  simp only [fromCols_toCols] at this
  exact this

theorem pw_predict_parts (c : PWProcess n o d) (h : PWValid ker k cp c.kernel c.times) (hq : c.q.Nondegenerate)
    {new : Fin (p + 1) → ℝ} (hnew : Monotone new) (n0 : ∀ j, c.times 0 ≤ new j) (n1 : ∀ j, new j ≤ c.times (Fin.last n)) :
    ∃ P0 P T idx, c.kernel.initialCovarianceAtFirst approxInf new = .ok P0 ∧
      c.kernel.conditionalStatisticsAux approxInf new c.times = .ok (P, T, idx) := by
  obtain ⟨r, h3, -⟩ := C57_predict_state h hq hnew n0 n1
  unfold PWProcess.predictState Piecewise.conditionalPredict at h3
  cases e0 : c.kernel.initialCovarianceAtFirst approxInf new with
  | error e => rw [e0] at h3; cases h3
  | ok P0 =>
    cases e1 : c.kernel.conditionalStatisticsAux approxInf new c.times with
    | error e =>
      obtain ⟨mu, C, S, hpw, -⟩ := pairwiseMarginals_eq hq h.two (h.core 0).pos 0 P0
      rw [e0, e1] at h3
      simp only [Bind.bind, Except.bind, hpw] at h3
      cases h3
    | ok x => exact ⟨P0, x.1, x.2.1, x.2.2, rfl, rfl⟩

theorem pw_predict_value (c : PWProcess n o d) (h : PWValid ker k cp c.kernel c.times)
    {new : Fin (p + 1) → ℝ} {P0 P T idx} (hP0 : c.kernel.initialCovarianceAtFirst approxInf new = .ok P0)
    (hst : c.kernel.conditionalStatisticsAux approxInf new c.times = .ok (P, T, idx)) {q : SSM n d} (hq : q.Nondegenerate) :
    ({ c with q := q } : PWProcess n o d).predictState new = .ok fun j => nbPredict P0 (P j) (T j) (idx j) q := by
  obtain ⟨mu', C', S', hpw, hmu', hC', hS'⟩ := pairwiseMarginals_eq hq h.two (h.core 0).pos 0 P0
  unfold PWProcess.predictState Piecewise.conditionalPredict
  dsimp only
  rw [hP0, hst]
  simp only [Bind.bind, Except.bind, hpw, Pure.pure, Except.pure]
  refine congrArg Except.ok (funext fun j => ?_)
  unfold baseConditionalPredict nbPredict nbMean nbCov nbSub
  rw [hmu', hC', hS']
  refine Prod.ext ?_ rfl
  dsimp only
  conv_lhs => rw [← fromCols_toCols (P j), fromCols_mulVec]
  rfl

theorem proj_tendsto (H : Mat o d) (b : Vec o) {R : ℕ → Vec d × Mat d d} {R' : Vec d × Mat d d} (tR : Tendsto R atTop (𝓝 R')) :
    Tendsto (fun N => ((H *ᵥ (R N).1 + b, H * (R N).2 * Hᵀ) : Vec o × Mat o o)) atTop (𝓝 (H *ᵥ R'.1 + b, H * R'.2 * Hᵀ)) := by
  have a1 : ∀ a, Tendsto (fun N => (R N).1 a) atTop (𝓝 (R'.1 a)) := fun a =>
    (((continuous_apply a).comp continuous_fst).tendsto R').comp tR
  have a2 : ∀ a b, Tendsto (fun N => (R N).2 a b) atTop (𝓝 (R'.2 a b)) := fun a b =>
    (((continuous_apply_apply a b).comp continuous_snd).tendsto R').comp tR
  refine Tendsto.prodMk_nhds (Tendsto.add_const _ ?_) ?_
  · refine tendsto_pi_nhds.2 fun a => ?_
    simp only [mulVec, dotProduct]
    exact tendsto_finsetSum _ fun i _ => (a1 i).const_mul _
  · refine tendsto_pi_nhds.2 fun a => tendsto_pi_nhds.2 fun b => ?_
    simp only [Matrix.mul_apply]
    exact tendsto_finsetSum _ fun i _ => Tendsto.mul_const _ (tendsto_finsetSum _ fun l _ => (a2 _ _).const_mul _)

theorem pw_predictF_value (c : PWProcess n o d) (h : PWValid ker k cp c.kernel c.times)
    {new : Fin (p + 1) → ℝ} (hnew : Monotone new) (n0 : ∀ j, c.times 0 ≤ new j) (n1 : ∀ j, new j ≤ c.times (Fin.last n))
    {P0 P T idx} (hP0 : c.kernel.initialCovarianceAtFirst approxInf new = .ok P0)
    (hst : c.kernel.conditionalStatisticsAux approxInf new c.times = .ok (P, T, idx)) {q : SSM n d} (hq : q.Nondegenerate) :
    ({ c with q := q } : PWProcess n o d).predictF new = .ok fun j =>
      (pwEmission ker cp (new j) *ᵥ (nbPredict P0 (P j) (T j) (idx j) q).1 + c.meanFunction (new j),
      pwEmission ker cp (new j) * (nbPredict P0 (P j) (T j) (idx j) q).2 * (pwEmission ker cp (new j))ᵀ) := by
  obtain ⟨f, hf, hfv⟩ := (PWValid.predictF (c := { c with q := q }) h hnew n0 n1 (pw_predict_value c h hP0 hst hq)).1
  rw [hf]
  exact congrArg Except.ok (funext fun j => Prod.ext (hfv j).1 (hfv j).2)

/-- The predictions of a process over a piecewise kernel depend continuously on the moments of its states. -/
theorem pw_predict_tendsto (c : PWProcess n o d) (h : PWValid ker k cp c.kernel c.times) {run : ℕ → SSM n d} {best : SSM n d}
    (hr : ∀ N, (run N).Nondegenerate) (hb : best.Nondegenerate)
    (h1 : Tendsto (fun N => (run N).mus) atTop (𝓝 best.mus)) (h2 : Tendsto (fun N => (run N).Kd) atTop (𝓝 best.Kd))
    {new : Fin (p + 1) → ℝ} (hnew : Monotone new) (n0 : ∀ j, c.times 0 ≤ new j) (n1 : ∀ j, new j ≤ c.times (Fin.last n)) :
    ∃ (f : ℕ → Fin (p + 1) → Vec o × Mat o o) (f' : Fin (p + 1) → Vec o × Mat o o),
      (∀ N, ({ c with q := run N } : PWProcess n o d).predictF new = .ok (f N)) ∧ ({ c with q := best } : PWProcess n o d).predictF new = .ok f' ∧
      Tendsto f atTop (𝓝 f') := by
  obtain ⟨P0, P, T, idx, hP0, hst⟩ := pw_predict_parts { c with q := best } h hb hnew n0 n1
  exact ⟨_, _, fun N => pw_predictF_value c h hnew n0 n1 hP0 hst (hr N), pw_predictF_value c h hnew n0 n1 hP0 hst hb,
    tendsto_pi_nhds.2 fun j => proj_tendsto _ _ (nbPredict_tendsto P0 h1 h2 (P j) (T j) (idx j))⟩

/-- C83: natural gradient training over a piecewise kernel converges to the optimum. With a log-concave, smooth likelihood there is one best Gaussian
Markov distribution, and for every initial `dist_q` there is a positive rate such that with that or any smaller `gamma` every step succeeds, `elbo()` never
decreases and converges to the best value, and the natural parameters, the marginals and all predictions `predict_f` (at sorted times within the range of the
data) converge to those of the best distribution. -/
theorem C83_vgp_converges {v : PWVGP n o d} (h : PWValid ker k cp v.kernel v.times) (he : ExactLikelihood v.likelihood)
    (hl : LogConcaveLikelihood v.likelihood) (hs : SmoothVarExp v.likelihood) (hem : ∀ t a, pwEmission ker cp (v.times t) a ≠ 0) :
    ∃ (best : SSM n d) (e : ℝ), best.Nondegenerate ∧ ({ v with q := best } : PWVGP n o d).elbo = .ok e ∧
      (∀ s : SSM n d, s.Nondegenerate → ∃ e', ({ v with q := s } : PWVGP n o d).elbo = .ok e' ∧ e' ≤ e ∧ (e' = e → s.law = best.law)) ∧
      ∀ q₀ : SSM n d, q₀.Nondegenerate →
      ∃ γ₀ : ℝ, 0 < γ₀ ∧ ∀ grad : ℕ → SSM n d → ExpPar n d × ExpPar n d, GivesGradient v.lossOf grad →
        ∀ opt : NatGrad n d, opt.momentum = false → 0 < opt.gamma → opt.gamma ≤ γ₀ → ∃ (run : ℕ → SSM n d) (b : ℕ → ℝ)
          (m : ℕ → (Fin (n + 1) → Vec d) × (Fin (n + 1) → Mat d d)) (m' : (Fin (n + 1) → Vec d) × (Fin (n + 1) → Mat d d)),
          (∀ N, NatGrad.steps grad N (opt, q₀) = .ok (opt, run N)) ∧ (∀ N, ({ v with q := run N } : PWVGP n o d).elbo = .ok (b N)) ∧
          Monotone b ∧ Tendsto b atTop (𝓝 e) ∧ Tendsto (fun N => ssmToNaturals (run N)) atTop (𝓝 (ssmToNaturals best)) ∧
          (∀ N, (run N).marginals = .ok (m N)) ∧ best.marginals = .ok m' ∧ Tendsto m atTop (𝓝 m') ∧
          ∀ (p : ℕ) (new : Fin (p + 1) → ℝ), Monotone new → (∀ j, v.times 0 ≤ new j) → (∀ j, new j ≤ v.times (Fin.last n)) →
            ∃ (f : ℕ → Fin (p + 1) → Vec o × Mat o o) (f' : Fin (p + 1) → Vec o × Mat o o),
              (∀ N, ({ v with q := run N } : PWVGP n o d).posterior.predictF new = .ok (f N)) ∧
              ({ v with q := best } : PWVGP n o d).posterior.predictF new = .ok f' ∧ Tendsto f atTop (𝓝 f') := by
  have hd := (h.core 0).pos
  obtain ⟨p, hp, hpn, -, hL⟩ := PWVGP.lossOf_eq h
  set H : Fin (n + 1) → Mat o d := fun t => pwEmission ker cp (v.times t) with hH
  obtain ⟨best, hb, hmax, hrun⟩ := NatDyn.natgrad_converges (p := p) he hl hs h.two hd hpn (ι := Fin (n + 1) × Fin o) (outRow H)
    (α := fun i => siteNaturals H (unitSite i) 0) (β := fun i => siteNaturals H 0 (unitSite i))
    (κ := fun _ => 1) (b := fun i => v.meanFunction (v.times i.1) i.2) (r := fun _ => 0) (y := fun i => v.observations i.1 i.2) (L := v.lossOf)
    (fun i => siteNaturals_symDiag _ _ _) (fun i => siteNaturals_symDiag _ _ _)
    (fun i s => by rw [(pairing_unitSite H i s).1, outRow_mean]) (fun i s => by rw [(pairing_unitSite H i s).2, outRow_mean, outRow_var])
    (fun i => denseOf_unitSite1 H i) (fun i => denseOf_unitSite H i)
    (fun i => by
      funext t
      show (H t)ᵀ *ᵥ (0 : Vec o) = 0
      rw [mulVec_zero]) (fun _ => zero_le_one) (fun _ => le_rfl)
    (fun s hs i => by rw [outRow_var, add_zero]; exact out_var_pos hs (hem i.1 i.2) i.1)
    (fun s hs => by
      rw [(hL s hs).2]
      congr 1
      refine Finset.sum_congr rfl fun i _ => ?_
      rw [outRow_mean, outRow_var, one_mul, add_zero])
  have hel := fun s hs => (hL s hs).1
  refine ⟨best, -v.lossOf best, hb, hel best hb, fun s hs => ⟨_, hel s hs, neg_le_neg (hmax s hs).1, fun e => (hmax s hs).2 (neg_injective e)⟩, fun q₀ hq₀ => ?_⟩
  obtain ⟨γ₀, g0, -, hr⟩ := hrun q₀ hq₀
  refine ⟨γ₀, g0, fun grad hgrad opt hm h0 h1 => ?_⟩
  obtain ⟨run, r1, r2, r3, r4, r5, r6, r7⟩ := hr grad hgrad opt hm h0 h1
  refine ⟨run, fun N => -v.lossOf (run N), fun N => ((run N).mus, fun t => blk (run N).Kd t t), (best.mus, fun t => blk best.Kd t t), r1,
    fun N => hel _ (r2 N), fun i j hij => neg_le_neg (r3 hij), r4.neg, r5, fun N => SSM.marginals_eq (r2 N) h.two hd, SSM.marginals_eq hb h.two hd,
    r6.prodMk_nhds ?_, fun p new hnew n0 n1 => ?_⟩
  · exact tendsto_pi_nhds.2 fun t => tendsto_pi_nhds.2 fun a => tendsto_pi_nhds.2 fun b =>
      (continuous_apply_apply (t, a) (t, b)).continuousAt.tendsto.comp r7
  · exact pw_predict_tendsto v.posterior h r2 hb r6 r7 hnew n0 n1

/-- C83: with a log-concave likelihood the gradient of `loss()` vanishes exactly at the best distribution. -/
theorem C83_vgp_stationary {v : PWVGP n o d} (h : PWValid ker k cp v.kernel v.times) (hq : v.q.Nondegenerate) (he : ExactLikelihood v.likelihood)
    (hl : LogConcaveLikelihood v.likelihood) (hd : DifferentiableVarExp v.likelihood) (hem : ∀ t a, pwEmission ker cp (v.times t) a ≠ 0) {η : ExpPar n d}
    (hη : ssmToExpectations v.q = .ok η) :
    ∃ e : SSM n d → ℝ, (∀ s : SSM n d, s.Nondegenerate → ({ v with q := s } : PWVGP n o d).elbo = .ok (e s)) ∧
      (IsGradient (lossOfExpectations v.lossOf) η 0 ↔ ∀ s : SSM n d, s.Nondegenerate → e s ≤ e v.q) ∧
      (IsGradient (lossOfExpectations v.lossOf) η 0 → ∀ s : SSM n d, s.Nondegenerate → e s = e v.q → s.law = v.q.law) := by
  have e1 := ssmToExpectations_eq v.q hq h.two (h.core 0).pos
  rw [hη] at e1
  obtain rfl : η = expPar v.q := Except.ok.inj e1
  obtain ⟨p, hp, hpn, -, hL⟩ := PWVGP.lossOf_eq h
  set H : Fin (n + 1) → Mat o d := fun t => pwEmission ker cp (v.times t) with hH
  obtain ⟨k1, k2⟩ := elbo_stationary (q := v.q) (p := p) he hl hd hq hpn (ι := Fin (n + 1) × Fin o) (outRow H)
    (α := fun i => siteNaturals H (unitSite i) 0) (β := fun i => siteNaturals H 0 (unitSite i))
    (κ := fun _ => 1) (b := fun i => v.meanFunction (v.times i.1) i.2) (r := fun _ => 0) (y := fun i => v.observations i.1 i.2) (L := v.lossOf)
    (fun i => siteNaturals_symDiag _ _ _) (fun i => siteNaturals_symDiag _ _ _)
    (fun i s => by rw [(pairing_unitSite H i s).1, outRow_mean]) (fun i s => by rw [(pairing_unitSite H i s).2, outRow_mean, outRow_var])
    (fun i => denseOf_unitSite1 H i) (fun i => denseOf_unitSite H i) (fun _ => zero_le_one) (fun _ => le_rfl)
    (fun i => by rw [outRow_var, add_zero]; exact out_var_pos hq (hem i.1 i.2) i.1)
    (fun s hs => by
      rw [(hL s hs).2]
      congr 1
      refine Finset.sum_congr rfl fun i _ => ?_
      rw [outRow_mean, outRow_var, one_mul, add_zero])
  refine ⟨fun s => -v.lossOf s, fun s hs => (hL s hs).1, ?_, ?_⟩
  · rw [k1]
    simp only [neg_le_neg_iff]
  · intro hg s hs hes
    exact k2 hg s hs (neg_injective hes)

end vgp

section cvi
variable {ker : Fin (m + 1) → Stationary 1 d} {k : Fin (m + 1) → ℝ → ℝ → Mat 1 1} {cp : Fin m → ℝ}

/-- The variational GP on the data of a CVI model, with the same kernel and likelihood, default mean function and distribution `q`. -/
def PWCVI.toVGP (c : PWCVI n d) (q : SSM n d) : PWVGP n 1 d := ⟨c.times, c.observations, c.kernel, c.likelihood, fun _ => 0, q⟩

/-- The natural parameters of `dist_q`: those of the prior plus the sites. -/
noncomputable def PWCVI.thetas (ker : Fin (m + 1) → Stationary 1 d) (cp : Fin m → ℝ) (c : PWCVI n d) (p : SSM n d) : ExpPar n d :=
  ssmToNaturals p + siteNaturals (fun t => pwEmission ker cp (c.times t)) c.sites.nat1 (fun t a => c.sites.nat2 t a 0)

theorem PWCVI.distQ_naturals {c : PWCVI n d} (h : PWValid ker k cp c.kernel c.times) {p : SSM n d} (hp : c.distP = .ok p)
    (hnd : p.Nondegenerate) (h0 : stk p.mus = 0) :
    c.distQ = naturalsToSSM (c.thetas ker cp p).1 (c.thetas ker cp p).2.1 (c.thetas ker cp p).2.2 := by
  unfold PWCVI.distQ
  rw [hp]
  simp only [Bind.bind, Except.bind, SSM.precision_eq hnd h.two, PWCVI.emissions_ok h, Option.getD_some]
  unfold PWCVI.thetas
  rw [ssmToNaturals_eq p hnd, h0, mulVec_zero]
  congr 1
  · funext t j
    show ∑ a, pwEmission ker cp (c.times t) a j * c.sites.nat1 t a = (0 : ℝ) + ((pwEmission ker cp (c.times t))ᵀ *ᵥ c.sites.nat1 t) j
    rw [zero_add]; rfl
  · funext t
    refine congrArg₂ (· + ·) rfl ?_
    ext i j
    simp only [backProjectNats, of_apply, siteNaturals, Matrix.mul_apply, Fin.sum_univ_one, transpose_apply, diagonal_apply, if_true]
    show _ = _ * _ * _
    unfold pwOut
    ring
  · funext j
    exact (add_zero _).symm

/-- C83: the bound that `classic_elbo()` returns is the `elbo()` of the variational GP at `dist_q`. -/
theorem C83_same_bound {c : PWCVI n d} {q : SSM n d} (hq : c.distQ = .ok q) : c.classicElbo = (c.toVGP q).elbo := by
  unfold PWCVI.classicElbo PWCVI.posterior PWVGP.elbo
  rw [hq]
  rfl

/-- C83: one `update_sites()` with learning rate `r` does to `dist_q` what one natural gradient step of rate `r` on the `loss()` of the
variational GP over the same piecewise kernel does: the results are the same distribution, parameter by parameter, or both fail (in the same way). -/
theorem C83_step {c : PWCVI n d} (h : PWValid ker k cp c.kernel c.times) (hlik : DifferentiableVarExp c.likelihood)
    (hem : ∀ t, pwEmission ker cp (c.times t) ≠ 0) {q : SSM n d} (hq : c.distQ = .ok q)
    {η g : ExpPar n d} (hη : ssmToExpectations q = .ok η) (hg : IsGradient (lossOfExpectations (c.toVGP q).lossOf) η g)
    (opt : NatGrad n d) (hm : opt.momentum = false) (hr : opt.gamma = c.learningRate) (gθ : ExpPar n d) :
    ∃ c', c.updateSites = .ok c' ∧ opt.step q g gθ = c'.distQ.map fun q' => (opt, q') := by
  have hd := (h.core 0).pos
  obtain ⟨s, hs, hq1, -⟩ := C74_cvi_dist_q h
  have hqn := (hq1 q hq).1
  obtain ⟨hsn, hs0⟩ : s.Nondegenerate ∧ stk s.mus = 0 := by
    obtain ⟨p, hp, hnd, h0, -⟩ := h.ssm
    rw [Except.ok.inj (hs.symm.trans hp)]; exact ⟨hnd, h0⟩
  have hem' : ∀ t (a : Fin 1), pwEmission ker cp ((c.toVGP q).times t) a ≠ 0 := fun t a h0 => hem t (by
    funext b
    rw [Subsingleton.elim b a]; exact h0)
  obtain ⟨p, η', m, var, hp, hη', hmv, hgr⟩ := C83_gradient (v := c.toVGP q) h hqn hlik hem'
  replace hgr := isGradient_of_total hqn h.two hd hη' hgr
  obtain rfl : s = p := Except.ok.inj (hs.symm.trans hp)
  obtain rfl : η = η' := Except.ok.inj (hη.symm.trans hη')
  have eg := IsGradient.unique hg hgr
  obtain ⟨c', m', v', hc', hmv', hcs, hup⟩ := C74_cvi_update h hq
  have em : ∀ t, m' t = m t 0 ∧ v' t = var t 0 := fun t => by
    have e1 := (hmv' t).2
    have e2 := (hmv t 0).2
    have e3 : gaussianReal (m' t) (v' t).toNNReal = gaussianReal (m t 0) (var t 0).toNNReal := by
      rw [← e1, ← e2]
      have : (fun x : Ix n d → ℝ => pwLatent1 ker cp c.times x t) = fun x => (pwEmission ker cp (c.times t) *ᵥ unstk x t) 0 := by
        rw [pwLatent1_eq]
        exact funext fun x => by simp [latent1, latentOf, pwOut]
      rw [this]
      rfl
    obtain ⟨a1, a2⟩ := gaussianReal_ext_iff.1 e3
    refine ⟨a1, ?_⟩
    have := congrArg NNReal.toReal a2
    rwa [Real.coe_toNNReal _ (hmv' t).1, Real.coe_toNNReal _ (hmv t 0).1.le] at this
  refine ⟨c', hc', ?_⟩
  have hv' : PWValid ker k cp c'.kernel c'.times := by rw [hcs]; exact h
  have hs' : c'.distP = .ok s := by rw [hcs]; exact hs
  -- the natural parameters after the step
  have hθq : ssmToNaturals q = c.thetas ker cp s := by
    have hdn := PWCVI.distQ_naturals h hs hsn hs0
    have hsy : SymDiag (c.thetas ker cp s) := SymDiag.add (symDiag_naturals hsn) (siteNaturals_symDiag _ _ _)
    by_cases hP : ProperNaturals (c.thetas ker cp s)
    · obtain ⟨q2, b1, b2, b3⟩ := C17_naturals_round_trip (c.thetas ker cp s).1 (c.thetas ker cp s).2.1 (c.thetas ker cp s).2.2 h.two hd hsy hP
      obtain rfl : q = q2 := Except.ok.inj (hq.symm.trans (hdn.trans b1))
      exact b3
    · rw [hdn, C17_improper_raises (c.thetas ker cp s).1 (c.thetas ker cp s).2.1 (c.thetas ker cp s).2.2 h.two hsy hP] at hq
      cases hq
  have key : ssmToNaturals q - opt.gamma • g = c'.thetas ker cp s := by
    have eH : (fun t => pwEmission ker cp (c'.times t)) = fun t => pwEmission ker cp (c.times t) := by rw [hcs]
    unfold PWCVI.thetas
    rw [eH]
    rw [eg, smul_sub, ← sub_add, sub_add_eq_add_sub, hr]
    have e1 : c'.sites.nat1 = (1 - c.learningRate) • c.sites.nat1 + c.learningRate •
        (fun t a => (localGradients c.likelihood (m t a) (var t a) (c.observations t a)).1) := by
      funext t a
      obtain rfl : a = 0 := Subsingleton.elim _ _
      rw [(hup t).1, (em t).1, (em t).2]; rfl
    have e2 : (fun t (a : Fin 1) => c'.sites.nat2 t a 0) = (1 - c.learningRate) • (fun t (a : Fin 1) => c.sites.nat2 t a 0) + c.learningRate •
        (fun t a => (localGradients c.likelihood (m t a) (var t a) (c.observations t a)).2) := by
      funext t a
      obtain rfl : a = 0 := Subsingleton.elim _ _
      rw [(hup t).2, (em t).1, (em t).2]; rfl
    rw [e1, e2, siteNaturals_add, siteNaturals_smul, siteNaturals_smul, hθq]
    have e3 : siteNaturals (fun t => pwEmission ker cp ((c.toVGP q).times t))
          (fun t a => deriv (fun x => (c.toVGP q).likelihood.varExp x (var t a) ((c.toVGP q).observations t a)) (m t a + (c.toVGP q).meanFunction ((c.toVGP q).times t) a) -
            2 * deriv (fun x => (c.toVGP q).likelihood.varExp (m t a + (c.toVGP q).meanFunction ((c.toVGP q).times t) a) x ((c.toVGP q).observations t a)) (var t a) * m t a)
          (fun t a => deriv (fun x => (c.toVGP q).likelihood.varExp (m t a + (c.toVGP q).meanFunction ((c.toVGP q).times t) a) x ((c.toVGP q).observations t a)) (var t a)) =
        siteNaturals (fun t => pwEmission ker cp (c.times t))
          (fun t a => (localGradients c.likelihood (m t a) (var t a) (c.observations t a)).1)
          (fun t a => (localGradients c.likelihood (m t a) (var t a) (c.observations t a)).2) := by
      unfold localGradients gradMeanVarToExpectation PWCVI.toVGP
      simp only [Pi.zero_apply, add_zero]
    rw [e3, show ssmToNaturals (c.toVGP q).q = c.thetas ker cp s from hθq]
    unfold PWCVI.thetas
    module
  rw [PWCVI.distQ_naturals hv' hs' hsn hs0, step_eq opt hm, key]
  have hsy : SymDiag (c'.thetas ker cp s) := SymDiag.add (symDiag_naturals hsn) (siteNaturals_symDiag _ _ _)
  obtain ⟨t1, t2⟩ := natgrad_tail h.two hd hsy opt
  by_cases hP : ProperNaturals (c'.thetas ker cp s)
  · obtain ⟨q', b1, -, -, b4⟩ := t1 hP
    rw [b1, b4]; rfl
  · rw [t2 hP, C17_improper_raises (c'.thetas ker cp s).1 (c'.thetas ker cp s).2.1 (c'.thetas ker cp s).2.2 h.two hsy hP]; rfl

theorem PWCVI.updates_succ (N : ℕ) (c : PWCVI n d) : PWCVI.updates (N + 1) c = (PWCVI.updates N c) >>= PWCVI.updateSites := by
  induction N generalizing c with
  | zero =>
    simp only [PWCVI.updates, Bind.bind, Except.bind, Pure.pure, Except.pure]
    cases c.updateSites <;> rfl
  | succ N ih =>
    rw [PWCVI.updates, PWCVI.updates]
    simp only [Bind.bind, Except.bind]
    cases c.updateSites with
    | error e => rfl
    | ok c' => exact ih c'

theorem PWCVI.updates_sites {N : ℕ} {c c' : PWCVI n d} (h : PWCVI.updates N c = .ok c') : c' = { c with sites := c'.sites } := by
  induction N generalizing c' with
  | zero => rw [← Except.ok.inj h]
  | succ N ih =>
    rw [PWCVI.updates_succ] at h
    simp only [Bind.bind, Except.bind] at h
    cases h1 : PWCVI.updates N c with
    | error e => rw [h1] at h; cases h
    | ok c1 =>
      rw [h1] at h
      have e1 := ih h1
      have h' : c1.updateSites = .ok c' := h
      unfold PWCVI.updateSites at h'
      simp only [Bind.bind, Except.bind] at h'
      cases h2 : c1.posterior with
      | error e => rw [h2] at h'; cases h'
      | ok post =>
        rw [h2] at h'
        cases h3 : post.predictFDiag c1.times with
        | error e => simp only [h3] at h'; cases h'
        | ok fx =>
          simp only [h3] at h'
          have e2 : c' = { c1 with sites := c'.sites } := by rw [← Except.ok.inj h']
          conv_lhs => rw [e2]
          conv_lhs => rw [e1]

/-- C83: any number of steps. Starting at `dist_q`, `N` natural gradient steps on the `loss()` of the variational GP give `dist_q` after
`N` calls of `update_sites()`, or both fail. -/
theorem C83_steps {c : PWCVI n d} (h : PWValid ker k cp c.kernel c.times) (hlik : DifferentiableVarExp c.likelihood)
    (hem : ∀ t, pwEmission ker cp (c.times t) ≠ 0) {q : SSM n d} (hq : c.distQ = .ok q)
    {grad : ℕ → SSM n d → ExpPar n d × ExpPar n d} (hgrad : GivesGradient (c.toVGP q).lossOf grad)
    (opt : NatGrad n d) (hm : opt.momentum = false) (hr : opt.gamma = c.learningRate) (N : ℕ) :
    NatGrad.steps grad N (opt, q) = ((PWCVI.updates N c) >>= PWCVI.distQ).map fun q' => (opt, q') := by
  induction N with
  | zero =>
    simp only [NatGrad.steps, PWCVI.updates, Bind.bind, Except.bind, Pure.pure, Except.pure, hq]
    rfl
  | succ N ih =>
    rw [NatGrad.steps, ih, PWCVI.updates_succ]
    simp only [Bind.bind, Except.bind]
    cases h1 : PWCVI.updates N c with
    | error e => rfl
    | ok c1 =>
      simp only
      have hcs := PWCVI.updates_sites h1
      have hv1 : PWValid ker k cp c1.kernel c1.times := by rw [hcs]; exact h
      cases h2 : c1.distQ with
      | error e =>
        have : c1.updateSites = .error e := by
          unfold PWCVI.updateSites PWCVI.posterior
          rw [h2]; rfl
        rw [this]; rfl
      | ok q1 =>
        obtain ⟨_, -, hq1, -⟩ := C74_cvi_dist_q hv1
        have hqn := (hq1 q1 h2).1
        have hη := ssmToExpectations_eq q1 hqn h.two (h.core 0).pos
        have eL : (c1.toVGP q1).lossOf = (c.toVGP q).lossOf := by rw [hcs]; rfl
        have hem1 : ∀ t, pwEmission ker cp (c1.times t) ≠ 0 := by rw [hcs]; exact hem
        have hl1 : DifferentiableVarExp c1.likelihood := by rw [hcs]; exact hlik
        have hr1 : opt.gamma = c1.learningRate := by rw [hcs]; exact hr
        have hg := hgrad N q1 _ hqn hη
        rw [← eL] at hg
        obtain ⟨c', b1, b2⟩ := C83_step hv1 hl1 hem1 h2 hη hg opt hm hr1 (grad N q1).2
        rw [b1]
        exact b2

/-- C83: CVI training over a piecewise kernel converges to the optimum. With a log-concave, smooth likelihood, from any sites whose `dist_q` exists there is a
positive learning rate such that with that or any smaller constant learning rate every call of `update_sites()` returns, `classic_elbo()` never decreases and
converges to the largest bound of all Gaussian Markov distributions, and `dist_q` and the predictions converge to those of the best distribution, which is
unique. -/
theorem C83_cvi_converges {c : PWCVI n d} (h : PWValid ker k cp c.kernel c.times) (he : ExactLikelihood c.likelihood)
    (hl : LogConcaveLikelihood c.likelihood) (hs : SmoothVarExp c.likelihood) (hem : ∀ t, pwEmission ker cp (c.times t) ≠ 0)
    {q : SSM n d} (hq : c.distQ = .ok q) :
    ∃ (best : SSM n d) (e : ℝ), best.Nondegenerate ∧ (c.toVGP best).elbo = .ok e ∧
      (∀ s : SSM n d, s.Nondegenerate → ∃ e', (c.toVGP s).elbo = .ok e' ∧ e' ≤ e ∧ (e' = e → s.law = best.law)) ∧
      ∃ r₀ : ℝ, 0 < r₀ ∧ ∀ r, 0 < r → r ≤ r₀ → ∃ (cs : ℕ → PWCVI n d) (run : ℕ → SSM n d) (b : ℕ → ℝ),
          (∀ N, PWCVI.updates N { c with learningRate := r } = .ok (cs N)) ∧ (∀ N, (cs N).distQ = .ok (run N)) ∧
          (∀ N, (cs N).classicElbo = .ok (b N)) ∧
          Monotone b ∧ Tendsto b atTop (𝓝 e) ∧ Tendsto (fun N => ssmToNaturals (run N)) atTop (𝓝 (ssmToNaturals best)) ∧
          ∀ (p : ℕ) (new : Fin (p + 1) → ℝ), Monotone new → (∀ j, c.times 0 ≤ new j) → (∀ j, new j ≤ c.times (Fin.last n)) →
            ∃ (f : ℕ → Fin (p + 1) → Vec 1 × Mat 1 1) (f' : Fin (p + 1) → Vec 1 × Mat 1 1),
              (∀ N, ∃ post, (cs N).posterior = .ok post ∧ post.predictF new = .ok (f N)) ∧
              (c.toVGP best).posterior.predictF new = .ok f' ∧ Tendsto f atTop (𝓝 f') := by
  have hdd := (h.core 0).pos
  have hd := hs.differentiable
  have hem' : ∀ t (a : Fin 1), pwEmission ker cp (c.times t) a ≠ 0 := fun t a h0 => hem t (by
    funext b
    rw [Subsingleton.elim b a]; exact h0)
  have hqn : q.Nondegenerate := by
    obtain ⟨_, -, hq1, -⟩ := C74_cvi_dist_q h
    exact (hq1 q hq).1
  obtain ⟨best, e, hb, hbe, hmax, hrun⟩ := C83_vgp_converges (v := c.toVGP q) h he hl hs hem'
  obtain ⟨r₀, hr0, hr⟩ := hrun q hqn
  refine ⟨best, e, hb, hbe, hmax, r₀, hr0, fun r k0 k1 => ?_⟩
  -- gradients
  have hex : ∀ q' : SSM n d, ∃ g : ExpPar n d, q'.Nondegenerate → IsGradient (lossOfExpectations (c.toVGP q).lossOf) (expPar q') g := fun q' => by
    by_cases hq' : q'.Nondegenerate
    · obtain ⟨p, η, m, var, hp, hη, -, hgr⟩ := C83_gradient (v := c.toVGP q') h hq' hd hem'
      replace hgr := isGradient_of_total hq' h.two hdd hη hgr
      obtain rfl : η = expPar q' := Except.ok.inj (hη.symm.trans (ssmToExpectations_eq q' hq' h.two hdd))
      exact ⟨_, fun _ => hgr⟩
    · exact ⟨0, fun h => absurd h hq'⟩
  choose g hg using hex
  have hgrad : GivesGradient (c.toVGP q).lossOf (fun _ q' => (g q', 0)) := fun i q' η hq' hη => by
    obtain rfl : η = expPar q' := Except.ok.inj (hη.symm.trans (ssmToExpectations_eq q' hq' h.two hdd))
    exact hg q' hq'
  obtain ⟨run, b, m, m', a1, a2, a3, a4, a5, -, -, -, a6⟩ := hr _ hgrad (NatGrad.init r false 0 0 0) rfl k0 k1
  set c₂ : PWCVI n d := { c with learningRate := r } with hc₂
  have hq₂ : c₂.distQ = .ok q := hq
  have hstep := fun N => C83_steps (c := c₂) h hd hem hq₂ (grad := fun _ q' => (g q', 0)) hgrad (NatGrad.init r false 0 0 0) rfl rfl N
  have hcs : ∀ N, ∃ c', PWCVI.updates N c₂ = .ok c' ∧ c'.distQ = .ok (run N) := fun N => by
    have e1 := hstep N
    have a1' := a1 N
    change NatGrad.steps _ N (_, q) = _ at a1'
    rw [a1'] at e1
    cases hu : PWCVI.updates N c₂ with
    | error e => rw [hu] at e1; exact absurd e1 (by simp [Bind.bind, Except.bind, Except.map])
    | ok c' =>
      rw [hu] at e1
      refine ⟨c', rfl, ?_⟩
      simp only [Bind.bind, Except.bind] at e1
      cases hdq : c'.distQ with
      | error e => rw [hdq] at e1; exact absurd e1 (by simp [Except.map])
      | ok q' =>
        rw [hdq] at e1
        have e2 := Except.ok.inj e1
        rw [(Prod.mk.inj e2).2]
  choose cs u1 u2 using hcs
  have hsame : ∀ N s, (cs N).toVGP s = c.toVGP s := fun N s => by
    rw [PWCVI.updates_sites (u1 N)]; rfl
  refine ⟨cs, run, b, u1, u2, fun N => ?_, a3, a4, a5, fun p new hnew n0 n1 => ?_⟩
  · rw [C83_same_bound (u2 N), hsame]
    exact a2 N
  · obtain ⟨f, f', f1, f2, f3⟩ := a6 p new hnew n0 n1
    refine ⟨f, f', fun N => ⟨((cs N).toVGP (run N)).posterior, ?_, ?_⟩, f2, f3⟩
    · unfold PWCVI.posterior
      rw [u2 N]; rfl
    · rw [hsame]
      exact f1 N

/-- C83: the fixed points of `update_sites()` are the stationary points of the bound: the update leaves the law of `dist_q` as it is
if and only if the gradient of the variational GP's `loss()` vanishes there. -/
theorem C83_fixed_point {c : PWCVI n d} (h : PWValid ker k cp c.kernel c.times) (hlik : DifferentiableVarExp c.likelihood)
    (hem : ∀ t, pwEmission ker cp (c.times t) ≠ 0) (hr : c.learningRate ≠ 0) {q : SSM n d} (hq : c.distQ = .ok q)
    {η : ExpPar n d} (hη : ssmToExpectations q = .ok η) :
    (∃ c' q', c.updateSites = .ok c' ∧ c'.distQ = .ok q' ∧ q'.law = q.law) ↔
      IsGradient (lossOfExpectations (c.toVGP q).lossOf) η 0 := by
  have hd := (h.core 0).pos
  obtain ⟨_, -, hq1, -⟩ := C74_cvi_dist_q h
  have hqn := (hq1 q hq).1
  have hem' : ∀ t (a : Fin 1), pwEmission ker cp ((c.toVGP q).times t) a ≠ 0 := fun t a h0 => hem t (by
    funext b
    rw [Subsingleton.elim b a]; exact h0)
  obtain ⟨p, η', m, var, hp, hη', hmv, hgr⟩ := C83_gradient (v := c.toVGP q) h hqn hlik hem'
  replace hgr := isGradient_of_total hqn h.two hd hη' hgr
  obtain rfl : η = η' := Except.ok.inj (hη.symm.trans hη')
  generalize hgd : (ssmToNaturals (c.toVGP q).q - (ssmToNaturals p + _)) = g at hgr
  set opt : NatGrad n d := NatGrad.init c.learningRate false 0 0 0 with ho
  obtain ⟨c', b1, b2⟩ := C83_step h hlik hem hq hη hgr opt rfl rfl 0
  have hsg : SymDiag g := hgr.1
  obtain ⟨s1, s2⟩ := C39_step opt rfl hqn h.two hd g 0 hsg
  rw [b2] at s1 s2
  constructor
  · rintro ⟨c'', q', e1, e2, e3⟩
    obtain rfl : c' = c'' := Except.ok.inj (b1.symm.trans e1)
    rw [e2] at s1 s2
    by_cases hP : ProperNaturals (ssmToNaturals q - opt.gamma • g)
    · obtain ⟨q2, f1, f2, f3⟩ := s1 hP
      obtain rfl : q' = q2 := congrArg Prod.snd (Except.ok.inj f1)
      rw [naturals_of_law f2 hqn e3] at f3
      have : opt.gamma • g = 0 := by rwa [eq_comm, sub_eq_self] at f3
      have hg0 : g = 0 := (smul_eq_zero.1 this).resolve_left hr
      rwa [hg0] at hgr
    · cases s2 hP
  · intro h0
    have hg0 : g = 0 := IsGradient.unique hgr h0
    rw [hg0, smul_zero, sub_zero] at s1
    obtain ⟨q', f1, f2, f3⟩ := s1 (proper_of_ssm hqn)
    refine ⟨c', q', b1, ?_, law_of_naturals f2 hqn f3⟩
    cases h3 : c'.distQ with
    | error e => rw [h3] at f1; cases f1
    | ok q2 =>
      rw [h3] at f1
      exact congrArg Except.ok (congrArg Prod.snd (Except.ok.inj f1))

/-- C83: with a log-concave likelihood, `update_sites()` leaves `dist_q` as it is exactly when `classic_elbo()` is the largest bound that any Gaussian Markov
distribution attains over the piecewise kernel; then no other distribution attains it. -/
theorem C83_cvi_optimum {c : PWCVI n d} (h : PWValid ker k cp c.kernel c.times) (he : ExactLikelihood c.likelihood) (hl : LogConcaveLikelihood c.likelihood)
    (hd : DifferentiableVarExp c.likelihood) (hem : ∀ t, pwEmission ker cp (c.times t) ≠ 0) (hr : c.learningRate ≠ 0) {q : SSM n d}
    (hq : c.distQ = .ok q) :
    ∃ e : ℝ, c.classicElbo = .ok e ∧
      ((∃ c' q', c.updateSites = .ok c' ∧ c'.distQ = .ok q' ∧ q'.law = q.law) ↔
        ∀ s : SSM n d, s.Nondegenerate → ∃ e', (c.toVGP s).elbo = .ok e' ∧ e' ≤ e) ∧
      ((∃ c' q', c.updateSites = .ok c' ∧ c'.distQ = .ok q' ∧ q'.law = q.law) →
        ∀ s : SSM n d, s.Nondegenerate → (c.toVGP s).elbo = .ok e → s.law = q.law) := by
  obtain ⟨_, -, hq1, -⟩ := C74_cvi_dist_q h
  have hqn := (hq1 q hq).1
  have hη : ssmToExpectations q = .ok (expPar q) := ssmToExpectations_eq q hqn h.two (h.core 0).pos
  have hem' : ∀ t (a : Fin 1), pwEmission ker cp ((c.toVGP q).times t) a ≠ 0 := fun t a h0 => hem t (by
    funext b
    rw [Subsingleton.elim b a]; exact h0)
  obtain ⟨e, h1, h2, h3⟩ := C83_vgp_stationary (v := c.toVGP q) h hqn he hl hd hem' (η := expPar q) hη
  have hfix := C83_fixed_point h hd hem hr hq hη
  have h1' : ∀ s : SSM n d, s.Nondegenerate → (c.toVGP s).elbo = .ok (e s) := h1
  refine ⟨e q, by rw [C83_same_bound hq]; exact h1' q hqn, ?_, ?_⟩
  · rw [hfix, h2]
    constructor
    · intro hm s hs
      exact ⟨e s, h1' s hs, hm s hs⟩
    · intro hm s hs
      obtain ⟨e', b1, b2⟩ := hm s hs
      rw [h1' s hs] at b1
      rw [Except.ok.inj b1]
      exact b2
  · intro hf s hs hes
    rw [h1' s hs] at hes
    exact h3 (hfix.1 hf) s hs (Except.ok.inj hes)

end cvi

/-- Non-vacuity: two Ornstein-Uhlenbeck kernels of different length scale with a change point at 0, data at -1, 0, 1 and the Poisson likelihood, from a newly
built CVI model. -/
example : ∃ (ker : Fin 2 → Stationary 1 1) (k : Fin 2 → ℝ → ℝ → Mat 1 1) (c : PWCVI 2 1) (q : SSM 2 1),
    PWValid ker k (fun _ : Fin 1 => (0 : ℝ)) c.kernel c.times ∧ (∀ t, pwEmission ker (fun _ : Fin 1 => (0 : ℝ)) (c.times t) ≠ 0) ∧ c.learningRate ≠ 0 ∧
    c.distQ = .ok q ∧ ExactLikelihood c.likelihood ∧ LogConcaveLikelihood c.likelihood ∧ SmoothVarExp c.likelihood ∧ c.observations 0 ≠ c.observations 1 := by
  obtain ⟨k₀, k₁, a0, a1, h0, h1, -⟩ := exists_two_ou
  have hK : Piecewise.init (List.ofFn ![k₀, k₁]) (List.ofFn fun _ : Fin 1 => (0 : ℝ)) 0 =
      .ok ⟨List.ofFn ![k₀, k₁], List.ofFn fun _ : Fin 1 => (0 : ℝ), 0⟩ := by
    unfold Piecewise.init; rw [if_neg (by simp), if_neg (by simp)]
  have hmono : StrictMono ![(-1 : ℝ), 0, 1] := by
    rw [Fin.strictMono_iff_lt_succ]
    intro i; fin_cases i
    · show (-1 : ℝ) < 0; norm_num
    · show (0 : ℝ) < 1; norm_num
  have hb : ∀ i, Builds (![k₀, k₁] i) (![iso (ouCov 1 1), iso (ouCov 2 1)] i) := by
    intro i; fin_cases i
    · exact .leaf (.ou a0)
    · exact .leaf (.ou a1)
  have hV : PWValid ![k₀, k₁] ![iso (ouCov 1 1), iso (ouCov 2 1)] (fun _ : Fin 1 => (0 : ℝ)) _ ![-1, 0, 1] :=
    ⟨hK, one_pos, hb,
      by intro i; fin_cases i
         · exact .ou a0
         · exact .ou a1, two_pos, hmono, by show (-10000000000 : ℝ) < -1; norm_num,
      by show (1 : ℝ) < 10000000000; norm_num,
      by intro i j hj; fin_cases i
         · exact lt_irrefl (0 : ℝ) hj.2
         · exact lt_irrefl (0 : ℝ) hj.1⟩
  set c : PWCVI 2 1 := PWCVI.init ![-1, 0, 1] (fun i => ![(i : ℝ)]) ⟨List.ofFn ![k₀, k₁], List.ofFn fun _ : Fin 1 => (0 : ℝ), 0⟩ poissonLikelihood none with hc
  have hneg : ∀ t, c.sites.nat2 t 0 0 ≤ 0 := fun t => by show (-1e-10 : ℝ) ≤ 0; norm_num
  obtain ⟨_, -, -, hq, -⟩ := C74_cvi_dist_q (c := c) hV
  obtain ⟨q, hq⟩ := hq hneg
  refine ⟨_, _, c, q, hV, fun t h2 => ?_, ?_, hq, poissonLikelihood_exact, poissonLikelihood_logConcave, poissonLikelihood_smooth, ?_⟩
  · have e0 : ∀ (i : Fin 2) t, (![k₀, k₁] i).emission t = sdeEmission 1 1 := fun i t => by
      fin_cases i
      · show k₀.emission t = _
        rw [(kernelInit_ok a0).2.2]; rfl
      · show k₁.emission t = _
        rw [(kernelInit_ok a1).2.2]; rfl
    unfold pwEmission at h2
    rw [e0] at h2
    have := congrFun (congrFun h2 0) 0
    simp [sdeEmission] at this
  · show (0.1 : ℝ) ≠ 0; norm_num
  · intro h; have := congrFun h 0; simp [hc, PWCVI.init] at this

end MF
