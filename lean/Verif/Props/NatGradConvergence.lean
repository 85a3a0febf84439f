import Verif.Lemmas.NatDynamics2
import Verif.Props.GlobalOptimum
import Verif.Props.SiteConvergence

/-!
# C82: natural gradient training converges to the optimum
-/

namespace MF
open Matrix Spec Filter Topology InformationTheory
variable {n o d p : ℕ}

theorem stats_tendsto (c : CondStats d) {a a₂ : ℕ → Vec d} {C S C₂ : ℕ → Mat d d} {a' a₂' : Vec d} {C' S' C₂' : Mat d d} (h1 : Tendsto a atTop (𝓝 a'))
    (h2 : Tendsto a₂ atTop (𝓝 a₂')) (h3 : Tendsto C atTop (𝓝 C')) (h4 : Tendsto S atTop (𝓝 S')) (h5 : Tendsto C₂ atTop (𝓝 C₂')) :
    Tendsto (fun N => ((c.D *ᵥ a N + c.E *ᵥ a₂ N, c.T + fromCols c.D c.E * fromBlocks (C N) (S N)ᵀ (S N) (C₂ N) * (fromCols c.D c.E)ᵀ) : Vec d × Mat d d)) atTop
      (𝓝 (c.D *ᵥ a' + c.E *ᵥ a₂', c.T + fromCols c.D c.E * fromBlocks C' S'ᵀ S' C₂' * (fromCols c.D c.E)ᵀ)) := by
  refine Filter.Tendsto.prodMk_nhds (tendsto_pi_nhds.2 fun i => ?_) (tendsto_pi_nhds.2 fun i => tendsto_pi_nhds.2 fun j => ?_)
  · have e1 : ∀ i, Tendsto (fun N => a N i) atTop (𝓝 (a' i)) := fun i => ((continuous_apply i).tendsto a').comp h1
    have e2 : ∀ i, Tendsto (fun N => a₂ N i) atTop (𝓝 (a₂' i)) := fun i => ((continuous_apply i).tendsto a₂').comp h2
    simp only [Pi.add_apply, mulVec, dotProduct]
    exact Tendsto.add (tendsto_finsetSum _ fun l _ => (e1 l).const_mul _) (tendsto_finsetSum _ fun l _ => (e2 l).const_mul _)
  · have e3 : ∀ i j, Tendsto (fun N => C N i j) atTop (𝓝 (C' i j)) := fun i j => ((continuous_apply_apply i j).tendsto C').comp h3
    have e4 : ∀ i j, Tendsto (fun N => S N i j) atTop (𝓝 (S' i j)) := fun i j => ((continuous_apply_apply i j).tendsto S').comp h4
    have e5 : ∀ i j, Tendsto (fun N => C₂ N i j) atTop (𝓝 (C₂' i j)) := fun i j => ((continuous_apply_apply i j).tendsto C₂').comp h5
    simp only [Matrix.add_apply, Matrix.mul_apply, Finset.sum_mul]
    refine Tendsto.const_add _ (tendsto_finsetSum _ fun l _ => tendsto_finsetSum _ fun l' _ => Tendsto.mul_const _ (Tendsto.const_mul _ ?_))
    rcases l with l | l <;> rcases l' with l' | l' <;> simp only [fromBlocks_apply₁₁, fromBlocks_apply₁₂, fromBlocks_apply₂₁, fromBlocks_apply₂₂, transpose_apply]
    · exact e3 _ _
    · exact e4 _ _
    · exact e4 _ _
    · exact e5 _ _

theorem project_tendsto {H : Fin p → Mat o d} {R : ℕ → Fin p → Vec d × Mat d d} {R' : Fin p → Vec d × Mat d d} (j : Fin p)
    (h : Tendsto (fun N => R N j) atTop (𝓝 (R' j))) :
    Tendsto (fun N => projectStateToF H (fun q => (R N q).1) j) atTop (𝓝 (projectStateToF H (fun q => (R' q).1) j)) ∧
    Tendsto (fun N => projectStateCovarianceToFFull H (fun q => (R N q).2) j) atTop (𝓝 (projectStateCovarianceToFFull H (fun q => (R' q).2) j)) := by
  have h1 : ∀ a, Tendsto (fun N => (R N j).1 a) atTop (𝓝 ((R' j).1 a)) := fun a =>
    (((continuous_apply a).comp continuous_fst).tendsto (R' j)).comp h
  have h2 : ∀ a b, Tendsto (fun N => (R N j).2 a b) atTop (𝓝 ((R' j).2 a b)) := fun a b =>
    (((continuous_apply_apply a b).comp continuous_snd).tendsto (R' j)).comp h
  refine ⟨tendsto_pi_nhds.2 fun a => ?_, tendsto_pi_nhds.2 fun a => tendsto_pi_nhds.2 fun b => ?_⟩
  · simp only [projectStateToF, col_apply, Matrix.mul_apply, replicateCol_apply]
    exact tendsto_finsetSum _ fun i _ => (h1 i).const_mul _
  · simp only [projectStateCovarianceToFFull, of_apply]
    exact tendsto_finsetSum _ fun i _ => tendsto_finsetSum _ fun l _ => by
      first
        | exact ((h2 _ _).const_mul _).mul_const _
        | exact ((h2 _ _).mul_const _).const_mul _
        | exact (h2 _ _).const_mul _

/-- The predictions of a process depend continuously on the moments of its states. -/
theorem predict_run_tendsto (c : CondProcess n o d) {k} (hK : Builds c.kernel k) (hN : NoiseTag c.kernel true) (hn : 0 < n) (hts : Monotone c.times)
    {run : ℕ → SSM n d} {best : SSM n d} (hr : ∀ N, (run N).Nondegenerate) (hb : best.Nondegenerate)
    (h1 : Tendsto (fun N => (run N).mus) atTop (𝓝 best.mus)) (h2 : Tendsto (fun N => (run N).Kd) atTop (𝓝 best.Kd))
    {new : Fin p → ℝ} (n0 : ∀ j, -10000000000 < new j) (n1 : ∀ j, new j ≤ 10000000000) :
    ∃ (f : ℕ → Fin p → Vec o × Mat o o) (f' : Fin p → Vec o × Mat o o),
      (∀ N, ({ c with q := run N } : CondProcess n o d).predictF new = .ok (f N)) ∧ ({ c with q := best } : CondProcess n o d).predictF new = .ok f' ∧
      Tendsto f atTop (𝓝 f') := by
  obtain ⟨hc, -, -⟩ := Builds.good hK
  obtain ⟨r', hr'⟩ := C22_succeeds (c := { c with q := best }) hK hN hb hn hts n0 n1
  choose r hrN using fun N => C22_succeeds (c := { c with q := run N }) hK hN (hr N) hn hts n0 n1
  obtain ⟨cs, hcs, m', C', S', hm', hC', hS', e'⟩ := predictState_ok hb hn hc.pos hr'
  have hent : ∀ i j, Tendsto (fun N => (run N).Kd i j) atTop (𝓝 (best.Kd i j)) := fun i j =>
    ((continuous_apply_apply i j).continuousAt.tendsto.comp h2)
  -- the moments that a prediction uses
  set mu : SSM n d → Fin (n + 3) → Vec d := fun q => Fin.cons c.kernel.initialMean (Fin.snoc (α := fun _ => Vec d) q.mus c.kernel.initialMean) with hmu
  set C : SSM n d → Fin (n + 3) → Mat d d := fun q => Fin.cons c.kernel.initialCovariance (Fin.snoc (α := fun _ => Mat d d)
        (fun k => blk q.Kd k k) c.kernel.initialCovariance) with hC
  set S : SSM n d → Fin (n + 2) → Mat d d := fun q => Fin.cons 0 (Fin.snoc (α := fun _ => Mat d d)
        (fun k : Fin n => blk q.Kd k.succ k.castSucc) 0) with hS
  have tm : ∀ i, Tendsto (fun N => mu (run N) i) atTop (𝓝 (mu best i)) := fun i => by
    refine Fin.cases ?_ (fun i => Fin.lastCases ?_ (fun i => ?_) i) i
    · exact tendsto_const_nhds
    · simp only [hmu, Fin.cons_succ, Fin.snoc_last]; exact tendsto_const_nhds
    · simp only [hmu, Fin.cons_succ, Fin.snoc_castSucc]
      exact (continuous_apply i).continuousAt.tendsto.comp h1
  have tC : ∀ i, Tendsto (fun N => C (run N) i) atTop (𝓝 (C best i)) := fun i => by
    refine Fin.cases ?_ (fun i => Fin.lastCases ?_ (fun i => ?_) i) i
    · exact tendsto_const_nhds
    · simp only [hC, Fin.cons_succ, Fin.snoc_last]; exact tendsto_const_nhds
    · simp only [hC, Fin.cons_succ, Fin.snoc_castSucc]
      exact tendsto_pi_nhds.2 fun a => tendsto_pi_nhds.2 fun b => hent _ _
  have tS : ∀ i, Tendsto (fun N => S (run N) i) atTop (𝓝 (S best i)) := fun i => by
    refine Fin.cases ?_ (fun i => Fin.lastCases ?_ (fun i => ?_) i) i
    · exact tendsto_const_nhds
    · simp only [hS, Fin.cons_succ, Fin.snoc_last]; exact tendsto_const_nhds
    · simp only [hS, Fin.cons_succ, Fin.snoc_castSucc]
      exact tendsto_pi_nhds.2 fun a => tendsto_pi_nhds.2 fun b => hent _ _
  set R : SSM n d → Fin p → Vec d × Mat d d := fun q j => ((cs j).D *ᵥ mu q (searchsortedLeft c.times (new j)).castSucc +
      (cs j).E *ᵥ mu q (searchsortedLeft c.times (new j)).succ,
    (cs j).T + fromCols (cs j).D (cs j).E * fromBlocks (C q (searchsortedLeft c.times (new j)).castSucc)
      (S q (searchsortedLeft c.times (new j)))ᵀ (S q (searchsortedLeft c.times (new j)))
      (C q (searchsortedLeft c.times (new j)).succ) * (fromCols (cs j).D (cs j).E)ᵀ) with hR
  have eb : r' = R best := by
    funext j
    rw [e' j, hm', hC', hS']
  have eN : ∀ N, r N = R (run N) := fun N => by
    obtain ⟨cs₂, hcs₂, m₂, C₂, S₂, hm₂, hC₂, hS₂, e₂⟩ := predictState_ok (hr N) hn hc.pos (hrN N)
    have : cs₂ = cs := funext fun j => Except.ok.inj ((hcs₂ j).symm.trans (hcs j))
    funext j
    rw [e₂ j, hm₂, hC₂, hS₂, this]
  have tR : ∀ j, Tendsto (fun N => R (run N) j) atTop (𝓝 (R best j)) := fun j =>
    stats_tendsto (cs j) (tm _) (tm _) (tC _) (tS _) (tC _)
  refine ⟨fun N j => (projectStateToF (fun q => c.kernel.emission (new q)) (fun q => (R (run N) q).1) j + c.meanFunction (new j),
      projectStateCovarianceToFFull (fun q => c.kernel.emission (new q)) (fun q => (R (run N) q).2) j),
    fun j => (projectStateToF (fun q => c.kernel.emission (new q)) (fun q => (R best q).1) j + c.meanFunction (new j),
      projectStateCovarianceToFFull (fun q => c.kernel.emission (new q)) (fun q => (R best q).2) j), fun N => ?_, ?_, ?_⟩
  · unfold CondProcess.predictF
    rw [hrN N, eN N]; rfl
  · unfold CondProcess.predictF
    rw [hr', eb]; rfl
  · exact tendsto_pi_nhds.2 fun j => Filter.Tendsto.prodMk_nhds (Tendsto.add_const _ (project_tendsto _ (tR j)).1) (project_tendsto _ (tR j)).2

/-- C82, variational GP: with a log-concave, smooth likelihood, natural gradient training (without momentum) converges to the optimum. There is a best
Gaussian Markov distribution (no other has an `elbo()` as large), and for every initial `dist_q` there is a positive rate such that with that or any smaller
`gamma` every step succeeds, `elbo()` never decreases and converges to the best value, and the natural parameters, the marginals, and all predictions `predict_f`
converge to those of the best distribution. -/
theorem C82_vgp {v : VGP n o d} {k} (h : v.Valid k) (he : ExactLikelihood v.likelihood) (hl : LogConcaveLikelihood v.likelihood)
    (hs : SmoothVarExp v.likelihood) (hem : ∀ t a, v.kernel.emission (v.times t) a ≠ 0) :
    ∃ (best : SSM n d) (e : ℝ), best.Nondegenerate ∧ ({ v with q := best } : VGP n o d).elbo = .ok e ∧
      (∀ s : SSM n d, s.Nondegenerate → ∃ e', ({ v with q := s } : VGP n o d).elbo = .ok e' ∧ e' ≤ e ∧ (e' = e → s.law = best.law)) ∧
      ∃ γ₀ : ℝ, 0 < γ₀ ∧ ∀ grad : ℕ → SSM n d → ExpPar n d × ExpPar n d, GivesGradient v.lossOf grad →
        ∀ opt : NatGrad n d, opt.momentum = false → 0 < opt.gamma → opt.gamma ≤ γ₀ → ∃ (run : ℕ → SSM n d) (b : ℕ → ℝ)
          (m : ℕ → (Fin (n + 1) → Vec d) × (Fin (n + 1) → Mat d d)) (m' : (Fin (n + 1) → Vec d) × (Fin (n + 1) → Mat d d)),
          (∀ N, NatGrad.steps grad N (opt, v.q) = .ok (opt, run N)) ∧ (∀ N, ({ v with q := run N } : VGP n o d).elbo = .ok (b N)) ∧
          Monotone b ∧ Tendsto b atTop (𝓝 e) ∧ Tendsto (fun N => ssmToNaturals (run N)) atTop (𝓝 (ssmToNaturals best)) ∧
          (∀ N, (run N).marginals = .ok (m N)) ∧ best.marginals = .ok m' ∧ Tendsto m atTop (𝓝 m') ∧
          ∀ (p : ℕ) (new : Fin p → ℝ), (∀ j, -10000000000 < new j) → (∀ j, new j ≤ 10000000000) →
            ∃ (f : ℕ → Fin p → Vec o × Mat o o) (f' : Fin p → Vec o × Mat o o),
              (∀ N, ({ v with q := run N } : VGP n o d).posterior.predictF new = .ok (f N)) ∧
              ({ v with q := best } : VGP n o d).posterior.predictF new = .ok f' ∧ Tendsto f atTop (𝓝 f') := by
  obtain ⟨hc, -, -⟩ := Builds.good h.builds
  obtain ⟨p, hp, hpn, -, hL⟩ := VGP.lossOf_eq h
  set H : Fin (n + 1) → Mat o d := fun t => v.kernel.emission (v.times t) with hH
  obtain ⟨best, hb, hmax, hrun⟩ := NatDyn.natgrad_converges (p := p) he hl hs h.two hc.pos hpn (ι := Fin (n + 1) × Fin o) (outRow H)
    (α := fun i => siteNaturals H (unitSite i) 0) (β := fun i => siteNaturals H 0 (unitSite i))
    (κ := fun _ => 1) (b := fun i => v.meanFunction (v.times i.1) i.2) (r := fun _ => 0) (y := fun i => v.observations i.1 i.2) (L := v.lossOf)
    (fun i => siteNaturals_symDiag _ _ _) (fun i => siteNaturals_symDiag _ _ _)
    (fun i s => by rw [(pairing_unitSite H i s).1, outRow_mean]) (fun i s => by rw [(pairing_unitSite H i s).2, outRow_mean, outRow_var])
    (fun i => denseOf_unitSite1 H i) (fun i => denseOf_unitSite H i)
    (fun i => by
      funext t
      show (H t)ᵀ *ᵥ (0 : Vec o) = 0
      rw [mulVec_zero]) (fun _ => zero_le_one) (fun _ => le_rfl)
    (fun s hs i => by rw [outRow_var, add_zero]; exact out_var_pos hs (hem i.1 i.2) i.1)
    (fun s hs => by
      rw [hL s hs]
      congr 1
      refine Finset.sum_congr rfl fun i _ => ?_
      rw [outRow_mean, outRow_var, one_mul, add_zero])
  have hel : ∀ s : SSM n d, s.Nondegenerate → ({ v with q := s } : VGP n o d).elbo = .ok (-v.lossOf s) := fun s hs => by
    obtain ⟨e, he1, he2⟩ := VGP.loss_ok (v := { v with q := s }) (k := k) ⟨h.builds, h.noise, h.jitter, h.times, h.lower, h.upper, h.two, hs⟩
    have : v.lossOf s = -e := by
      unfold VGP.lossOf
      rw [he2]
    rw [this, neg_neg, he1]
  refine ⟨best, -v.lossOf best, hb, hel best hb, fun s hs => ⟨_, hel s hs, neg_le_neg (hmax s hs).1, fun e => (hmax s hs).2 (neg_injective e)⟩, ?_⟩
  obtain ⟨γ₀, g0, -, hr⟩ := hrun v.q h.q
  refine ⟨γ₀, g0, fun grad hgrad opt hm h0 h1 => ?_⟩
  obtain ⟨run, r1, r2, r3, r4, r5, r6, r7⟩ := hr grad hgrad opt hm h0 h1
  refine ⟨run, fun N => -v.lossOf (run N), fun N => ((run N).mus, fun t => blk (run N).Kd t t), (best.mus, fun t => blk best.Kd t t), r1,
    fun N => hel _ (r2 N), fun i j hij => neg_le_neg (r3 hij), r4.neg, r5, fun N => SSM.marginals_eq (r2 N) h.two hc.pos, SSM.marginals_eq hb h.two hc.pos,
    r6.prodMk_nhds ?_, fun p new n0 n1 => ?_⟩
  · exact tendsto_pi_nhds.2 fun t => tendsto_pi_nhds.2 fun a => tendsto_pi_nhds.2 fun b =>
      (continuous_apply_apply (t, a) (t, b)).continuousAt.tendsto.comp r7
  · exact predict_run_tendsto v.posterior h.builds h.noise h.two h.times.monotone r2 hb r6 r7 n0 n1

/-- C82, sparse variational GP: the same for training on a fixed batch of data, as a function of the distribution of the inducing states. -/
theorem C82_svgp {v : SVGP n o d} {k} (h : v.Valid k) (he : ExactLikelihood v.likelihood) (hl : LogConcaveLikelihood v.likelihood)
    (hs : SmoothVarExp v.likelihood) {X : Fin p → ℝ} (h0 : ∀ j, -10000000000 < X j) (h1 : ∀ j, X j ≤ 10000000000)
    (hem : ∀ j a, v.kernel.emission (X j) a ≠ 0) (Y : Fin p → Vec o) :
    ∃ (best : SSM n d) (e : ℝ), best.Nondegenerate ∧ ({ v with q := best } : SVGP n o d).elbo X Y = .ok e ∧
      (∀ s : SSM n d, s.Nondegenerate → ∃ e', ({ v with q := s } : SVGP n o d).elbo X Y = .ok e' ∧ e' ≤ e ∧ (e' = e → s.law = best.law)) ∧
      ∀ q₀ : SSM n d, q₀.Nondegenerate →
      ∃ γ₀ : ℝ, 0 < γ₀ ∧ ∀ grad : ℕ → SSM n d → ExpPar n d × ExpPar n d, GivesGradient (v.lossOf X Y) grad →
        ∀ opt : NatGrad n d, opt.momentum = false → 0 < opt.gamma → opt.gamma ≤ γ₀ → ∃ (run : ℕ → SSM n d) (b : ℕ → ℝ)
          (m : ℕ → (Fin (n + 1) → Vec d) × (Fin (n + 1) → Mat d d)) (m' : (Fin (n + 1) → Vec d) × (Fin (n + 1) → Mat d d)),
          (∀ N, NatGrad.steps grad N (opt, q₀) = .ok (opt, run N)) ∧ (∀ N, ({ v with q := run N } : SVGP n o d).elbo X Y = .ok (b N)) ∧
          Monotone b ∧ Tendsto b atTop (𝓝 e) ∧ Tendsto (fun N => ssmToNaturals (run N)) atTop (𝓝 (ssmToNaturals best)) ∧
          (∀ N, (run N).marginals = .ok (m N)) ∧ best.marginals = .ok m' ∧ Tendsto m atTop (𝓝 m') ∧
          ∀ (p' : ℕ) (new : Fin p' → ℝ), (∀ j, -10000000000 < new j) → (∀ j, new j ≤ 10000000000) →
            ∃ (f : ℕ → Fin p' → Vec o × Mat o o) (f' : Fin p' → Vec o × Mat o o),
              (∀ N, ({ v with q := run N } : SVGP n o d).posterior.predictF new = .ok (f N)) ∧
              ({ v with q := best } : SVGP n o d).posterior.predictF new = .ok f' ∧ Tendsto f atTop (𝓝 f') := by
  obtain ⟨hc, -, -⟩ := Builds.good h.builds
  obtain ⟨fx, P, T, hf, hst⟩ := SVGP.stats_ok h h0 h1
  obtain ⟨s0, hs0, hsn, hL⟩ := SVGP.lossOf_formula h h0 h1 Y hst
  set J : Fin p → Fin (n + 2) := fun i => searchsortedLeft v.inducing (X i) with hJ
  obtain ⟨best, hb, hmax, hrun⟩ := NatDyn.natgrad_converges (p := s0) he hl hs h.two hc.pos hsn (ι := Fin p × Fin o)
    (fun i => pairRow (projRow v.kernel X P i.1 i.2) (J i.1))
    (α := fun i : Fin p × Fin o => pairSiteNaturals (Pi.single (J i.1) (projRow v.kernel X P i.1 i.2)) 0)
    (β := fun i => pairSiteNaturals 0 (Pi.single (J i.1) (vecMulVec (projRow v.kernel X P i.1 i.2) (projRow v.kernel X P i.1 i.2))))
    (κ := fun _ => v.scale p) (b := fun i => v.meanFunction (X i.1) i.2) (r := fun i => restRow v.kernel v.inducing X P T i.1 i.2)
    (y := fun i => Y i.1 i.2) (L := v.lossOf X Y)
    (fun i => pairSiteNaturals_symDiag fun j => transpose_zero)
    (fun i => pairSiteNaturals_symDiag fun j => by
      by_cases hj : j = J i.1
      · rw [hj, Pi.single_eq_same, transpose_vecMulVec]
      · rw [Pi.single_eq_of_ne hj, transpose_zero])
    (fun i s => by rw [(pairing_single _ (J i.1) s).1, pairRow_mean])
    (fun i s => by rw [(pairing_single _ (J i.1) s).2, pairRow_mean, pairRow_var])
    (fun i => denseOf_zero_pair) (fun i => denseOf_pairRow _ _)
    (fun i => by
      funext t a
      show (0 : ℝ) + 0 = 0
      rw [add_zero]) (fun _ => SVGP.scale_nonneg v p)
    (fun i => restRow_nonneg h.builds h.noise h.jitter h.times.monotone h0 h1 hst i.1 i.2)
    (fun s hs i => by
      rw [pairRow_var]
      exact row_var_pos h.builds h.noise h.jitter hs h.times.monotone h0 h1 hst i.1 i.2 (hem i.1 i.2))
    (fun s hs => by
      rw [(hL s hs).2]
      congr 1
      refine Finset.sum_congr rfl fun i _ => ?_
      rw [pairRow_mean, pairRow_var])
  refine ⟨best, -v.lossOf X Y best, hb, (hL best hb).1,
    fun s hs => ⟨_, (hL s hs).1, neg_le_neg (hmax s hs).1, fun e => (hmax s hs).2 (neg_injective e)⟩, fun q₀ hq₀ => ?_⟩
  obtain ⟨γ₀, g0, -, hr⟩ := hrun q₀ hq₀
  refine ⟨γ₀, g0, fun grad hgrad opt hm k0 k1 => ?_⟩
  obtain ⟨run, r1, r2, r3, r4, r5, r6, r7⟩ := hr grad hgrad opt hm k0 k1
  refine ⟨run, fun N => -v.lossOf X Y (run N), fun N => ((run N).mus, fun t => blk (run N).Kd t t), (best.mus, fun t => blk best.Kd t t), r1,
    fun N => (hL _ (r2 N)).1, fun i j hij => neg_le_neg (r3 hij), r4.neg, r5, fun N => SSM.marginals_eq (r2 N) h.two hc.pos, SSM.marginals_eq hb h.two hc.pos,
    r6.prodMk_nhds ?_, fun p new n0 n1 => ?_⟩
  · exact tendsto_pi_nhds.2 fun t => tendsto_pi_nhds.2 fun a => tendsto_pi_nhds.2 fun b =>
      (continuous_apply_apply (t, a) (t, b)).continuousAt.tendsto.comp r7
  · exact predict_run_tendsto v.posterior h.builds h.noise h.two h.times.monotone r2 hb r6 r7 n0 n1

/-- C82, sparse CVI: `update_sites((X, Y))` on a fixed batch, from any sites whose `dist_q` exists, with any small enough constant learning rate: all calls
succeed, `classic_elbo((X, Y))` never decreases and converges to the largest bound that any distribution of the inducing states attains, and the predictions
converge to those of the best distribution. -/
theorem C82_sparse_cvi {c : SparseCVI n d} {k} (h : c.Valid k) (he : ExactLikelihood c.likelihood) (hl : LogConcaveLikelihood c.likelihood)
    (hs : SmoothVarExp c.likelihood) {X : Fin p → ℝ} (h0 : ∀ j, -10000000000 < X j) (h1 : ∀ j, X j ≤ 10000000000)
    (hem : ∀ j, c.kernel.emission (X j) ≠ 0) (Y : Fin p → Vec 1) {q : SSM n d} (hq : c.distQ = .ok q) :
    ∃ (best : SSM n d) (e : ℝ), best.Nondegenerate ∧ (c.toSVGP best).elbo X Y = .ok e ∧
      (∀ s : SSM n d, s.Nondegenerate → ∃ e', (c.toSVGP s).elbo X Y = .ok e' ∧ e' ≤ e ∧ (e' = e → s.law = best.law)) ∧
      ∃ r₀ : ℝ, 0 < r₀ ∧ ∀ r, 0 < r → r ≤ r₀ → ∃ (cs : ℕ → SparseCVI n d) (run : ℕ → SSM n d) (b : ℕ → ℝ),
          (∀ N, SparseCVI.updates (fun _ => X) (fun _ => Y) { c with learningRate := r } N = .ok (cs N)) ∧ (∀ N, (cs N).distQ = .ok (run N)) ∧
          (∀ N, (cs N).classicElbo X Y = .ok (b N)) ∧
          Monotone b ∧ Tendsto b atTop (𝓝 e) ∧ Tendsto (fun N => ssmToNaturals (run N)) atTop (𝓝 (ssmToNaturals best)) ∧
          ∀ (p' : ℕ) (new : Fin p' → ℝ), (∀ j, -10000000000 < new j) → (∀ j, new j ≤ 10000000000) →
            ∃ (f : ℕ → Fin p' → Vec 1 × Mat 1 1) (f' : Fin p' → Vec 1 × Mat 1 1),
              (∀ N, ∃ post, (cs N).posterior = .ok post ∧ post.predictF new = .ok (f N)) ∧
              (c.toSVGP best).posterior.predictF new = .ok f' ∧ Tendsto f atTop (𝓝 f') := by
  obtain ⟨hc, -, -⟩ := Builds.good h.builds
  have hd := hs.differentiable
  have hem' : ∀ (q : SSM n d) j (a : Fin 1), (c.toSVGP q).kernel.emission (X j) a ≠ 0 := fun q t a h0 => hem t (by
    funext b
    rw [Subsingleton.elim b a]; exact h0)
  have hqn : q.Nondegenerate := by
    obtain ⟨_, -, -, hq1, -⟩ := C36_dist_q h
    exact (hq1 q hq).1
  obtain ⟨best, e, hb, hbe, hmax, hrun⟩ := C82_svgp (SparseCVI.toSVGP_valid h hqn) he hl hs h0 h1 (hem' q) Y
  obtain ⟨r₀, hr0, hr⟩ := hrun q hqn
  refine ⟨best, e, hb, hbe, hmax, r₀, hr0, fun r k0 k1 => ?_⟩
  -- gradients
  have hex : ∀ q' : SSM n d, ∃ g : ExpPar n d, q'.Nondegenerate → IsGradient (lossOfExpectations ((c.toSVGP q).lossOf X Y)) (expPar q') g := fun q' => by
    by_cases hq' : q'.Nondegenerate
    · obtain ⟨p, η, fx, P, T, hp, hη, -, hst, -, hgr⟩ := C56_sparse_gradient h hd hq' h0 h1 hem Y
      replace hgr := isGradient_of_total hq' h.two hc.pos hη (hgr _ (fun _ => rfl) _ (fun _ => rfl))
      obtain rfl : η = expPar q' := Except.ok.inj (hη.symm.trans (ssmToExpectations_eq q' hq' h.two hc.pos))
      exact ⟨_, fun _ => hgr⟩
    · exact ⟨0, fun h => absurd h hq'⟩
  choose g hg using hex
  have hgrad : GivesGradient ((c.toSVGP q).lossOf X Y) (fun _ q' => (g q', 0)) := fun i q' η hq' hη => by
    obtain rfl : η = expPar q' := Except.ok.inj (hη.symm.trans (ssmToExpectations_eq q' hq' h.two hc.pos))
    exact hg q' hq'
  obtain ⟨run, b, m, m', a1, a2, a3, a4, a5, -, -, -, a6⟩ := hr _ hgrad (NatGrad.init r false 0 0 0) rfl k0 k1
  set c₂ : SparseCVI n d := { c with learningRate := r } with hc₂
  have hv : c₂.Valid k := ⟨h.builds, h.noise, h.jitter, h.times, h.lower, h.upper, h.two, h.symm⟩
  have hq₂ : c₂.distQ = .ok q := hq
  have hstep := fun N => C56_sparse_steps hv hd (fun _ => h0) (fun _ => h1) (fun _ => hem) (fun _ => Y) hq₂ (grad := fun _ q' => (g q', 0))
    (fun i => hgrad i) (NatGrad.init r false 0 0 0) rfl rfl N
  have hcs : ∀ N, ∃ c', SparseCVI.updates (fun _ => X) (fun _ => Y) c₂ N = .ok c' ∧ c'.distQ = .ok (run N) := fun N => by
    have e1 := hstep N
    rw [a1 N] at e1
    cases hu : SparseCVI.updates (fun _ => X) (fun _ => Y) c₂ N with
    | error e => rw [hu] at e1; exact absurd e1 (by simp [Bind.bind, Except.bind, Except.map])
    | ok c' =>
      rw [hu] at e1
      refine ⟨c', rfl, ?_⟩
      simp only [Bind.bind, Except.bind] at e1
      cases hdq : c'.distQ with
      | error e => rw [hdq] at e1; exact absurd e1 (by simp [Except.map])
      | ok q' =>
        rw [hdq] at e1
        have e2 := Except.ok.inj e1
        rw [(Prod.mk.inj e2).2]
  choose cs u1 u2 using hcs
  have hsame : ∀ N s, (cs N).toSVGP s = c.toSVGP s := fun N s => by
    rw [(SparseCVI.updates_ok hv (u1 N)).2]; rfl
  refine ⟨cs, run, b, u1, u2, fun N => ?_, a3, a4, a5, fun p' new n0 n1 => ?_⟩
  · rw [C56_sparse_same_bound (u2 N), hsame]
    exact a2 N
  · obtain ⟨f, f', f1, f2, f3⟩ := a6 p' new n0 n1
    refine ⟨f, f', fun N => ⟨((cs N).toSVGP (run N)).posterior, ?_, ?_⟩, f2, f3⟩
    · unfold SparseCVI.posterior
      rw [u2 N]; rfl
    · rw [hsame]
      exact f1 N

/-- Non-vacuity: a variational GP on three counts with a Poisson likelihood, a Matérn kernel and any non-degenerate initial distribution meets the hypotheses, the
gradients exist, and so training it with small rates converges. -/
example : ∃ (v : VGP 2 1 2) (k : ℝ → ℝ → Mat 1 1) (e γ₀ : ℝ) (grad : ℕ → SSM 2 2 → ExpPar 2 2 × ExpPar 2 2), v.Valid k ∧ v.likelihood = poissonLikelihood ∧
    0 < γ₀ ∧ GivesGradient v.lossOf grad ∧ ∀ γ, 0 < γ → γ ≤ γ₀ → ∃ (run : ℕ → SSM 2 2) (b : ℕ → ℝ),
      (∀ N, NatGrad.steps grad N (NatGrad.init γ false 0 0 0, v.q) = .ok (NatGrad.init γ false 0 0 0, run N)) ∧
      (∀ N, ({ v with q := run N } : VGP 2 1 2).elbo = .ok (b N)) ∧ Tendsto b atTop (𝓝 e) := by
  obtain ⟨K, hK⟩ := (C28_constructors (o := 1) 2 1 1 1 1 0).2.1.2 (by norm_num)
  have hB : Builds K (iso (matern32Cov 2 1)) := .leaf (.matern32 hK)
  have hts : StrictMono (![0, 1, 3] : Fin 3 → ℝ) := by
    refine Fin.strictMono_iff_lt_succ.2 fun i => ?_
    fin_cases i <;> simp
  have hj : K.jitter = 0 := by rw [(kernelInit_ok hK).2.2]; rfl
  obtain ⟨s, -, hnd⟩ := kernel_ssm_nondegenerate hB (.matern32 hK) two_pos hts
  set v : VGP 2 1 2 := ⟨![0, 1, 3], fun i => ![(i : ℝ)], K, poissonLikelihood, fun _ => 0, s⟩ with hv
  have hV : ∀ q : SSM 2 2, q.Nondegenerate → ({ v with q := q } : VGP 2 1 2).Valid (iso (matern32Cov 2 1)) := fun q hq =>
    ⟨hB, .matern32 hK, hj, hts, by show -10000000000 < (0 : ℝ); norm_num, by show (3 : ℝ) ≤ 10000000000; norm_num, two_pos, hq⟩
  have hem : ∀ t a, v.kernel.emission (v.times t) a ≠ 0 := fun t a h => by
    have := congrFun h 0
    rw [show v.kernel = K from rfl, (kernelInit_ok hK).2.2] at this
    rw [Subsingleton.elim a 0] at this
    exact one_ne_zero this
  have hex : ∀ q' : SSM 2 2, ∃ g : ExpPar 2 2, q'.Nondegenerate → IsGradient (lossOfExpectations v.lossOf) (expPar q') g := fun q' => by
    by_cases hq' : q'.Nondegenerate
    · obtain ⟨_, η, _, _, -, hη, -, hgr⟩ := C56_gradient (hV q' hq') poisson_differentiable hem
      replace hgr := isGradient_of_total hq' two_pos two_pos hη hgr
      obtain rfl : η = expPar q' := Except.ok.inj (hη.symm.trans (ssmToExpectations_eq q' hq' two_pos two_pos))
      exact ⟨_, fun _ => hgr⟩
    · exact ⟨0, fun h => absurd h hq'⟩
  choose g hg using hex
  have hgrad : GivesGradient v.lossOf (fun _ q' => (g q', 0)) := fun i q' η hq' hη => by
    obtain rfl : η = expPar q' := Except.ok.inj (hη.symm.trans (ssmToExpectations_eq q' hq' two_pos two_pos))
    exact hg q' hq'
  obtain ⟨best, e, -, -, -, γ₀, g0, hr⟩ := C82_vgp (hV s hnd) poissonLikelihood_exact poissonLikelihood_logConcave poissonLikelihood_smooth hem
  refine ⟨v, _, e, γ₀, _, hV s hnd, rfl, g0, hgrad, fun γ h0 h1 => ?_⟩
  obtain ⟨run, b, -, -, a1, a2, -, a4, -⟩ := hr _ hgrad (NatGrad.init γ false 0 0 0) rfl h0 h1
  exact ⟨run, b, a1, a2, a4⟩

end MF
