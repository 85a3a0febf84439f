import Verif.Lemmas.LogConcavePEP
import Verif.Props.PEP
import Verif.Props.SparsePEP
import Verif.Props.LogConcave

/-!
# C76: with a strictly log-concave likelihood, power EP never breaks down
-/

namespace MF
open Matrix Spec MeasureTheory ProbabilityTheory
variable {n d p : ℕ}

/-- The likelihoods of C76, at a datum `y`: `PEPGaussian`, or `PEPScalarLikelihood` with the exact `predict_log_density` of a likelihood whose
log density `f ↦ log p(y | f)` is strictly concave and bounded above. -/
def ConcavePEP (L : PEPLikelihood) (y : ℝ) : Prop :=
  (∃ s, 0 < s ∧ L = pepGaussian s) ∨
  ∃ lik pld, L = pepScalar lik pld ∧
    (∀ m v y, 0 < v → pld m v y = Real.log (∫ f, Real.exp (lik.logProb f y) ∂gaussianReal m v.toNNReal)) ∧
    StrictConcaveOn ℝ Set.univ (fun f => lik.logProb f y) ∧ ∃ B, ∀ f, lik.logProb f y ≤ B

/-! ### one site -/

/-- C76: whatever the cavity, the second derivative of the log normaliser is negative (so the division in the moment matching step is one by a nonzero
number), and the site has positive precision. -/
theorem C76_site {L : PEPLikelihood} {y : ℝ} (hL : ConcavePEP L y) {v a : ℝ} (hv : 0 < v) (ha : 0 < a) (ha1 : a ≤ 1) (m : ℝ) :
    (L.grads m v y a).2 < 0 ∧ (gradientCorrection m v (L.grads m v y a)).2 < 0 := by
  rcases hL with ⟨s, hs, rfl⟩ | ⟨lik, pld, rfl, hp, hc, B, hB⟩
  · constructor
    · show -a * 1 / (s + v) < 0
      exact div_neg_of_neg_of_pos (by linarith) (by positivity)
    · rw [(C37_gaussian_alpha hs hv.le ha ha1 m y).1]
      have : 0 < s + (1 - a) * v := by
        have := mul_nonneg (sub_nonneg.2 ha1) hv.le
        linarith
      exact mul_neg_of_pos_of_neg ha (div_neg_of_neg_of_pos (by norm_num) (by positivity))
  · have hm : Measurable fun f => lik.logProb f y :=
      (continuousOn_univ.1 (hc.concaveOn.continuousOn isOpen_univ)).measurable
    obtain ⟨τ, hτ⟩ := exists_bayes (π := gaussianReal m v.toNNReal) hm hB
    obtain ⟨-, h2, h3⟩ := tilted_moments hm hB hv m hτ
    have h4 := tilted_var_lt hc hB hv hτ
    have e2 : ((pepScalar lik pld).grads m v y a).2 =
        deriv (deriv fun m => Real.log (∫ f, Real.exp (lik.logProb f y) ∂gaussianReal m v.toNNReal)) m := by
      show deriv (deriv fun m => pld m v y) m = _
      rw [funext fun m => hp m v y hv]
    rw [← e2] at h2
    set g := ((pepScalar lik pld).grads m v y a).2 with hg
    have hvv : 0 < v ^ 2 := by positivity
    have hg0 : g < 0 := by
      by_contra h
      have := mul_nonneg hvv.le (not_lt.1 h)
      linarith
    refine ⟨hg0, ?_⟩
    show 1 / 2 * (v + 1 / g)⁻¹ < 0
    have : v + 1 / g < 0 := by
      have e : v + 1 / g = (v + v ^ 2 * g) / (v * g) := by
        rw [eq_div_iff (mul_ne_zero hv.ne' hg0.ne), add_mul, one_div, mul_comm v g, ← mul_assoc g⁻¹, inv_mul_cancel₀ hg0.ne]
        ring
      rw [e, h2]
      exact div_neg_of_pos_of_neg h3 (mul_neg_of_pos_of_neg hv hg0)
    have := inv_lt_zero.2 this
    linarith

/-! ### `PowerExpectationPropagation` -/

/-- One site step keeps the sign. -/
theorem pep_nat2_step {r a θ g : ℝ} (hr0 : 0 ≤ r) (hr1 : r ≤ 1) (ha0 : 0 < a) (ha1 : a ≤ 1) (hg : g < 0) :
    (θ ≤ 0 → (1 - r) * θ + r * ((1 - a) * θ + g) ≤ 0) ∧ (θ < 0 → (1 - r) * θ + r * ((1 - a) * θ + g) < 0) := by
  have e : (1 - r) * θ + r * ((1 - a) * θ + g) = (1 - r * a) * θ + r * g := by ring
  have h1 : 0 ≤ 1 - r * a := by
    have := mul_le_one₀ hr1 ha0.le ha1
    linarith
  rw [e]
  constructor
  · intro h
    have := mul_nonpos_of_nonneg_of_nonpos h1 h
    have := mul_nonpos_of_nonneg_of_nonpos hr0 hg.le
    linarith
  · intro h
    rcases hr0.eq_or_lt with rfl | hr
    · simpa using h
    · have := mul_nonpos_of_nonneg_of_nonpos h1 h.le
      have := mul_neg_of_pos_of_neg hr hg
      linarith

/-- With a positive prior variance the cavity variances are positive. -/
theorem PEP.cavity_pos {c : PEP n d} {k} (h : c.toBase.Valid k) (hk : ∀ t, 0 < k (c.times t) (c.times t) 0 0) {q} (hq : c.distQ = .ok q) {m v}
    (hmv : c.computeCavity = .ok (m, v)) (t) : 0 < v t 0 := by
  obtain ⟨s, hs, hq1, -⟩ := C34_dist_q h
  have hqn := (hq1 q hq).1
  obtain ⟨hco, -, hden⟩ := Builds.good h.builds
  have hcc : c.computeCavity = c.cavityFromMarginals (q.mus, fun t => blk q.Kd t t) := by
    unfold PEP.computeCavity
    rw [hq]
    simp only [bind, Except.bind, SSM.marginals_eq hqn h.two hco.pos]
  obtain ⟨h1, h2⟩ := c.cavity_cases hqn
  rw [← hcc] at h1 h2
  have hp : ∀ t, (c.cavPrec q t).PosDef := by
    by_contra hp
    rw [h2 hp] at hmv; cases hmv
  obtain ⟨rfl, rfl⟩ := Prod.mk.inj (Except.ok.inj ((h1 hp).symm.trans hmv))
  have hne : c.row t ≠ 0 := fun h0 => by
    have := hden.cov (c.times t) (c.times t) le_rfl
    have hz : c.kernel.emission (c.times t) = 0 := by
      ext i j
      obtain rfl : i = 0 := Subsingleton.elim _ _
      exact congrFun h0 j
    have h3 := hk t
    have e : c.toBase.kernel.emission (c.times t) = 0 := hz
    rw [← this, e] at h3
    simp at h3
  have := (hp t).inv.dotProduct_mulVec_pos hne
  simpa using this

/-- C76: from sites with `nat2 ≤ 0`, for any power in `(0, 1]`, any learning rate in `[0, 1]` and any schedule (each call is given any indices, none of
them twice), every `update_sites` succeeds; afterwards `dist_q`, the cavities and `energy()` exist, the cavities have positive variances, no site has a
negative precision, and no site that had a positive precision has lost it. -/
theorem C76_pep {c : PEP n d} {k} (h : c.toBase.Valid k) (hk : ∀ t, 0 < k (c.times t) (c.times t) 0 0)
    (hL : ∀ t, ConcavePEP c.likelihood (c.observations t 0)) (ha0 : 0 < c.alpha) (ha1 : c.alpha ≤ 1) (hr0 : 0 ≤ c.learningRate)
    (hr1 : c.learningRate ≤ 1) (hneg : ∀ t, c.sites.nat2 t 0 0 ≤ 0) (is : List (Option (List (Fin (n + 1)))))
    (his : ∀ l, some l ∈ is → l.Nodup) :
    ∃ (c' : PEP n d) (q' : SSM n d) (m v : Fin (n + 1) → Vec 1) (E : ℝ), PEP.updates is c = .ok c' ∧ c'.distQ = .ok q' ∧
      c'.computeCavity = .ok (m, v) ∧ c'.energy = .ok E ∧ c' = { c with sites := c'.sites, logNorm := c'.logNorm } ∧
      ∀ t, 0 < v t 0 ∧ c'.sites.nat2 t 0 0 ≤ 0 ∧ (c.sites.nat2 t 0 0 < 0 → c'.sites.nat2 t 0 0 < 0) := by
  induction is generalizing c with
  | nil =>
    obtain ⟨q, ⟨m, v⟩, hq, hmv⟩ := C37_cavity_exists h hneg ha1
    have hv := PEP.cavity_pos h hk hq hmv
    obtain ⟨s, E, -, -, -, hE, -⟩ := C37_energy h hq hmv hv
    exact ⟨c, q, m, v, E, rfl, hq, hmv, hE, rfl, fun t => ⟨hv t, hneg t, id⟩⟩
  | cons i is ih =>
    obtain ⟨q, ⟨m, v⟩, hq, hmv⟩ := C37_cavity_exists h hneg ha1
    have hv := PEP.cavity_pos h hk hq hmv
    obtain ⟨c1, hu, e1, hn⟩ : ∃ c1, c.updateSites i = .ok c1 ∧ c1 = { c with sites := c1.sites, logNorm := c1.logNorm } ∧
        ∀ t, c1.sites.nat2 t 0 0 ≤ 0 ∧ (c.sites.nat2 t 0 0 < 0 → c1.sites.nat2 t 0 0 < 0) := by
      cases i with
      | none => exact ⟨c, C37_update_none h hq hmv, rfl, fun t => ⟨hneg t, id⟩⟩
      | some l =>
        obtain ⟨c1, hu, e1, hin, hout⟩ := C37_update h hq hmv (his l (by simp))
        refine ⟨c1, hu, e1, fun t => ?_⟩
        by_cases ht : t ∈ l
        · obtain ⟨L, hLe, -, e2⟩ := hin t ht
          obtain ⟨s1, s2⟩ := pep_nat2_step (θ := c.sites.nat2 t 0 0) hr0 hr1 ha0 ha1
            (C76_site (hL t) (hv t) ha0 ha1 (m t 0)).2
          rw [← hLe, ← e2] at s1 s2
          exact ⟨s1 (hneg t), s2⟩
        · rw [(hout t ht).2.1]
          exact ⟨hneg t, id⟩
    have hv1 : c1.toBase.Valid k := by
      rw [e1]; exact ⟨h.builds, h.noise, h.jitter, h.times, h.lower, h.upper, h.two⟩
    have x1 : c1.times = c.times := by rw [e1]
    have x2 : c1.likelihood = c.likelihood := by rw [e1]
    have x3 : c1.observations = c.observations := by rw [e1]
    have x4 : c1.alpha = c.alpha := by rw [e1]
    have x5 : c1.learningRate = c.learningRate := by rw [e1]
    obtain ⟨c', q', m', v', E, i1, i2, i3, i4, i5, i6⟩ := ih hv1 (by rw [x1]; exact hk) (by rw [x2, x3]; exact hL) (x4 ▸ ha0) (x4 ▸ ha1)
      (x5 ▸ hr0) (x5 ▸ hr1) (fun t => (hn t).1) fun l hl => his l (List.mem_cons_of_mem _ hl)
    refine ⟨c', q', m', v', E, ?_, i2, i3, i4, by rw [i5, e1], fun t => ⟨(i6 t).1, (i6 t).2.1, fun ht => (i6 t).2.2 ((hn t).2 ht)⟩⟩
    unfold PEP.updates
    rw [hu]; exact i1

/-- C76: a newly built model: after any schedule `posterior_kalman` and `elbo()` exist too. -/
theorem C76_pep_init {times : Fin (n + 1) → ℝ} {K : Stationary 1 d} {k} (hK : Builds K k) (hN : NoiseTag K true) (hj : K.jitter = 0)
    (ht : StrictMono times) (h0 : -10000000000 < times 0) (h1 : times (Fin.last n) ≤ 10000000000) (hn : 0 < n)
    (hk : ∀ t, 0 < k (times t) (times t) 0 0) (Y : Fin (n + 1) → Vec 1) {lik : PEPLikelihood} (hL : ∀ t, ConcavePEP lik (Y t 0))
    (mf : Option (ℝ → Vec 1)) {r a : ℝ} (hr0 : 0 ≤ r) (hr1 : r ≤ 1) (ha0 : 0 < a) (ha1 : a ≤ 1)
    (is : List (Option (List (Fin (n + 1))))) (his : ∀ l, some l ∈ is → l.Nodup) :
    ∃ (c : PEP n d) (q : SSM n d) (m v : Fin (n + 1) → Vec 1) (f : KF n d 1) (e E : ℝ),
      PEP.updates is (PEP.init times Y K lik mf r a) = .ok c ∧ c.distQ = .ok q ∧ c.computeCavity = .ok (m, v) ∧
      c.toBase.posteriorKalman = .ok f ∧ c.elbo = .ok e ∧ c.energy = .ok E ∧ ∀ t, 0 < v t 0 ∧ c.sites.nat2 t 0 0 < 0 := by
  have hv : (PEP.init times Y K lik mf r a).toBase.Valid k := ⟨hK, hN, hj, ht, h0, h1, hn⟩
  have hneg : ∀ t, (PEP.init times Y K lik mf r a).sites.nat2 t 0 0 < 0 := fun t => by show (-1e-10 : ℝ) < 0; norm_num
  obtain ⟨c, q, m, v, E, i1, i2, i3, i4, i5, i6⟩ := C76_pep hv hk hL ha0 ha1 hr0 hr1 (fun t => (hneg t).le) is his
  have hv' : c.toBase.Valid k := by
    rw [i5]; exact ⟨hK, hN, hj, ht, h0, h1, hn⟩
  obtain ⟨s, q1, q', f, e, -, -, a3, -, -, -, a7, -⟩ := C34_kalman hv' fun t => (i6 t).2.2 (hneg t)
  exact ⟨c, q, m, v, f, e, E, i1, i2, i3, a3, a7, i4, fun t => ⟨(i6 t).1, (i6 t).2.2 (hneg t)⟩⟩

/-! ### `SparsePowerExpectationPropagation` -/

/-- Successive calls of `update_sites`, each with its own batch of data (inputs and observations). -/
noncomputable def SparsePEP.history : List ((p : ℕ) × (Fin p → ℝ) × (Fin p → Vec 1)) → SparsePEP n d → Except Err (SparsePEP n d)
  | [], c => pure c
  | b :: bs, c => do
    let c' ← c.updateSites b.2.1 b.2.2
    SparsePEP.history bs c'

open Classical in
/-- C76: sparse power EP, on any history of batches of any sizes between the first and the last inducing time: every `update_sites` succeeds, `dist_q`
exists after it, and so do, for every further batch, the cavities and `energy`. -/
theorem C76_sparse_pep {c : SparsePEP n d} {k} (h : c.Valid k) (hneg : ∀ j v, v ⬝ᵥ (c.nat2 j *ᵥ v) ≤ 0) (ha0 : 0 ≤ c.alpha) (ha1 : c.alpha ≤ 1)
    (hr0 : 0 ≤ c.learningRate) (hr1 : c.learningRate ≤ 1) (bs : List ((p : ℕ) × (Fin p → ℝ) × (Fin p → Vec 1)))
    (hbs : ∀ b ∈ bs, ∀ i, c.inducing 0 < b.2.1 i ∧ b.2.1 i ≤ c.inducing (Fin.last n) ∧ ConcavePEP c.likelihood (b.2.2 i 0)) :
    ∃ (c' : SparsePEP n d) (q' : SSM n d), SparsePEP.history bs c = .ok c' ∧ c'.distQ = .ok q' ∧ c'.Valid k ∧
      c' = { c with nat1 := c'.nat1, nat2 := c'.nat2, logNorm := c'.logNorm } ∧
      (∀ j v, v ⬝ᵥ (c'.nat2 j *ᵥ v) ≤ (1 - c.alpha * c.learningRate) ^ bs.length * (v ⬝ᵥ (c.nat2 j *ᵥ v))) ∧
      ∀ (p : ℕ) (X : Fin p → ℝ) (Y : Fin p → Vec 1), (∀ i, c.inducing 0 < X i ∧ X i ≤ c.inducing (Fin.last n)) →
        ∃ r E, c'.computeCavity X = .ok r ∧ c'.energy X Y = .ok E := by
  have ra0 : 0 ≤ c.alpha * c.learningRate := mul_nonneg ha0 hr0
  have ra1 : c.alpha * c.learningRate ≤ 1 := mul_le_one₀ ha1 hr0 hr1
  induction bs generalizing c with
  | nil =>
    obtain ⟨s, hs, -, -, hq2, -⟩ := C47_dist_q h
    obtain ⟨q, hq⟩ := hq2 hneg
    refine ⟨c, q, rfl, hq, h, rfl, fun j v => by simp, fun p X Y hX => ?_⟩
    obtain ⟨-, ⟨⟨m, v⟩, hmv⟩, hsc⟩ := C47_cavity_exists h hneg ha0 ha1 (fun i => (hX i).1) fun i => (hX i).2
    choose q' hq' using hsc
    obtain ⟨_, -, hE⟩ := C47_energy h (fun i => h.lower.trans (hX i).1) (fun i => (hX i).2.trans h.upper) Y hmv
      (J := fun i => searchsortedLeft c.inducing (X i)) (fun i => (inInterval_iff h.times.monotone _ (X i)).1 rfl) hq'
    exact ⟨_, _, hmv, hE⟩
  | cons b bs ih =>
    obtain ⟨p, X, Y⟩ := b
    have hb := hbs _ (List.mem_cons_self ..)
    dsimp only at hb
    have h0 : ∀ i, c.inducing 0 < X i := fun i => (hb i).1
    have h1 : ∀ i, X i ≤ c.inducing (Fin.last n) := fun i => (hb i).2.1
    have h0' : ∀ i, -10000000000 < X i := fun i => h.lower.trans (h0 i)
    have h1' : ∀ i, X i ≤ 10000000000 := fun i => (h1 i).trans h.upper
    obtain ⟨⟨q, hq⟩, ⟨⟨m, v⟩, hmv⟩, -⟩ := C47_cavity_exists h hneg ha0 ha1 h0 h1
    obtain ⟨P, T, hst, hcav⟩ := (C47_cavity h hq h0' h1').1 m v hmv
    obtain ⟨θ₁, θ₂, P', T', hst', hθ, hu, -⟩ := C47_update h hq h0' h1' Y hmv
    obtain ⟨rfl, rfl⟩ := Prod.mk.inj (Except.ok.inj (hst'.symm.trans hst))
    have hθ := hθ _ (fun _ => rfl) _ fun _ => rfl
    obtain ⟨P₂, T₂, hst₂, hT⟩ := kernel_stats h.builds h.noise h.times.monotone h0' h1'
    obtain ⟨rfl, rfl⟩ := Prod.mk.inj (Except.ok.inj (hst'.symm.trans hst₂))
    have hterm : ∀ i (x : Fin d ⊕ Fin d → ℝ), (gradientCorrection (m i 0) (v i 0) (c.likelihood.grads (m i 0) (v i 0) (Y i 0) 1)).2 *
        ((c.kernel.emission (X i) * P' i) 0 ⬝ᵥ x) ^ 2 ≤ 0 := fun i x => by
      obtain ⟨μ, K, w, hw, hK, -, -, hv, hv0⟩ := hcav i _ ((inInterval_iff h.times.monotone _ (X i)).1 rfl)
      rcases hv0.eq_or_lt with hz | hpos
      · by_cases hw0 : w = 0
        · rw [← hw, hw0]; simp
        · exfalso
          have hwK := hK.dotProduct_mulVec_pos hw0
          rw [star_trivial] at hwK
          have := posSemidef_conj' (hT i) (c.kernel.emission (X i))
          have := this.diag_nonneg (i := 0)
          linarith
      · exact mul_nonpos_of_nonpos_of_nonneg (C76_site (hb i).2.2 hpos one_pos le_rfl _).2.le (sq_nonneg _)
    have hstep : ∀ j x, x ⬝ᵥ (θ₂ j *ᵥ x) ≤ (1 - c.alpha * c.learningRate) * (x ⬝ᵥ (c.nat2 j *ᵥ x)) := fun j x => by
      rw [(hθ j).2, add_mulVec, smul_mulVec, smul_mulVec, dotProduct_add, dotProduct_smul, dotProduct_smul, smul_eq_mul,
        smul_eq_mul, dot_sum_quad]
      have := mul_nonpos_of_nonneg_of_nonpos ra0 (Finset.sum_nonpos fun i (_ : i ∈ Finset.univ.filter fun i =>
        InInterval c.inducing j (X i)) => hterm i x)
      linarith
    have hneg' : ∀ j x, x ⬝ᵥ (θ₂ j *ᵥ x) ≤ 0 := fun j x =>
      (hstep j x).trans (mul_nonpos_of_nonneg_of_nonpos (sub_nonneg.2 ra1) (hneg j x))
    have hval : ∀ z, ({ c with nat1 := θ₁, nat2 := θ₂, logNorm := z } : SparsePEP n d).Valid k := fun z =>
      ⟨h.builds, h.noise, h.jitter, h.times, h.lower, h.upper, h.two, fun j => by
        show (θ₂ j)ᵀ = θ₂ j
        rw [(hθ j).2]
        simp only [transpose_add, transpose_smul, h.symm, transpose_sum, transpose_vecMulVec]⟩
    obtain ⟨⟨q1, hq1⟩, ⟨⟨m1, v1⟩, hmv1⟩, hsc⟩ := C47_cavity_exists (hval c.logNorm) hneg' ha0 ha1 h0 h1
    choose q' hq' using hsc
    have hln := hu _ (C47_log_norm (hval c.logNorm) hq1 h0' h1' Y hmv1 hq')
    obtain ⟨c', q', i1, i2, i3, i4, i5, i6⟩ := ih (hval _) hneg' ha0 ha1 hr0 hr1 (fun b hb => hbs b (List.mem_cons_of_mem _ hb)) ra0 ra1
    refine ⟨c', q', ?_, i2, i3, i4, fun j x => (i5 j x).trans ?_, i6⟩
    · unfold SparsePEP.history
      rw [hln]; exact i1
    · rw [List.length_cons, pow_succ, mul_assoc]
      exact mul_le_mul_of_nonneg_left (hstep j x) (pow_nonneg (sub_nonneg.2 ra1) _)

/-! ### non-vacuity -/

/-- The Poisson likelihood with exact `predict_log_density`, at any count. -/
theorem concavePEP_poisson (y : ℕ) : ConcavePEP (pepScalar poissonLikelihood fun m v y =>
    Real.log (∫ f, Real.exp (poissonLikelihood.logProb f y) ∂gaussianReal m v.toNNReal)) y := by
  refine .inr ⟨poissonLikelihood, _, rfl, fun _ _ _ _ => rfl, ⟨convex_univ, fun a _ b _ hab s t hs ht hst => ?_⟩, y * Real.log y, fun f => ?_⟩
  · have := strictConvexOn_exp.2 (Set.mem_univ a) (Set.mem_univ b) hab hs ht hst
    simp only [smul_eq_mul, poissonLikelihood] at this ⊢
    obtain rfl : t = 1 - s := by linarith
    linarith
  · show y * f - Real.exp f - Real.log (Real.Gamma (y + 1)) ≤ _
    rw [Real.Gamma_nat_eq_factorial]
    have h1 : 0 ≤ Real.log (y.factorial : ℝ) := Real.log_nonneg (by exact_mod_cast y.factorial_pos)
    rcases Nat.eq_zero_or_pos y with rfl | hk
    · have := Real.exp_pos f
      simp only [Nat.cast_zero, zero_mul] at h1 ⊢
      linarith
    · have hk' : (0 : ℝ) < y := by exact_mod_cast hk
      have h2 := Real.add_one_le_exp (f - Real.log y)
      rw [Real.exp_sub, Real.exp_log hk', le_div_iff₀ hk'] at h2
      nlinarith

/-- Non-vacuity: a Matérn 3/2 kernel and three counts 0, 1, 2 with a Poisson likelihood, power 1/2, learning rate 1: all hypotheses hold, and every
schedule without repetitions inside a call succeeds; the same likelihood in the sparse model, whose constructor gives a valid object. -/
example : ∃ (K : Stationary 1 2) (lik : PEPLikelihood),
    (∀ is : List (Option (List (Fin 3))), (∀ l, some l ∈ is → l.Nodup) → ∃ (c : PEP 2 2) (e E : ℝ),
      PEP.updates is (PEP.init ![0, 1, 3] (fun i => ![((i : ℕ) : ℝ)]) K lik none 1 (1 / 2)) = .ok c ∧ c.elbo = .ok e ∧ c.energy = .ok E) ∧
    ∀ (N p : ℕ) (X : Fin p → ℝ) (Y : Fin p → ℕ), (∀ i, 0 < X i ∧ X i ≤ 3) → ∃ (c : SparsePEP 2 2) (q : SSM 2 2),
      SparsePEP.history (List.replicate N ⟨p, X, fun i => ![(Y i : ℝ)]⟩) (SparsePEP.init K ![0, 1, 3] lik none 1 (1 / 2)) = .ok c ∧
      c.distQ = .ok q := by
  obtain ⟨K, hK⟩ := (C28_constructors (o := 1) 2 3 1 1 1 0).2.1.2 (by norm_num)
  have hj : K.jitter = 0 := by rw [(kernelInit_ok hK).2.2]; rfl
  have hm : StrictMono (![0, 1, 3] : Fin 3 → ℝ) := by
    refine Fin.strictMono_iff_lt_succ.2 fun i => ?_
    fin_cases i <;> simp <;> norm_num
  have h0 : (-10000000000 : ℝ) < (![0, 1, 3] : Fin 3 → ℝ) 0 := by show -10000000000 < (0 : ℝ); norm_num
  have h1 : (![0, 1, 3] : Fin 3 → ℝ) (Fin.last 2) ≤ 10000000000 := by show (3 : ℝ) ≤ 10000000000; norm_num
  refine ⟨K, pepScalar poissonLikelihood fun m v y => Real.log (∫ f, Real.exp (poissonLikelihood.logProb f y) ∂gaussianReal m v.toNNReal),
    fun is his => ?_, fun N p X Y hX => ?_⟩
  · obtain ⟨c, _, _, _, _, e, E, a1, -, -, -, a5, a6, -⟩ := C76_pep_init (times := ![0, 1, 3]) (.leaf (.matern32 hK)) (.matern32 hK) hj hm h0 h1
      (by norm_num) (fun t => by simp [iso, matern32Cov]) (fun i => ![((i : ℕ) : ℝ)]) (fun t => concavePEP_poisson (t : ℕ)) none (r := 1) (a := 1 / 2)
      (by norm_num) le_rfl (by norm_num) (by norm_num) is his
    exact ⟨c, e, E, a1, a5, a6⟩
  · obtain ⟨hv, hneg, -⟩ := C47_init (n := 2) (z := ![0, 1, 3]) (.leaf (.matern32 hK)) (.matern32 hK) hj hm h0 h1 (by norm_num) (pepScalar poissonLikelihood
      fun m v y => Real.log (∫ f, Real.exp (poissonLikelihood.logProb f y) ∂gaussianReal m v.toNNReal)) none 1 (1 / 2)
    obtain ⟨c, q, a1, a2, -⟩ := C76_sparse_pep hv hneg (by show (0 : ℝ) ≤ 1 / 2; norm_num) (by show (1 / 2 : ℝ) ≤ 1; norm_num)
      (by show (0 : ℝ) ≤ 1; norm_num) (by show (1 : ℝ) ≤ 1; norm_num) (List.replicate N ⟨p, X, fun i => ![(Y i : ℝ)]⟩) fun b hb i => by
        obtain rfl := List.eq_of_mem_replicate hb
        exact ⟨(hX i).1, (hX i).2, concavePEP_poisson (Y i)⟩
    exact ⟨c, q, a1, a2⟩

end MF
