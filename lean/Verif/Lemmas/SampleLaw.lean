import Verif.Lemmas.Predict

/-! # The law of posterior samples at new times -/

namespace MF
open Matrix Spec MeasureTheory ProbabilityTheory
variable {n d o p : ℕ}

theorem sort_perm {N : ℕ} (σ : Equiv.Perm (Fin N)) : Tuple.sort (σ : Fin N → Fin N) = σ.symm := by
  symm
  rw [Tuple.eq_sort_iff]
  constructor
  · intro i j hij; simpa using hij
  · intro i j hij h
    simp only [Equiv.apply_symm_apply] at h
    exact absurd h hij.ne

/-- Where the conditioning and new time points sit in the joint sequence. -/
def jointIdx : Fin (n + 1) ⊕ Fin p → Fin (n + p + 1) :=
  Sum.elim (fun k => (Fin.castAdd p k).cast (by omega)) fun q => (Fin.natAdd (n + 1) q).cast (by omega)

/-- `joint_time_points` -/
def jointTimes (ts : Fin (n + 1) → ℝ) (new : Fin p → ℝ) : Fin (n + p + 1) → ℝ := fun i =>
  Fin.append ts new (i.cast (by omega))

theorem jointTimes_idx (ts : Fin (n + 1) → ℝ) (new : Fin p → ℝ) :
    jointTimes ts new ∘ jointIdx = Sum.elim ts new := by
  funext x
  cases x with
  | inl k => exact Fin.append_left ts new k
  | inr k => exact Fin.append_right ts new k

/-- Zero-padded corrections. -/
def padEnds (δ : Fin (n + 1) → Vec d) : Fin (n + 3) → Vec d :=
  Fin.cons 0 (Fin.snoc (α := fun _ => Vec d) δ 0)

theorem sampleStateTrajectories_ok {c : CondProcess n o d} (hn : 0 < n) {new : Fin p → ℝ} {e e' r}
    (h : c.sampleStateTrajectories new e e' = .ok r) :
    ∃ sP : SSM (n + p) d, ∃ cs : Fin p → CondStats d,
      c.kernel.stateSpaceModel (jointTimes c.times new ∘ Tuple.sort (jointTimes c.times new)) = .ok sP ∧
      (∀ j, CodeStats approxInf c.times c.kernel.trans (new j) (cs j)) ∧
      ∀ e e', c.sampleStateTrajectories new e e' = .ok
        (let js := simulate sP.mu0 sP.A sP.b (fun k => sP.concatChol k *ᵥ e k) ∘
            (Tuple.sort (jointTimes c.times new)).symm
         let u := simulate c.q.mu0 c.q.A c.q.b (fun k => c.q.concatChol k *ᵥ e' k)
         let δ := padEnds fun k => js (jointIdx (.inl k)) - u k
         (fun j => js (jointIdx (.inr j)) - ((cs j).D *ᵥ δ (searchsortedLeft c.times (new j)).castSucc +
            (cs j).E *ᵥ δ (searchsortedLeft c.times (new j)).succ), u)) := by
  have hval : ∀ e e', c.sampleStateTrajectories new e e' = (do
      let prior ← c.kernel.stateSpaceModel (jointTimes c.times new ∘ Tuple.sort (jointTimes c.times new))
      let sortedSamples ← prior.sample e
      let post ← c.q.sample e'
      let js := sortedSamples ∘ (Tuple.sort (jointTimes c.times new)).symm
      let δ := padEnds fun k => js (jointIdx (.inl k)) - post k
      let (P, _) ← conditionalStatistics approxInf new c.times c.kernel.trans
      return (fun j => js (jointIdx (.inr j)) - P j *ᵥ
        Sum.elim (δ (searchsortedLeft c.times (new j)).castSucc) (δ (searchsortedLeft c.times (new j)).succ), post)) := by
    intro e e'
    rw [← sort_perm]
    rfl
  rw [hval] at h
  have hnp : 0 < n + p := by omega
  rcases hsp : c.kernel.stateSpaceModel (jointTimes c.times new ∘ Tuple.sort (jointTimes c.times new))
    with err | sP
  · rw [hsp] at h; cases h
  rw [hsp] at h
  simp only [bind, Except.bind, SSM.sample_simulate hnp, SSM.sample_simulate hn] at h
  rcases hst : conditionalStatisticsAux approxInf new c.times c.kernel.trans with err | st
  · simp only [conditionalStatistics, hst, bind, Except.bind] at h; cases h
  obtain ⟨cs, hcs, rfl⟩ := conditionalStatisticsAux_ok hst
  refine ⟨sP, cs, rfl, hcs, fun e e' => ?_⟩
  rw [hval, hsp]
  simp only [bind, Except.bind, SSM.sample_simulate hnp, SSM.sample_simulate hn, conditionalStatistics, hst,
    pure, Except.pure, fromCols_mulVec, Sum.elim_comp_inl, Sum.elim_comp_inr]

/-- The law of the prior draw at the conditioning and new times. -/
theorem joint_prior_law {c : CondProcess n o d} (hK : Core c.kernel) (hr : Regular c.kernel)
    (hj : c.kernel.jitter = 0) {new : Fin p → ℝ} {sP : SSM (n + p) d}
    (hs : c.kernel.stateSpaceModel (jointTimes c.times new ∘ Tuple.sort (jointTimes c.times new)) = .ok sP) :
    (stdNormal (Ix (n + p) d)).map (fun e => atTimes fun i : (Fin (n + 1) ⊕ Fin p) × Fin d =>
        simulate sP.mu0 sP.A sP.b (fun k => sP.concatChol k *ᵥ unstk e k)
          ((Tuple.sort (jointTimes c.times new)).symm (jointIdx i.1)) i.2) =
      (gpLaw (fun _ => 0) (stateCov (c.kernel.stateTransitions 0) c.kernel.Pinf)
        (Sum.elim c.times new)).map atTimes := by
  have h1 := kernel_ssm_law hK hr hj hs
  have h2 := gpLaw_comp hK.statProc (jointTimes c.times new ∘ Tuple.sort (jointTimes c.times new))
    ((Tuple.sort (jointTimes c.times new)).symm ∘ jointIdx (n := n) (p := p))
  have e2 : (jointTimes c.times new ∘ Tuple.sort (jointTimes c.times new)) ∘
      ((Tuple.sort (jointTimes c.times new)).symm ∘ jointIdx (n := n) (p := p)) = Sum.elim c.times new := by
    rw [← jointTimes_idx]
    funext x; simp
  rw [e2, ← h1] at h2
  rw [← h2]
  have hm : Measurable fun e : Ix (n + p) d → ℝ =>
      stk (simulate sP.mu0 sP.A sP.b (fun k => sP.concatChol k *ᵥ unstk e k)) := by
    have : (fun e : Ix (n + p) d → ℝ =>
      stk (simulate sP.mu0 sP.A sP.b (fun k => sP.concatChol k *ᵥ unstk e k))) =
      fun e => stk sP.mus + (sP.Ai⁻¹ * denseDiag sP.concatChol) *ᵥ e := by
      funext e; rw [SSM.simulate_eq]; rfl
    rw [this]
    exact measurable_const.add (measurable_mulVec' _ measurable_id)
  have hl : sP.law = (stdNormal (Ix (n + p) d)).map fun e =>
      stk (simulate sP.mu0 sP.A sP.b (fun k => sP.concatChol k *ᵥ unstk e k)) := by
    unfold SSM.law trajLaw
    congr 1
  rw [hl, Measure.map_map (by fun_prop) hm, Measure.map_map measurable_atTimes]
  · rfl
  · exact Measurable.comp (by fun_prop) hm

theorem post_law (s : SSM n d) : (stdNormal (Ix n d)).map (fun e =>
      stk (simulate s.mu0 s.A s.b (fun k => s.concatChol k *ᵥ unstk e k))) = s.law ∧
    Measurable fun e : Ix n d → ℝ => stk (simulate s.mu0 s.A s.b (fun k => s.concatChol k *ᵥ unstk e k)) := by
  constructor
  · unfold SSM.law trajLaw
    congr 1
  · have : (fun e : Ix n d → ℝ =>
      stk (simulate s.mu0 s.A s.b (fun k => s.concatChol k *ᵥ unstk e k))) =
      fun e => stk s.mus + (s.Ai⁻¹ * denseDiag s.concatChol) *ᵥ e := by
      funext e; rw [SSM.simulate_eq]; rfl
    rw [this]
    exact measurable_const.add (measurable_mulVec' _ measurable_id)

section law
variable {A : ℝ → Mat d d} {P : Mat d d} {m : ℕ} {S : Type} [Fintype S] [DecidableEq S]

theorem prod_rearrange {α β γ : Type*} [MeasurableSpace α] [MeasurableSpace β] [MeasurableSpace γ]
    (μ : Measure α) (ν : Measure β) (q : Measure γ) [IsProbabilityMeasure μ] [IsProbabilityMeasure ν]
    [IsProbabilityMeasure q] :
    ((μ.prod ν).prod q).map (fun x => ((x.1.1, x.2), x.1.2)) = (μ.prod q).prod ν := by
  have h1 := (Measure.prodAssoc_prod (μ := μ) (ν := ν) (τ := q))
  have h2 := (Measure.prodAssoc_prod (μ := μ) (ν := q) (τ := ν))
  have h3 : (ν.prod q).map Prod.swap = q.prod ν := Measure.prod_swap
  have e : (fun x : (α × β) × γ => ((x.1.1, x.2), x.1.2)) =
      MeasurableEquiv.prodAssoc.symm ∘ (Prod.map id Prod.swap) ∘ MeasurableEquiv.prodAssoc := rfl
  rw [e, ← Function.comp_assoc, ← Measure.map_map (by fun_prop) (by fun_prop), h1,
    ← Measure.map_map (by fun_prop) (by fun_prop), ← Measure.map_prod_map _ _ measurable_id measurable_swap,
    h3, Measure.map_id, ← h2, Measure.map_map (by fun_prop) (by fun_prop)]
  simp

/-- Correcting a joint prior draw by the projected discrepancy at the conditioning times. -/
theorem sample_law_int {ts : Fin (m + 1) → ℝ} {new : S → ℝ} {k : S → Fin m} {c : S → CondStats d}
    (h : StatProc A P) (hts : Monotone ts) (hb : Bridges A P ts new k c)
    (q : Measure (Fin (m + 1) × Fin d → ℝ)) [IsProbabilityMeasure q] :
    (((gpLaw (fun _ => 0) (stateCov A P) (Sum.elim ts new)).map atTimes).prod q).map
      (fun x => (x.2, x.1.2 - projMat k c *ᵥ (x.1.1 - x.2))) = predLaw A P ts new k c q := by
  have hG := gpLaw_isProb (fun _ => (0 : Vec d)) (stateCov A P) ts
  rw [hb.prior h hts]
  set G := gpLaw (fun _ => (0 : Vec d)) (stateCov A P) ts with hGdef
  set R := gaussLaw (0 : S × Fin d → ℝ) (residCov A P ts new k c) with hR
  have hm := measurable_predLaw k c
  conv_lhs => rw [← Measure.map_id (μ := q)]
  rw [Measure.map_prod_map _ _ hm measurable_id, Measure.map_map _ (hm.prodMap measurable_id)]
  rotate_left
  · exact measurable_snd.prodMk ((measurable_snd.comp measurable_fst).sub
      (measurable_mulVec' _ ((measurable_fst.comp measurable_fst).sub measurable_snd)))
  have e : ((fun x : ((Fin (m + 1) × Fin d → ℝ) × (S × Fin d → ℝ)) × (Fin (m + 1) × Fin d → ℝ) =>
      (x.2, x.1.2 - projMat k c *ᵥ (x.1.1 - x.2))) ∘
      Prod.map (fun x : (Fin (m + 1) × Fin d → ℝ) × (S × Fin d → ℝ) => (x.1, projMat k c *ᵥ x.1 + x.2)) id) =
      (fun x : (Fin (m + 1) × Fin d → ℝ) × (S × Fin d → ℝ) => (x.1, projMat k c *ᵥ x.1 + x.2)) ∘
        (fun x : ((Fin (m + 1) × Fin d → ℝ) × (Fin (m + 1) × Fin d → ℝ)) × (S × Fin d → ℝ) => (x.1.2, x.2)) ∘
        (fun x : ((Fin (m + 1) × Fin d → ℝ) × (S × Fin d → ℝ)) × (Fin (m + 1) × Fin d → ℝ) =>
          ((x.1.1, x.2), x.1.2)) := by
    funext x
    simp only [Function.comp, Prod.map, id, mulVec_sub]
    refine Prod.ext rfl ?_
    funext i
    simp only [Pi.sub_apply, Pi.add_apply]; ring
  rw [e, ← Measure.map_map hm (by fun_prop), ← Measure.map_map (by fun_prop) (by fun_prop),
    prod_rearrange]
  have e2 : ((G.prod q).prod R).map (fun x => (x.1.2, x.2)) = q.prod R := by
    have := Measure.map_prod_map (G.prod q) R (measurable_snd) (measurable_id)
    rw [Measure.map_id, measurePreserving_snd.map_eq] at this
    exact this.symm
  rw [e2]
  rfl

/-- The two ends. -/
def takeEnds {n : ℕ} (x : Fin (n + 3) × Fin d → ℝ) : Fin 2 × Fin d → ℝ :=
  fun i => x (![0, Fin.last (n + 2)] i.1, i.2)

/-- Line up. -/
def lineUp {n : ℕ} (x : (Fin 2 × Fin d → ℝ) × (Fin (n + 1) × Fin d → ℝ)) : Fin (n + 3) × Fin d → ℝ :=
  stk (Fin.cons (unstk x.1 0) (Fin.snoc (α := fun _ => Vec d) (unstk x.2) (unstk x.1 1)))

theorem dropEnds_lineUp {n : ℕ} (x : (Fin 2 × Fin d → ℝ) × (Fin (n + 1) × Fin d → ℝ)) :
    dropEnds (lineUp x) = x.2 := by
  funext i
  simp [dropEnds, lineUp, stk, unstk]

theorem sub_pad {n : ℕ} (a : Fin (n + 3) × Fin d → ℝ) (u : Fin (n + 1) × Fin d → ℝ) :
    a - stk (padEnds (unstk (dropEnds a - u))) = lineUp (takeEnds a, u) := by
  funext ⟨i, b⟩
  refine Fin.cases ?_ (fun i => ?_) i
  · simp [padEnds, lineUp, stk, unstk, takeEnds]
  · refine Fin.lastCases ?_ (fun i => ?_) i
    · simp [padEnds, lineUp, stk, unstk, takeEnds]
    · simp [padEnds, lineUp, stk, unstk, dropEnds]

theorem measurable_dropEnds {n : ℕ} : Measurable (dropEnds (n := n) (d := d)) := by
  unfold dropEnds; fun_prop

theorem measurable_takeEnds {n : ℕ} : Measurable (takeEnds (n := n) (d := d)) := by
  unfold takeEnds; fun_prop

theorem measurable_pad {n : ℕ} : Measurable fun x : Fin (n + 1) × Fin d → ℝ => stk (padEnds (unstk x)) := by
  refine measurable_pi_lambda _ fun i => ?_
  obtain ⟨i, a⟩ := i
  refine Fin.cases ?_ (fun i => ?_) i
  · simp only [stk, padEnds, Fin.cons_zero]; fun_prop
  · refine Fin.lastCases ?_ (fun i => ?_) i
    · simp only [stk, padEnds, Fin.cons_succ, Fin.snoc_last]; fun_prop
    · simp only [stk, padEnds, Fin.cons_succ, Fin.snoc_castSucc, unstk]; fun_prop

theorem sample_abs {n : ℕ} (G : Measure (Fin (n + 3) × Fin d → ℝ)) (R : Measure (S × Fin d → ℝ))
    (q : Measure (Fin (n + 1) × Fin d → ℝ)) [IsProbabilityMeasure G] [IsProbabilityMeasure R]
    [IsProbabilityMeasure q] (M : Matrix (S × Fin d) (Fin (n + 3) × Fin d) ℝ) :
    ((((G.prod R).map (fun x => (x.1, M *ᵥ x.1 + x.2))).map (Prod.map dropEnds id)).prod q).map
      (fun x => (x.2, x.1.2 - M *ᵥ stk (padEnds (unstk (x.1.1 - x.2))))) =
    (((((G.map takeEnds).prod q).map lineUp).prod R).map (fun x => (x.1, M *ᵥ x.1 + x.2))).map
      (Prod.map dropEnds id) := by
  have hm : Measurable fun x : (Fin (n + 3) × Fin d → ℝ) × (S × Fin d → ℝ) => (x.1, M *ᵥ x.1 + x.2) :=
    measurable_fst.prodMk ((measurable_mulVec' _ measurable_fst).add measurable_snd)
  have hlu : Measurable (lineUp (n := n) (d := d)) := measurable_asm
  have hdi : Measurable (Prod.map (dropEnds (n := n) (d := d)) (id : (S × Fin d → ℝ) → _)) :=
    measurable_dropEnds.prodMap measurable_id
  have eL : (((G.prod R).map (fun x => (x.1, M *ᵥ x.1 + x.2))).map (Prod.map dropEnds id)).prod q
      = ((G.prod R).prod q).map (Prod.map (fun x => (dropEnds x.1, M *ᵥ x.1 + x.2)) id) := by
    rw [Measure.map_map hdi hm]
    conv_lhs => rw [← Measure.map_id (μ := q)]
    rw [Measure.map_prod_map _ _ (hdi.comp hm) measurable_id]
    rfl
  have eR : ((G.map takeEnds).prod q).map (lineUp (n := n) (d := d)) =
      (G.prod q).map fun x => lineUp (takeEnds x.1, x.2) := by
    conv_lhs => rw [← Measure.map_id (μ := q)]
    rw [Measure.map_prod_map _ _ measurable_takeEnds measurable_id,
      Measure.map_map hlu (measurable_takeEnds.prodMap measurable_id)]
    rfl
  have hlt : Measurable fun x : (Fin (n + 3) × Fin d → ℝ) × (Fin (n + 1) × Fin d → ℝ) =>
      lineUp (takeEnds x.1, x.2) := hlu.comp (measurable_takeEnds.prodMap measurable_id)
  have eR2 : (((G.map takeEnds).prod q).map (lineUp (n := n) (d := d))).prod R =
      ((G.prod q).prod R).map (Prod.map (fun x => lineUp (takeEnds x.1, x.2)) id) := by
    rw [eR]
    conv_lhs => rw [← Measure.map_id (μ := R)]
    rw [Measure.map_prod_map _ _ hlt measurable_id]
  rw [eL]
  rw [eR2, ← prod_rearrange G R q, Measure.map_map (hlt.prodMap measurable_id) (by fun_prop),
    Measure.map_map hm ((hlt.prodMap measurable_id).comp (by fun_prop)),
    Measure.map_map hdi (hm.comp ((hlt.prodMap measurable_id).comp (by fun_prop))), Measure.map_map]
  · congr 1
    funext x
    refine Prod.ext ?_ ?_
    · exact (dropEnds_lineUp (takeEnds x.1.1, x.2)).symm
    · show M *ᵥ x.1.1 + x.1.2 - M *ᵥ stk (padEnds (unstk (dropEnds x.1.1 - x.2))) =
        M *ᵥ lineUp (takeEnds x.1.1, x.2) + x.1.2
      rw [← sub_pad, mulVec_sub]
      abel
  · exact measurable_snd.prodMk ((measurable_snd.comp measurable_fst).sub
      (measurable_mulVec' _ (measurable_pad.comp ((measurable_fst.comp measurable_fst).sub measurable_snd))))
  · exact ((hdi.comp hm)).prodMap measurable_id

theorem sample_law_aug {n : ℕ} {inf : ℝ} {ts : Fin (n + 1) → ℝ} {new : S → ℝ} {k : S → Fin (n + 2)}
    {c : S → CondStats d} (h : StatProc A P) (hts : Monotone (augmentedTimes inf ts))
    (hb : Bridges A P (augmentedTimes inf ts) new k c)
    (q : Measure (Fin (n + 1) × Fin d → ℝ)) [IsProbabilityMeasure q] :
    (((gpLaw (fun _ => 0) (stateCov A P) (Sum.elim ts new)).map atTimes).prod q).map
      (fun x => (x.2, x.1.2 - projMat k c *ᵥ stk (padEnds (unstk (x.1.1 - x.2))))) =
    (predLaw A P (augmentedTimes inf ts) new k c
      (withEnds (gpLaw (fun _ => 0) (stateCov A P) (endTimes inf)) q)).map (Prod.map dropEnds id) := by
  have hG := gpLaw_isProb (fun _ => (0 : Vec d)) (stateCov A P) (augmentedTimes inf ts)
  have h1 : (gpLaw (fun _ => 0) (stateCov A P) (Sum.elim ts new)).map atTimes =
      ((gpLaw (fun _ => 0) (stateCov A P) (Sum.elim (augmentedTimes inf ts) new)).map atTimes).map
        (Prod.map dropEnds id) := by
    have := gpLaw_comp h (Sum.elim (augmentedTimes inf ts) new)
      (Sum.map (fun i : Fin (n + 1) => i.castSucc.succ) id)
    have e : Sum.elim (augmentedTimes inf ts) new ∘ Sum.map (fun i : Fin (n + 1) => i.castSucc.succ) id =
        Sum.elim ts new := by
      funext x
      cases x with
      | inl i => exact augmentedTimes_mid inf ts i
      | inr i => rfl
    rw [e] at this
    rw [← this, Measure.map_map measurable_atTimes (by fun_prop),
      Measure.map_map (measurable_dropEnds.prodMap measurable_id) measurable_atTimes]
    rfl
  have h2 : gpLaw (fun _ => 0) (stateCov A P) (endTimes inf) =
      (gpLaw (fun _ => 0) (stateCov A P) (augmentedTimes inf ts)).map takeEnds := by
    have := gpLaw_comp h (augmentedTimes inf ts) ![0, Fin.last (n + 2)]
    have e : augmentedTimes inf ts ∘ ![0, Fin.last (n + 2)] = endTimes inf := by
      funext x
      fin_cases x
      · rfl
      · exact augmentedTimes_last inf ts
    rw [e] at this
    exact this.symm
  rw [h1, h2, hb.prior h hts]
  exact sample_abs _ _ q _

end law

end MF
