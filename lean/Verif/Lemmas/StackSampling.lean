import Verif.Lemmas.Stack
import Verif.Props.Conditionals

/-!
# Samples of a posterior process over one padded kernel of a stack
-/

namespace MF
open Matrix Spec MeasureTheory ProbabilityTheory

variable {n p d e : ℕ}

/-- The states of a padded kernel without the padding: those of the child, also at repeated times. -/
theorem slice_unpad_law {K : Stationary 1 d} (hc : Core K) (hr : Regular K) {ts : Fin (n + 1) → ℝ} (hts : Monotone ts)
    {s : SSM n (d + e)} (hs : (stackSlice K e 0).stateSpaceModel ts = .ok s) :
    s.law.map unpad = gpLaw (fun _ => 0) (stateCov (K.stateTransitions 0) K.Pinf) ts := by
  have hp := slice_isProcess (e := e) hc hr
  obtain ⟨hd, hlow⟩ := hp.Kd hs
  have hpsd := hc.statProc.psd_any ts
  rw [SSM.law_eq_gauss, hp.mus hs]
  unfold gpLaw
  refine (gaussLaw_comp s.Kd_posSemidef _ fun i : Fin (n + 1) × Fin d => (i.1, Fin.castAdd e i.2)).trans ?_
  have hsymK : (s.Kd)ᵀ = s.Kd := (SSM.Kd_isJointCov (s := s)).symm
  set G : Matrix (Fin (n + 1) × Fin d) (Fin (n + 1) × Fin d) ℝ := Matrix.of fun i j : Fin (n + 1) × Fin d =>
      stateCov (K.stateTransitions 0) K.Pinf (ts i.1) (ts j.1) i.2 j.2 with hG
  have hsymG : Gᵀ = G := isSymm_of_psd hpsd
  have key : ∀ i j : Fin (n + 1), j ≤ i → ∀ a b, s.Kd (i, Fin.castAdd e a) (j, Fin.castAdd e b) = G (i, a) (j, b) := by
    intro i j hij a b
    have hblk : ∃ β, blk s.Kd i j = augmentSquareMatrix (stateCov (K.stateTransitions 0) K.Pinf (ts i) (ts j)) e β := by
      rcases hij.lt_or_eq with h | h
      · exact ⟨true, by rw [hlow i j h, augment_mul, StatProc.cov_ge (hts hij)]; rfl⟩
      · exact ⟨false, by rw [h, hd, hc.statProc.cov_self]⟩
    obtain ⟨β, hβ⟩ := hblk
    have h1 : s.Kd (i, Fin.castAdd e a) (j, Fin.castAdd e b) = (blk s.Kd i j).submatrix (Fin.castAdd e) (Fin.castAdd e) a b := rfl
    rw [h1, hβ, augment_submatrix]
    rfl
  congr 1
  ext ⟨i, a⟩ ⟨j, b⟩
  rw [submatrix_apply]
  rcases le_total j i with h | h
  · exact key i j h a b
  · rw [← hsymK, ← hsymG]
    exact key j i h b a

theorem augment_natAdd (M : Mat d d) (a : Fin e) : augmentSquareMatrix M e false (Fin.natAdd d a) (Fin.natAdd d a) = 1 := by
  unfold augmentSquareMatrix
  rw [submatrix_apply, finSumFinEquiv_symm_apply_natAdd, fromBlocks_apply₂₂]
  simp

/-- At a repeated time a kernel with padding has no state space model: its process covariance is neither zero nor positive definite. -/
theorem slice_raises {K : Stationary 1 d} (hc : Core K) (hr : Regular K) (he : 0 < e) {ts : Fin (n + 1) → ℝ} {i : Fin n}
    (hi : ts i.castSucc = ts i.succ) (s : SSM n (d + e)) : (stackSlice K e 0).stateSpaceModel ts ≠ .ok s := by
  intro hs
  have hp := slice_isProcess (e := e) hc hr
  unfold Stationary.stateSpaceModel at hs
  simp only [bind, Except.bind, pure, Except.pure] at hs
  split at hs
  · cases hs
  rename_i δ hδ
  obtain ⟨rfl, hnn⟩ := toDeltaTime_ok hδ
  have hQ : ∀ k : Fin n, (stackSlice K e 0).transitionNoise (ts k.castSucc) (ts k.succ - ts k.castSucc) =
      augmentSquareMatrix (K.Pinf - K.stateTransitions 0 (ts k.succ - ts k.castSucc) * K.Pinf * (K.stateTransitions 0 (ts k.succ - ts k.castSucc))ᵀ) e := fun k => by
    rw [hp.noise _ _ (hnn k), augment_transpose, augment_mul, augment_mul]
    exact augment_sub _ _
  have hsym : ∀ a : ℝ, (K.Pinf - K.stateTransitions 0 a * K.Pinf * (K.stateTransitions 0 a)ᵀ)ᵀ = K.Pinf - K.stateTransitions 0 a * K.Pinf * (K.stateTransitions 0 a)ᵀ := by
    intro a
    rw [transpose_sub, transpose_mul, transpose_mul, transpose_transpose, hc.statProc.symm, Matrix.mul_assoc]
  have herr := choleskyOrZeros_error (Nat.add_pos_left hc.pos e)
    (q := fun k => (stackSlice K e 0).transitionNoise (ts k.castSucc) (ts k.succ - ts k.castSucc)) (fun k => by rw [hQ, augment_transpose, hsym])
    ⟨i, by
      rw [hQ, hi, sub_self, hc.zero, Matrix.one_mul, transpose_one, Matrix.mul_one, sub_self, not_or]
      constructor
      · intro h
        have := congrFun (congrFun h (Fin.natAdd d ⟨0, he⟩)) (Fin.natAdd d ⟨0, he⟩)
        rw [augment_natAdd, Matrix.zero_apply] at this
        exact one_ne_zero this
      · intro h
        have := h.diag_pos (i := Fin.castAdd e (⟨0, hc.pos⟩ : Fin d))
        have e1 := congrFun (congrFun (augment_submatrix (e := e) (0 : Mat d d) false) ⟨0, hc.pos⟩) ⟨0, hc.pos⟩
        rw [submatrix_apply, Matrix.zero_apply] at e1
        rw [e1] at this
        exact lt_irrefl _ this⟩
  unfold ssmFromCovariances at hs
  simp only [bind, Except.bind, pure, Except.pure] at hs
  split_ifs at hs
  split at hs
  · cases hs
  rw [herr] at hs
  cases hs

/-- Equal consecutive entries of a sequence that is sorted but not injective. -/
theorem exists_repeated {N : ℕ} {f : Fin (N + 1) → ℝ} (hf : Monotone f) (h : ¬ Function.Injective f) : ∃ i : Fin N, f i.castSucc = f i.succ := by
  by_contra hne
  push Not at hne
  exact h (Fin.strictMono_iff_lt_succ.2 fun i => lt_of_le_of_ne (hf (Fin.castSucc_lt_succ (i := i)).le) (hne i)).injective

/-! ### The law of the samples -/

section sampling
variable {K : Stationary 1 d} {c : CondProcess n 1 (d + e)} {new : Fin p → ℝ}

/-- The joint prior sample of a padded kernel, without the padding. -/
theorem slice_joint_prior (hc : Core K) (hr : Regular K) (hk : c.kernel = stackSlice K e 0) {sP : SSM (n + p) (d + e)}
    (hs : c.kernel.stateSpaceModel (jointTimes c.times new ∘ Tuple.sort (jointTimes c.times new)) = .ok sP) :
    Measurable (fun ε : Ix (n + p) (d + e) → ℝ => (atTimes fun i : (Fin (n + 1) ⊕ Fin p) × Fin d =>
        simulate sP.mu0 sP.A sP.b (fun k => sP.concatChol k *ᵥ unstk ε k)
          ((Tuple.sort (jointTimes c.times new)).symm (jointIdx i.1)) (Fin.castAdd e i.2))) ∧
    (stdNormal (Ix (n + p) (d + e))).map (fun ε => atTimes fun i : (Fin (n + 1) ⊕ Fin p) × Fin d =>
        simulate sP.mu0 sP.A sP.b (fun k => sP.concatChol k *ᵥ unstk ε k)
          ((Tuple.sort (jointTimes c.times new)).symm (jointIdx i.1)) (Fin.castAdd e i.2)) = priorLaw K c.times new := by
  obtain ⟨hl, hm⟩ := post_law sP
  have hpick : Measurable fun x : Ix (n + p) d → ℝ => fun i : (Fin (n + 1) ⊕ Fin p) × Fin d =>
      x (((Tuple.sort (jointTimes c.times new)).symm ∘ jointIdx (n := n) (p := p)) i.1, i.2) := by fun_prop
  have hmeas : Measurable (fun ε : Ix (n + p) (d + e) → ℝ => (atTimes fun i : (Fin (n + 1) ⊕ Fin p) × Fin d =>
        simulate sP.mu0 sP.A sP.b (fun k => sP.concatChol k *ᵥ unstk ε k)
          ((Tuple.sort (jointTimes c.times new)).symm (jointIdx i.1)) (Fin.castAdd e i.2))) :=
    measurable_atTimes.comp (hpick.comp (measurable_unpad.comp hm))
  refine ⟨hmeas, ?_⟩
  rw [hk] at hs
  have h1 := slice_unpad_law hc hr (Tuple.monotone_sort _) hs
  have h2 := gpLaw_comp hc.statProc (jointTimes c.times new ∘ Tuple.sort (jointTimes c.times new))
    ((Tuple.sort (jointTimes c.times new)).symm ∘ jointIdx (n := n) (p := p))
  have e2 : (jointTimes c.times new ∘ Tuple.sort (jointTimes c.times new)) ∘
      ((Tuple.sort (jointTimes c.times new)).symm ∘ jointIdx (n := n) (p := p)) = Sum.elim c.times new := by
    rw [← jointTimes_idx]
    funext x; simp
  rw [e2, ← h1] at h2
  rw [priorLaw, ← h2, ← hl, Measure.map_map measurable_unpad hm, Measure.map_map hpick (measurable_unpad.comp hm),
    Measure.map_map measurable_atTimes (hpick.comp (measurable_unpad.comp hm))]
  rfl

theorem padEnds_castAdd (δ : Fin (n + 1) → Vec (d + e)) (i : Fin (n + 3)) :
    padEnds δ i ∘ Fin.castAdd e = padEnds (fun k => δ k ∘ Fin.castAdd e) i := by
  unfold padEnds
  refine Fin.cases rfl (fun i => ?_) i
  rw [Fin.cons_succ, Fin.cons_succ]
  refine Fin.lastCases ?_ (fun i => ?_) i
  · rw [Fin.snoc_last, Fin.snoc_last]; rfl
  · rw [Fin.snoc_castSucc, Fin.snoc_castSucc]

variable {m : ℝ → ℝ}
  {X : (Ix (n + p) (d + e) → ℝ) → (Ix n (d + e) → ℝ) → (Fin p → Vec (d + e)) × (Fin (n + 1) → Vec (d + e))}

/-- Samples of the states at the conditioning times and of the output at the new times: `q(u) p(f | u)`. -/
theorem slice_sampled (hc : Core K) (hr : Regular K) (hk : c.kernel = stackSlice K e 0) (hn : 0 < n) (hts : Monotone c.times)
    (hinf : -approxInf < c.times 0) (hsup : c.times (Fin.last n) ≤ approxInf)
    (h0 : ∀ j, c.times 0 ≤ new j) (h1 : ∀ j, new j ≤ c.times (Fin.last n))
    (hX : ∀ ε ε', c.sampleStateTrajectories new (unstk ε) (unstk ε') = .ok (X ε ε')) :
    Measurable (fun ε : (Ix (n + p) (d + e) → ℝ) × (Ix n (d + e) → ℝ) => (stk (X ε.1 ε.2).2, fun i : Fin p × Fin 1 =>
        (c.kernel.emission (new i.1) *ᵥ (X ε.1 ε.2).1 i.1) i.2 + m (new i.1))) ∧
    IsPredictive (slicePrior K (d + e) m c.times new) c.q.law
      (((stdNormal (Ix (n + p) (d + e))).prod (stdNormal (Ix n (d + e)))).map fun ε => (stk (X ε.1 ε.2).2, fun i : Fin p × Fin 1 =>
        (c.kernel.emission (new i.1) *ᵥ (X ε.1 ε.2).1 i.1) i.2 + m (new i.1))) := by
  obtain ⟨sP, cs', hsP, hcs', hval⟩ := sampleStateTrajectories_ok hn (hX 0 0)
  rw [hk] at hcs'
  choose cs hcs hD hE hT using fun j => slice_codeStats hc (hcs' j)
  obtain ⟨k, c1, hb, hcase⟩ := interior_stats (bareChild_core hc) (bareChild_regular hc) rfl hn hts hinf hsup h0 h1 hcs
  replace hb : Bridges (K.stateTransitions 0) K.Pinf c.times new k c1 := hb
  obtain ⟨hm1, hl1⟩ := slice_joint_prior hc hr hk hsP
  obtain ⟨hl2, hm2⟩ := post_law c.q
  have hpq : IsProbabilityMeasure c.q.law := by rw [SSM.law_eq_gauss]; infer_instance
  obtain ⟨ν, hν, -, hνeq⟩ := slice_predictive (m := m) hc hts hb c.q.law
  have hlat := measurable_latentAt K (fun t _ => m t) new
  have hΦ : Measurable fun x : ((Fin (n + 1) × Fin d → ℝ) × (Fin p × Fin d → ℝ)) × (Fin (n + 1) × Fin (d + e) → ℝ) =>
      (x.2, latentAt K (fun t _ => m t) new (x.1.2 - projMat k c1 *ᵥ (x.1.1 - unpad x.2))) :=
    measurable_snd.prodMk (hlat.comp ((measurable_snd.comp measurable_fst).sub
      (measurable_mulVec' _ ((measurable_fst.comp measurable_fst).sub (measurable_unpad.comp measurable_snd)))))
  have hfun : (fun ε : (Ix (n + p) (d + e) → ℝ) × (Ix n (d + e) → ℝ) => (stk (X ε.1 ε.2).2, fun i : Fin p × Fin 1 =>
        (c.kernel.emission (new i.1) *ᵥ (X ε.1 ε.2).1 i.1) i.2 + m (new i.1))) =
      (fun x : ((Fin (n + 1) × Fin d → ℝ) × (Fin p × Fin d → ℝ)) × (Fin (n + 1) × Fin (d + e) → ℝ) =>
        (x.2, latentAt K (fun t _ => m t) new (x.1.2 - projMat k c1 *ᵥ (x.1.1 - unpad x.2)))) ∘
      Prod.map (fun ε : Ix (n + p) (d + e) → ℝ => (atTimes fun i : (Fin (n + 1) ⊕ Fin p) × Fin d =>
        simulate sP.mu0 sP.A sP.b (fun k => sP.concatChol k *ᵥ unstk ε k)
          ((Tuple.sort (jointTimes c.times new)).symm (jointIdx i.1)) (Fin.castAdd e i.2)))
        (fun ε : Ix n (d + e) → ℝ => stk (simulate c.q.mu0 c.q.A c.q.b (fun k => c.q.concatChol k *ᵥ unstk ε k))) := by
    funext ε
    have hXe : X ε.1 ε.2 = _ := Except.ok.inj ((hX ε.1 ε.2).symm.trans (hval _ _))
    rw [hXe]
    refine Prod.ext rfl ?_
    funext ⟨j, o⟩
    simp only [Function.comp, Prod.map]
    rw [hk, slice_emission, hD j, hE j, mulVec_sub, (slice_project (K.emission (new j)) (cs j).D (cs j).E (cs j).T _ _ 0 0 0 0 true).1,
      augmentMatrix_mulVec, ← mulVec_sub, padEnds_castAdd, padEnds_castAdd]
    set J := atTimes fun i : (Fin (n + 1) ⊕ Fin p) × Fin d =>
        simulate sP.mu0 sP.A sP.b (fun k => sP.concatChol k *ᵥ unstk ε.1 k)
          ((Tuple.sort (jointTimes c.times new)).symm (jointIdx i.1)) (Fin.castAdd e i.2) with hJ
    set u := stk (simulate c.q.mu0 c.q.A c.q.b (fun k => c.q.concatChol k *ᵥ unstk ε.2 k)) with hu
    have hp := projMat_mulVec k c1 (J.1 - unpad u) j
    have hd : (fun k => ((simulate sP.mu0 sP.A sP.b fun k => sP.concatChol k *ᵥ unstk ε.1 k)
          ((Tuple.sort (jointTimes c.times new)).symm (jointIdx (.inl k))) -
          simulate c.q.mu0 c.q.A c.q.b (fun k => c.q.concatChol k *ᵥ unstk ε.2 k) k) ∘ Fin.castAdd e) = unstk (J.1 - unpad u) := rfl
    simp only [hd]
    unfold latentAt
    have hq : ∀ i : Fin d, (projMat k c1 *ᵥ (J.1 - unpad u)) (j, i) = ((cs j).D *ᵥ padEnds (unstk (J.1 - unpad u)) (searchsortedLeft c.times (new j)).castSucc +
        (cs j).E *ᵥ padEnds (unstk (J.1 - unpad u)) (searchsortedLeft c.times (new j)).succ) i := by
      intro i
      refine (congrFun hp i).trans (congrFun ?_ i)
      rcases hcase j with ⟨hk, hc⟩ | ⟨-, hs, hk, hc, hc'⟩
      · have g1 : padEnds (unstk (J.1 - unpad u)) (searchsortedLeft c.times (new j)).castSucc = unstk (J.1 - unpad u) (k j).castSucc := by
          rw [hk]
          show padEnds _ (k j).castSucc.castSucc.succ = _
          unfold padEnds
          rw [Fin.cons_succ, Fin.snoc_castSucc]
        have g2 : padEnds (unstk (J.1 - unpad u)) (searchsortedLeft c.times (new j)).succ = unstk (J.1 - unpad u) (k j).succ := by
          rw [hk]
          show padEnds _ (k j).succ.castSucc.succ = _
          unfold padEnds
          rw [Fin.cons_succ, Fin.snoc_castSucc]
        rw [g1, g2, hc]
      · have g2 : padEnds (unstk (J.1 - unpad u)) (searchsortedLeft c.times (new j)).succ = unstk (J.1 - unpad u) (k j).castSucc := by
          rw [hs, hk]
          show padEnds (unstk (J.1 - unpad u)) (Fin.castSucc 0 : Fin (n + 2)).succ = _
          unfold padEnds
          rw [Fin.cons_succ, Fin.snoc_castSucc]
        rw [g2, hc, hc', zero_mulVec, zero_mulVec, zero_add, add_zero]
    congr 1
    congr 1
    congr 1
    funext i
    exact (hq i).symm
  refine ⟨by rw [hfun]; exact hΦ.comp (hm1.prodMap hm2), ?_⟩
  rw [hfun, ← Measure.map_map hΦ (hm1.prodMap hm2), ← Measure.map_prod_map _ _ hm1 hm2, hl1, hl2]
  convert hν using 1
  have hG := gpLaw_isProb (fun _ => (0 : Vec d)) (stateCov (K.stateTransitions 0) K.Pinf) c.times
  rw [hνeq, priorLaw, hb.prior hc.statProc hts]
  have hm := measurable_predLaw k c1
  conv_lhs => rw [← Measure.map_id (μ := c.q.law)]
  rw [Measure.map_prod_map _ _ hm measurable_id, Measure.map_map hΦ (hm.prodMap measurable_id)]
  have hφ : Measurable fun x : (Fin (n + 1) × Fin (d + e) → ℝ) × (Fin p × Fin d → ℝ) =>
      (x.1, latentAt K (fun t _ => m t) new (projMat k c1 *ᵥ unpad x.1 + x.2)) :=
    measurable_fst.prodMk (hlat.comp ((measurable_mulVec' _ (measurable_unpad.comp measurable_fst)).add measurable_snd))
  have e : ((fun x : ((Fin (n + 1) × Fin d → ℝ) × (Fin p × Fin d → ℝ)) × (Fin (n + 1) × Fin (d + e) → ℝ) =>
        (x.2, latentAt K (fun t _ => m t) new (x.1.2 - projMat k c1 *ᵥ (x.1.1 - unpad x.2)))) ∘
      Prod.map (fun x : (Fin (n + 1) × Fin d → ℝ) × (Fin p × Fin d → ℝ) => (x.1, projMat k c1 *ᵥ x.1 + x.2)) id) =
      (fun x : (Fin (n + 1) × Fin (d + e) → ℝ) × (Fin p × Fin d → ℝ) =>
        (x.1, latentAt K (fun t _ => m t) new (projMat k c1 *ᵥ unpad x.1 + x.2))) ∘
        (fun x : ((Fin (n + 1) × Fin d → ℝ) × (Fin (n + 1) × Fin (d + e) → ℝ)) × (Fin p × Fin d → ℝ) => (x.1.2, x.2)) ∘
        (fun x : ((Fin (n + 1) × Fin d → ℝ) × (Fin p × Fin d → ℝ)) × (Fin (n + 1) × Fin (d + e) → ℝ) =>
          ((x.1.1, x.2), x.1.2)) := by
    funext x
    simp only [Function.comp, Prod.map, id, mulVec_sub]
    refine Prod.ext rfl ?_
    dsimp only
    congr 1
    funext i
    simp only [Pi.sub_apply, Pi.add_apply]; ring
  rw [e, ← Measure.map_map hφ (by fun_prop), ← Measure.map_map (by fun_prop) (by fun_prop), prod_rearrange]
  congr 1
  have := Measure.map_prod_map ((gpLaw (fun _ => 0) (stateCov (K.stateTransitions 0) K.Pinf) c.times).prod c.q.law)
    (gaussLaw 0 (residCov (K.stateTransitions 0) K.Pinf c.times new k c1)) (measurable_snd) (measurable_id)
  rw [Measure.map_id, measurePreserving_snd.map_eq] at this
  exact this.symm

/-- Sampling returns when no time is repeated, or when nothing is padded. -/
theorem slice_sample_succeeds {k} (hB : Builds K k) (hN : NoiseTag K true) (hk : c.kernel = stackSlice K e 0) (hn : 0 < n)
    (hts : Monotone c.times) (hd : Function.Injective (jointTimes c.times new) ∨ e = 0)
    (h0 : ∀ j, -approxInf < new j) (h1 : ∀ j, new j ≤ approxInf) (ε : Fin (n + p + 1) → Vec (d + e)) (ε' : Fin (n + 1) → Vec (d + e)) :
    ∃ r, c.sampleStateTrajectories new ε ε' = .ok r := by
  obtain ⟨hc, hr, -⟩ := Builds.good hB
  have hno := (NoiseTag.noisy hN).2
  have hb := bareChild_core hc
  have hbr := bareChild_regular hc
  have : ∀ j, ∃ cs, CodeStats approxInf c.times c.kernel.trans (new j) cs := by
    intro j
    obtain ⟨hl, hr⟩ := augmented_between hts (h0 j) (h1 j)
    have hs : ∃ cs, CodeStats approxInf c.times (bareChild K).trans (new j) cs := by
      unfold CodeStats
      rw [trans_eq hb hbr rfl _ (sub_pos.2 hl).le, trans_eq hb hbr rfl _ (sub_nonneg.2 hr)]
      have hp := hno.strict rfl _ (sub_pos.2 hl)
      have hps := hc.contr _ (sub_nonneg.2 hr)
      refine (C21_succeeds hp.posSemidef hps).1.2 ?_
      have := (Matrix.IsUnit.posDef_star_right_conjugate_iff (hc.isUnit (augmentedTimes approxInf c.times
        (searchsortedLeft c.times (new j)).succ - new j))).2 hp
      rw [star_eq_conjTranspose, conjTranspose_eq_transpose_of_trivial] at this
      exact PosDef.posSemidef_add hps this
    obtain ⟨cs, hcs⟩ := hs
    rw [hk]
    exact slice_codeStats_of hc hcs
  choose cs hcs using this
  have hp := slice_isProcess (e := e) hc hr
  have hmono : Monotone (jointTimes c.times new ∘ Tuple.sort (jointTimes c.times new)) := Tuple.monotone_sort _
  have hsP : ∃ sP, c.kernel.stateSpaceModel (jointTimes c.times new ∘ Tuple.sort (jointTimes c.times new)) = .ok sP := by
    rw [hk]
    refine stateSpaceModel_ok (Nat.add_pos_left hc.pos e) (by omega) hmono (Or.inr ?_) fun i => ?_
    · rw [hp.init]
      exact augment_posDef hno.pd e
    · rw [hp.noise _ _ (sub_nonneg.2 (hmono (Fin.castSucc_lt_succ (i := i)).le)), augment_transpose, augment_mul, augment_mul,
        show ∀ M N : Mat d d, augmentSquareMatrix M e - augmentSquareMatrix N e (true || false || true) = augmentSquareMatrix (M - N) e from fun M N => augment_sub _ _]
      rcases (sub_nonneg.2 (hmono (Fin.castSucc_lt_succ (i := i)).le)).lt_or_eq with h | h
      · exact Or.inr (augment_posDef (hno.strict rfl _ h) e)
      · rcases hd with hd | rfl
        · exfalso
          have := (hd.comp (Tuple.sort (jointTimes c.times new)).injective) (sub_eq_zero.1 h.symm)
          exact (Fin.castSucc_lt_succ (i := i)).ne' this
        · left
          rw [← h, hc.zero, Matrix.one_mul, transpose_one, Matrix.mul_one, sub_self]
          have e1 := augment_submatrix (e := 0) (0 : Mat d d) false
          ext a b
          exact congrFun (congrFun e1 a) b
  obtain ⟨sP, hsP⟩ := hsP
  unfold CondProcess.sampleStateTrajectories
  have hsP' : c.kernel.stateSpaceModel ((fun i => Fin.append c.times new (i.cast (by omega))) ∘
    Tuple.sort fun i : Fin (n + p + 1) => Fin.append c.times new (i.cast (by omega))) = .ok sP := hsP
  simp only [hsP', bind, Except.bind, SSM.sample_simulate (s := sP) (by omega : 0 < n + p),
    SSM.sample_simulate hn, conditionalStatistics, conditionalStatisticsAux_of hcs, pure, Except.pure]
  exact ⟨_, rfl⟩

/-- Sampling a padded kernel at a conditioning time, or twice at one new time, raises. -/
theorem slice_sample_raises (hc : Core K) (hr : Regular K) (hk : c.kernel = stackSlice K e 0) (he : 0 < e) (hn : 0 < n)
    (hd : ¬ Function.Injective (jointTimes c.times new)) (ε : Fin (n + p + 1) → Vec (d + e)) (ε' : Fin (n + 1) → Vec (d + e)) :
    ∀ r, c.sampleStateTrajectories new ε ε' ≠ .ok r := by
  intro r h
  obtain ⟨sP, _, hsP, -⟩ := sampleStateTrajectories_ok hn h
  obtain ⟨i, hi⟩ := exists_repeated (Tuple.monotone_sort (jointTimes c.times new)) fun hinj => hd fun a b hab => by
    have := @hinj ((Tuple.sort (jointTimes c.times new)).symm a) ((Tuple.sort (jointTimes c.times new)).symm b) (by simpa using hab)
    simpa using this
  rw [hk] at hsP
  exact slice_raises hc hr he hi sP hsP

theorem jointTimes_injective {ts : Fin (n + 1) → ℝ} (hts : Function.Injective ts) :
    Function.Injective (jointTimes ts new) ↔ Function.Injective new ∧ ∀ j i, new j ≠ ts i := by
  have hb : Function.Bijective (jointIdx (n := n) (p := p)) := by
    have : jointIdx (n := n) (p := p) = (finSumFinEquiv (m := n + 1) (n := p)).trans (finCongr (show n + 1 + p = n + p + 1 by omega)) := by
      funext x
      cases x <;> rfl
    rw [this]
    exact Equiv.bijective _
  have h1 : Function.Injective (jointTimes ts new) ↔ Function.Injective (Sum.elim ts new) := by
    rw [← jointTimes_idx]
    exact ⟨fun h => h.comp hb.1, fun h => (Function.Injective.of_comp_iff' _ hb).1 h⟩
  rw [h1]
  refine ⟨fun h => ⟨fun a b hab => Sum.inr_injective (h hab), fun j i he => Sum.inr_ne_inl (h he)⟩,
    fun h => hts.sumElim h.1 fun i j he => h.2 j i he.symm⟩

/-- Everything about the samples of one batch entry of a stack. -/
theorem slice_sample_all {D : ℕ} {k} (hB : Builds K k) (hN : NoiseTag K true) (he : d + e = D) {S : Stationary 1 D}
    (hS : S = he ▸ stackSlice K e 0) {q : SSM n D} (hn : 0 < n) {z : Fin (n + 1) → ℝ} (hz : StrictMono z)
    (hl : -approxInf < z 0) (hu : z (Fin.last n) ≤ approxInf) (h0 : ∀ j, z 0 ≤ new j)
    (h1 : ∀ j, new j ≤ z (Fin.last n)) (m : ℝ → ℝ) :
    (∀ ε ε', (∃ r, CondProcess.sampleStateTrajectories ⟨q, S, z, fun t _ => m t⟩ new ε ε' = .ok r) ↔
      D = d ∨ (Function.Injective new ∧ ∀ j i, new j ≠ z i)) ∧
    ∀ X : (Ix (n + p) D → ℝ) → (Ix n D → ℝ) → (Fin p → Vec D) × (Fin (n + 1) → Vec D),
      (∀ ε ε', CondProcess.sampleStateTrajectories ⟨q, S, z, fun t _ => m t⟩ new (unstk ε) (unstk ε') = .ok (X ε ε')) →
      Measurable (fun ε : (Ix (n + p) D → ℝ) × (Ix n D → ℝ) => (stk (X ε.1 ε.2).2, fun i : Fin p × Fin 1 =>
        (S.emission (new i.1) *ᵥ (X ε.1 ε.2).1 i.1) i.2 + m (new i.1))) ∧
      IsPredictive (slicePrior K D m z new) q.law
        (((stdNormal (Ix (n + p) D)).prod (stdNormal (Ix n D))).map fun ε => (stk (X ε.1 ε.2).2, fun i : Fin p × Fin 1 =>
          (S.emission (new i.1) *ᵥ (X ε.1 ε.2).1 i.1) i.2 + m (new i.1))) := by
  subst he
  subst hS
  obtain ⟨hc, hr, -⟩ := Builds.good hB
  have hX0 : ∀ j, -approxInf < new j := fun j => lt_of_lt_of_le hl (h0 j)
  have hX1 : ∀ j, new j ≤ approxInf := fun j => (h1 j).trans hu
  refine ⟨fun ε ε' => ⟨fun ⟨r, h⟩ => ?_, fun h => ?_⟩, fun X hX => ?_⟩
  · by_contra hcon
    rw [not_or, ← jointTimes_injective hz.injective] at hcon
    exact slice_sample_raises (c := ⟨q, stackSlice K e 0, z, fun t _ => m t⟩) hc hr rfl (by omega) hn hcon.2 ε ε' r h
  · exact slice_sample_succeeds (c := ⟨q, stackSlice K e 0, z, fun t _ => m t⟩) hB hN rfl hn hz.monotone
      (h.symm.imp (jointTimes_injective hz.injective).2 (by omega)) hX0 hX1 ε ε'
  · exact slice_sampled (c := ⟨q, stackSlice K e 0, z, fun t _ => m t⟩) hc hr rfl hn hz.monotone hl hu h0 h1 hX

end sampling

end MF
