import Verif.Lemmas.PiecewiseModels
import Verif.Lemmas.SVGP
import Verif.Props.GPR

/-! # Predictions and outputs of the process of a piecewise kernel -/

namespace MF
open Matrix Spec MeasureTheory ProbabilityTheory InformationTheory
variable {n d o p m : ℕ}

/-- The emission matrix at time `t`: that of the kernel active at `t`. -/
noncomputable def pwEmission (ker : Fin (m + 1) → Stationary o d) (cp : Fin m → ℝ) (t : ℝ) : Mat o d :=
  (ker (segment cp t)).emission t

/-- Covariance function of the states of the piecewise process started at `t₀`. -/
noncomputable def pwStateCov (ker : Fin (m + 1) → Stationary o d) (cp : Fin m → ℝ) (t₀ : ℝ) : ℝ → ℝ → Mat d d :=
  pieceCov (pwA ker) (fun _ => 0) (pwP ker) cp t₀

/-- Covariance function of the outputs. -/
noncomputable def pwKernel (ker : Fin (m + 1) → Stationary o d) (cp : Fin m → ℝ) (t₀ t t' : ℝ) : Mat o o :=
  pwEmission ker cp t * pwStateCov ker cp t₀ t t' * (pwEmission ker cp t')ᵀ

/-- The Gaussian process prior of the states at the conditioning times and at other times. -/
noncomputable def pwPrior (ker : Fin (m + 1) → Stationary o d) (cp : Fin m → ℝ) (ts : Fin (n + 1) → ℝ) (new : Fin p → ℝ) :
    Measure ((Fin (n + 1) × Fin d → ℝ) × (Fin p × Fin d → ℝ)) :=
  (gpLaw (fun _ => 0) (pwStateCov ker cp (ts 0)) (Sum.elim ts new)).map atTimes

/-- The latent outputs, mean function included. -/
noncomputable def pwLatent (ker : Fin (m + 1) → Stationary o d) (cp : Fin m → ℝ) (mf : ℝ → Vec o) (ts : Fin p → ℝ)
    (x : Fin p × Fin d → ℝ) : Fin p × Fin o → ℝ :=
  fun i => (pwEmission ker cp (ts i.1) *ᵥ fun a => x (i.1, a)) i.2 + mf (ts i.1) i.2

/-- The hypotheses: a piecewise kernel over kernel expressions with noise throughout, jitter zero; at least two,
strictly increasing, conditioning times within `±1e10`; no transition passes a change point. -/
structure PWValid (ker : Fin (m + 1) → Stationary o d) (k : Fin (m + 1) → ℝ → ℝ → Mat o o) (cp : Fin m → ℝ)
    (K : Piecewise o d) (ts : Fin (n + 1) → ℝ) : Prop where
  made : Piecewise.init (List.ofFn ker) (List.ofFn cp) 0 = .ok K
  one : 0 < m
  builds : ∀ i, Builds (ker i) (k i)
  noise : ∀ i, NoiseTag (ker i) true
  two : 0 < n
  times : StrictMono ts
  lower : -10000000000 < ts 0
  upper : ts (Fin.last n) < 10000000000
  change : ∀ i : Fin n, NoChange cp (ts i.castSucc) (ts i.succ)

section
variable {ker : Fin (m + 1) → Stationary o d} {k : Fin (m + 1) → ℝ → ℝ → Mat o o} {cp : Fin m → ℝ}
  {K : Piecewise o d} {ts : Fin (n + 1) → ℝ}

theorem PWValid.core (h : PWValid ker k cp K ts) (i : Fin (m + 1)) : Core (ker i) := (Builds.good (h.builds i)).1

theorem PWValid.range (h : PWValid ker k cp K ts) (i : Fin (n + 1)) : -approxInf ≤ ts i ∧ ts i < approxInf :=
  ⟨h.lower.le.trans (h.times.monotone (Fin.zero_le i)), (h.times.monotone (Fin.le_last i)).trans_lt h.upper⟩

theorem PWValid.markov (h : PWValid ker k cp K ts) (t₀ : ℝ) :
    MarkovProc t₀ (fun t s => (pieces (pwA ker) (fun _ => 0) (pwP ker) cp s t).A)
      (pieceVar (pwA ker) (fun _ => 0) (pwP ker) cp t₀) :=
  piece_markov (fun i => (h.core i).statProc) (fun _ => 0) cp t₀

theorem pwStateCov_eq (t₀ : ℝ) : pwStateCov ker cp t₀ =
    markovCov (fun t s => (pieces (pwA ker) (fun _ => 0) (pwP ker) cp s t).A)
      (pieceVar (pwA ker) (fun _ => 0) (pwP ker) cp t₀) := rfl

theorem PWValid.psd (h : PWValid ker k cp K ts) {t₀ : ℝ} {T : Type} [Fintype T] [DecidableEq T] (τ : T → ℝ)
    (hτ : ∀ i, t₀ ≤ τ i) :
    (Matrix.of fun i j : T × Fin d => pwStateCov ker cp t₀ (τ i.1) (τ j.1) i.2 j.2).PosSemidef :=
  (h.markov t₀).psd_any τ hτ

theorem PWValid.state_symm (h : PWValid ker k cp K ts) (t₀ t t' : ℝ) :
    (pwStateCov ker cp t₀ t t')ᵀ = pwStateCov ker cp t₀ t' t := by
  rw [pwStateCov_eq]
  unfold markovCov
  rcases lt_trichotomy t t' with h1 | h1 | h1
  · rw [if_neg (not_le.2 h1), if_pos h1.le, transpose_transpose]
  · subst h1
    dsimp only
    rw [if_pos le_rfl, (h.markov t₀).refl, Matrix.one_mul]
    exact isSymm_of_psd ((posSemidef_conj' (h.core _).statProc.psd _).add
      (pieces_psd (fun i => (h.core i).statProc) (fun _ => 0) cp _ _))
  · rw [if_pos h1.le, if_neg (not_le.2 h1)]

theorem PWValid.symm (h : PWValid ker k cp K ts) (t₀ t t' : ℝ) :
    (pwKernel ker cp t₀ t t')ᵀ = pwKernel ker cp t₀ t' t := by
  unfold pwKernel
  rw [transpose_mul, transpose_mul, transpose_transpose, h.state_symm, Matrix.mul_assoc]

/-- Only the emission is used. -/
noncomputable def pwOut (ker : Fin (m + 1) → Stationary o d) (cp : Fin m → ℝ) : Stationary o d :=
  { ker 0 with emission := pwEmission ker cp }

theorem out_conj {T : Type} [Fintype T] [DecidableEq T] (E : Stationary o d) (C : ℝ → ℝ → Mat d d) (τ : T → ℝ) :
    outMat E τ * (Matrix.of fun i j : T × Fin d => C (τ i.1) (τ j.1) i.2 j.2) * (outMat E τ)ᵀ =
      gpGram (fun t t' => E.emission t * C t t' * (E.emission t')ᵀ) τ := by
  ext ⟨s, a⟩ ⟨t, b⟩
  show _ = (E.emission (τ s) * C (τ s) (τ t) * (E.emission (τ t))ᵀ) a b
  simp only [outMat, Matrix.mul_apply, Matrix.of_apply, transpose_apply, Fintype.sum_prod_type, ite_mul, zero_mul,
    mul_ite, mul_zero]
  rw [Finset.sum_eq_single t]
  · refine Finset.sum_congr rfl fun e _ => ?_
    rw [if_pos rfl, Finset.sum_eq_single s]
    · simp
    · intro b _ hb; simp [hb.symm]
    · simp
  · intro b _ hb; simp [hb.symm]
  · simp

theorem PWValid.out_conj (_h : PWValid ker k cp K ts) {T : Type} [Fintype T] [DecidableEq T] (t₀ : ℝ) (τ : T → ℝ) :
    outMat (pwOut ker cp) τ * (Matrix.of fun i j : T × Fin d => pwStateCov ker cp t₀ (τ i.1) (τ j.1) i.2 j.2) *
      (outMat (pwOut ker cp) τ)ᵀ = gpGram (pwKernel ker cp t₀) τ :=
  MF.out_conj (pwOut ker cp) (pwStateCov ker cp t₀) τ

theorem PWValid.gram_psd (h : PWValid ker k cp K ts) {T : Type} [Fintype T] [DecidableEq T] {t₀ : ℝ} (τ : T → ℝ)
    (hτ : ∀ i, t₀ ≤ τ i) : (gpGram (pwKernel ker cp t₀) τ).PosSemidef := by
  rw [← h.out_conj t₀ τ]
  exact posSemidef_conj' (h.psd τ hτ) _

/-- The state space model exists, is non-degenerate, and has the law of the process. -/
theorem PWValid.ssm (h : PWValid ker k cp K ts) : ∃ s : SSM n d, K.stateSpaceModel approxInf ts = .ok s ∧
    s.Nondegenerate ∧ stk s.mus = 0 ∧
    s.Kd = Matrix.of fun i j : Fin (n + 1) × Fin d => pwStateCov ker cp (ts 0) (ts i.1) (ts j.1) i.2 j.2 := by
  have hd : 0 < d := (h.core 0).pos
  have hP : ∀ i, (ker i).Pinf.PosDef := fun i => (NoiseTag.noisy (h.noise i)).2.pd
  have hQ : ∀ (i : Fin (m + 1)) (t δ : ℝ), 0 < δ →
      ((ker i).Pinf - (ker i).stateTransitions t δ * (ker i).Pinf * ((ker i).stateTransitions t δ)ᵀ +
          jitterMatrix d 0).PosDef := by
    intro i t δ hδ
    rw [(h.core i).time t, jitterMatrix_zero, add_zero]
    exact (NoiseTag.noisy (h.noise i)).2.strict rfl _ hδ
  have hpos : ∀ i : Fin n, 0 < ts i.succ - ts i.castSucc := fun i => sub_pos.2 (h.times Fin.castSucc_lt_succ)
  obtain ⟨c0, hc0, hc0'⟩ := choleskyOrZero_ok hd (Or.inr (hP (segment cp (ts 0))))
  obtain ⟨cq, hcq, hcq'⟩ := choleskyOrZeros_ok hd (n := n) (q := fun i =>
      (ker (segment cp (ts i.castSucc))).Pinf -
          (ker (segment cp (ts i.castSucc))).stateTransitions (ts i.castSucc)
            (ts i.succ - ts i.castSucc) * (ker (segment cp (ts i.castSucc))).Pinf *
          ((ker (segment cp (ts i.castSucc))).stateTransitions (ts i.castSucc)
            (ts i.succ - ts i.castSucc))ᵀ + jitterMatrix d 0) (fun i => Or.inr (hQ _ _ _ (hpos i)))
  have nz : ∀ {M : Mat d d}, M.PosDef → M ≠ 0 := by
    rintro M hM rfl
    exact lt_irrefl _ (hM.diag_pos (i := (⟨0, hd⟩ : Fin d)))
  have hs : K.stateSpaceModel approxInf ts = .ok ⟨0, c0, fun i => (ker (segment cp (ts i.castSucc))).stateTransitions
      (ts i.castSucc) (ts i.succ - ts i.castSucc), fun i => (ker (segment cp (ts i.castSucc))).stateOffsets
      (ts i.castSucc) (ts i.succ - ts i.castSucc), cq⟩ := by
    rw [C30_state_space_model ker cp h.made h.one h.times.monotone h.range]
    unfold ssmFromCovariances
    rw [if_neg (by rintro (h' | h'); exacts [h.two.ne' h', hd.ne' h']), hc0]
    simp only [bind, Except.bind]
    rw [hcq]
    rfl
  obtain ⟨hmu, hKd⟩ := pw_ssm_law h.core (μ := fun _ => 0)
    (fun i t δ => by rw [(Builds.good (h.builds i)).2.1.offs, mulVec_zero, sub_zero]) h.made h.one h.times.monotone
    h.range h.change hs
  refine ⟨_, hs, ?_, ?_, hKd⟩
  · intro b
    refine Fin.cases ?_ (fun k => ?_) b
    · rcases hc0' with h' | h'
      · exact absurd h'.1 (nz (hP _))
      · exact ⟨h'.2.lower, fun i => (h'.2.diag_pos i).ne'⟩
    · rcases hcq' k with h' | h'
      · exact absurd h'.1 (nz (hQ _ _ _ (hpos k)))
      · exact ⟨h'.2.lower, fun i => (h'.2.diag_pos i).ne'⟩
  · rw [hmu]
    funext i
    exact congrFun (pieces_b_zero cp _ _) _

theorem PWValid.prior_fst (h : PWValid ker k cp K ts) {new : Fin p → ℝ} (h0 : ∀ j, ts 0 ≤ new j) {s : SSM n d}
    (hs : K.stateSpaceModel approxInf ts = .ok s) :
    s.law = (pwPrior ker cp ts new).map Prod.fst ∧
    s.law = gpLaw (fun _ => 0) (pwStateCov ker cp (ts 0)) ts := by
  obtain ⟨s', hs', -, h1, h2⟩ := h.ssm
  obtain rfl : s = s' := Except.ok.inj (hs.symm.trans hs')
  have hall : ∀ i, ts 0 ≤ Sum.elim ts new i := by
    rintro (i | i)
    · exact h.times.monotone (Fin.zero_le i)
    · exact h0 i
  have e2 : s.law = gpLaw (fun _ => 0) (pwStateCov ker cp (ts 0)) ts := by
    rw [SSM.law_eq_gauss, h1, h2]; rfl
  refine ⟨?_, e2⟩
  rw [e2]
  unfold pwPrior
  rw [Measure.map_map measurable_fst measurable_atTimes]
  unfold gpLaw
  exact (gaussLaw_comp (h.psd (Sum.elim ts new) hall) (fun i => (0 : Vec d) i.2) (fun i : Fin (n + 1) × Fin d => (Sum.inl i.1, i.2))).symm

instance pwPrior_isProb (ker : Fin (m + 1) → Stationary o d) (cp : Fin m → ℝ) (ts : Fin (n + 1) → ℝ) (new : Fin p → ℝ) :
    IsProbabilityMeasure (pwPrior ker cp ts new) := by
  have := gpLaw_isProb (fun _ => (0 : Vec d)) (pwStateCov ker cp (ts 0)) (Sum.elim ts new)
  exact Measure.isProbabilityMeasure_map measurable_atTimes.aemeasurable

/-- `predict_state`, for sorted queries between the first and the last conditioning time. -/
theorem PWValid.predict (h : PWValid ker k cp K ts) {c : PWProcess n o d} (hck : c.kernel = K) (hct : c.times = ts)
    (hq : c.q.Nondegenerate) {new : Fin (p + 1) → ℝ} (hnew : Monotone new) (h0 : ∀ j, ts 0 ≤ new j)
    (h1 : ∀ j, new j ≤ ts (Fin.last n)) :
    ∃ r, c.predictState new = .ok r ∧ (∀ j, (r j).2.PosSemidef) ∧ ∃ ν, IsPredictive (pwPrior ker cp ts new) c.q.law ν ∧
      ∀ j, ν.map (fun x => fun a : Fin d => x.2 (j, a)) = gaussLaw (r j).1 (r j).2 := by
  have hts := h.times.monotone
  have hn0 : ∀ q, -approxInf < new q := fun q => lt_of_lt_of_le h.lower (h0 q)
  have hn1 : ∀ q, new q < approxInf := fun q => lt_of_le_of_lt (h1 q) h.upper
  choose cs hcs using fun q => pw_codeStats (cp := cp) h.core (fun i => (NoiseTag.noisy (h.noise i)).2) hts (hn0 q)
    (hn1 q).le
  obtain ⟨mu, C, S, rfl, rfl, rfl, hres⟩ := pw_predictState (c := c) ker cp (by rw [hck]; exact h.made) h.one hq h.two
    (h.core 0).pos (by rw [hct]; exact hts) (by rw [hct]; exact h.lower.le) (by rw [hct]; exact h.upper)
    hnew (fun q => (hn0 q).le) hn1 (by rw [hct]; exact hcs)
  obtain ⟨k', cs', hb, hk⟩ := pw_interior_stats h.core h.two hts h.lower h.change h0 h1 hcs
  have hM := h.markov (ts 0)
  have hKd : (c.q.Kd)ᵀ = c.q.Kd := (SSM.Kd_isJointCov (s := c.q)).symm
  have hp : IsProbabilityMeasure c.q.law := by rw [SSM.law_eq_gauss]; infer_instance
  refine ⟨_, hres, ?_, mpredLaw _ _ ts new k' cs' c.q.law, hb.predictive hM hts le_rfl _, ?_⟩
  all_goals
    intro j
    have hval : ((cs j).D *ᵥ (Fin.cons 0 (Fin.snoc (α := fun _ => Vec d) c.q.mus 0) : Fin (n + 3) → Vec d)
            (searchsortedLeft c.times (new j)).castSucc +
          (cs j).E *ᵥ (Fin.cons 0 (Fin.snoc (α := fun _ => Vec d) c.q.mus 0) : Fin (n + 3) → Vec d)
            (searchsortedLeft c.times (new j)).succ,
        (cs j).T + fromCols (cs j).D (cs j).E *
          fromBlocks ((Fin.cons (ker (segment cp (new 0))).Pinf (Fin.snoc (α := fun _ => Mat d d)
              (fun k => blk c.q.Kd k k) (ker (segment cp (new 0))).Pinf) : Fin (n + 3) → Mat d d)
                (searchsortedLeft c.times (new j)).castSucc)
            ((Fin.cons 0 (Fin.snoc (α := fun _ => Mat d d)
              (fun k : Fin n => blk c.q.Kd k.succ k.castSucc) 0) : Fin (n + 2) → Mat d d)
                (searchsortedLeft c.times (new j)))ᵀ
            ((Fin.cons 0 (Fin.snoc (α := fun _ => Mat d d)
              (fun k : Fin n => blk c.q.Kd k.succ k.castSucc) 0) : Fin (n + 2) → Mat d d)
                (searchsortedLeft c.times (new j)))
            ((Fin.cons (ker (segment cp (new 0))).Pinf (Fin.snoc (α := fun _ => Mat d d)
              (fun k => blk c.q.Kd k k) (ker (segment cp (new 0))).Pinf) : Fin (n + 3) → Mat d d)
                (searchsortedLeft c.times (new j)).succ) * (fromCols (cs j).D (cs j).E)ᵀ) =
        ((cs' j).D *ᵥ unstk (stk c.q.mus) (k' j).castSucc + (cs' j).E *ᵥ unstk (stk c.q.mus) (k' j).succ,
        (cs' j).T + fromCols (cs' j).D (cs' j).E *
          fromBlocks (blk c.q.Kd (k' j).castSucc (k' j).castSucc) (blk c.q.Kd (k' j).castSucc (k' j).succ)
            (blk c.q.Kd (k' j).succ (k' j).castSucc) (blk c.q.Kd (k' j).succ (k' j).succ) *
          (fromCols (cs' j).D (cs' j).E)ᵀ) := by
      rw [hct]
      rcases hk j with ⟨hk, hc⟩ | ⟨-, hs, hk, hc, hc'⟩
      · have e1 : (k' j).castSucc.succ.castSucc = (k' j).castSucc.castSucc.succ := rfl
        have e2 : (k' j).castSucc.succ.succ = (k' j).succ.castSucc.succ := rfl
        simp only [hk, hc, e1, e2, Fin.cons_succ, Fin.snoc_castSucc, blk_transpose_symm hKd]
        rfl
      · rw [hc, hc', hs, hk]
        have e2 : (Fin.succ 0 : Fin (n + 3)) = (Fin.castSucc 0 : Fin (n + 2)).succ := rfl
        simp only [e2, Fin.cons_succ, Fin.snoc_castSucc, one_mulVec, zero_mulVec, zero_add, add_zero,
          fromCols_mul_fromBlocks, transpose_fromCols, fromCols_mul_fromRows, Matrix.one_mul, Matrix.zero_mul,
          transpose_one, transpose_zero, Matrix.mul_one, Matrix.mul_zero]
        rfl
    rw [hval]
  · refine PosSemidef.add ?_ (posSemidef_conj' ?_ _)
    · rw [← hb.resid hM hts le_rfl j]
      exact (hb.resid_psd hM hts le_rfl).submatrix _
    · have := c.q.Kd_posSemidef.submatrix
        (Sum.elim (fun a : Fin d => ((k' j).castSucc, a)) fun a => ((k' j).succ, a))
      convert this using 1
      ext a b
      cases a <;> cases b <;> rfl
  · rw [SSM.law_eq_gauss]
    exact hb.marginal hM hts le_rfl c.q.Kd_posSemidef j

/-- Outputs: analogue of `outputs_posterior`. -/
theorem PWValid.outputs (h : PWValid ker k cp K ts) {s : SSM n d} (hs : K.stateSpaceModel approxInf ts = .ok s)
    {R : Fin (n + 1) → Mat o o} (hR : ∀ i, (R i).PosDef) (y : Fin (n + 1) → Vec o)
    {q : Measure (Fin (n + 1) × Fin d → ℝ)}
    (hb : IsBayesPosterior (stateLaw s) (obsLogLik (fun i => pwEmission ker cp (ts i)) id R y) q) {new : Fin p → ℝ}
    (h0 : ∀ j, ts 0 ≤ new j) {ν} (hν : IsPredictive (pwPrior ker cp ts new) q ν) :
    ν.map (outputsAt (pwOut ker cp) ts new) =
      gaussLaw (fun i => gpPostMean (fun _ => 0) (pwKernel ker cp (ts 0)) ts (blkDiag R) (stk y) (Sum.elim ts new i.1) i.2)
        (Matrix.of fun i j => gpPostCov (pwKernel ker cp (ts 0)) ts (blkDiag R) (Sum.elim ts new i.1)
          (Sum.elim ts new j.1) i.2 j.2) := by
  have hall : ∀ i, ts 0 ≤ Sum.elim ts new i := by
    rintro (i | i)
    · exact h.times.monotone (Fin.zero_le i)
    · exact h0 i
  have hll : obsLogLik (fun i => pwEmission ker cp (ts i)) id R y = fun x =>
      gaussLogDensity (outMat (pwOut ker cp) ts *ᵥ x) (blkDiag R) (stk y) := funext fun x => by
    rw [obsLogLik_eq (fun i => pwEmission ker cp (ts i)) id hR]
    exact congrArg (fun M => gaussLogDensity (M *ᵥ x) (blkDiag R) (stk y)) (obsMatrix_id_eq_outMat (pwOut ker cp) ts)
  have hb' : IsBayesPosterior ((pwPrior ker cp ts new).map Prod.fst)
      (fun x => gaussLogDensity (outMat (pwOut ker cp) ts *ᵥ x) (blkDiag R) (stk y)) q := by
    rw [← (h.prior_fst h0 hs).1, ← hll]
    exact hb
  have hB := C23_bayes (measurable_logDensity_comp (measurable_mulVec _) _ _) hb' hν
  have hB2 : IsBayesPosterior (pwPrior ker cp ts new) (fun x => gaussLogDensity
      (fun i : Fin (n + 1) × Fin o => outputsAt (pwOut ker cp) ts new x (.inl i.1, i.2)) (blkDiag R) (stk y)) ν := by
    have e : ∀ x : (Fin (n + 1) × Fin d → ℝ) × (Fin p × Fin d → ℝ), outMat (pwOut ker cp) ts *ᵥ x.1 =
        fun i : Fin (n + 1) × Fin o => outputsAt (pwOut ker cp) ts new x (.inl i.1, i.2) := fun x => by
      rw [outMat_mulVec]; rfl
    simp only [e] at hB
    exact hB
  have hsel : Measurable fun (f : (Fin (n + 1) ⊕ Fin p) × Fin o → ℝ) (i : Fin (n + 1) × Fin o) =>
      f (.inl i.1, i.2) := measurable_pi_lambda _ fun i => measurable_pi_apply _
  have hB3 := IsBayesPosterior.map (ℓ := fun f : (Fin (n + 1) ⊕ Fin p) × Fin o → ℝ =>
      gaussLogDensity (fun i : Fin (n + 1) × Fin o => f (.inl i.1, i.2)) (blkDiag R) (stk y))
    (measurable_outputsAt (pwOut ker cp) ts new) (measurable_logDensity_comp hsel (blkDiag R) (stk y)) hB2
  have hpm : (pwPrior ker cp ts new).map (outputsAt (pwOut ker cp) ts new) =
      gpLaw (fun _ => 0) (pwKernel ker cp (ts 0)) (Sum.elim ts new) := by
    have ho := gaussLaw_map_affine (h.psd (Sum.elim ts new) hall) (fun _ => 0)
      (0 : (Fin (n + 1) ⊕ Fin p) × Fin o → ℝ) (outMat (pwOut ker cp) (Sum.elim ts new))
    simp only [zero_add, outMat_mulVec, h.out_conj] at ho
    rw [pwPrior, Measure.map_map (measurable_outputsAt _ _ _) measurable_atTimes]
    unfold gpLaw
    refine Eq.trans ?_ (ho.trans ?_)
    · congr 1
      funext x i
      rcases i with ⟨t | t, b⟩ <;> rfl
    · congr 1
      funext i
      simp [mulVec, dotProduct]
  rw [hpm] at hB3
  exact IsBayesPosterior.unique hB3 (dense_bayes (fun _ => 0) (h.symm (ts 0)) ts new (h.gram_psd _ hall)
    (posDef_blkDiag hR) (stk y)).2.1

end
end MF
