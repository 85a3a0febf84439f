import Verif.Lemmas.PiecewiseOutputs

/-!
# C57: models over a `PiecewiseKernel`

Specification vocabulary (`Spec/PiecewiseProcess`): `pieces A μ P cp s t` is the transition from `s` to `t` of the process
that relaxes, with the dynamics of kernel `i`, for the time spent in interval `i`, one interval after the other;
`pieceMean`, `pieceCov` are the moments of that process started at the first time. Here `A i`, `P i` are the transitions and the
stationary covariance of the `i`-th kernel (`pwA`, `pwP`); `pwKernel` is the covariance function of the outputs,
`pwPrior` the Gaussian process prior of the states, `pwLatent` the outputs, with mean function.
`PWValid` bundles the hypotheses.
-/

namespace MF
open Matrix Spec MeasureTheory ProbabilityTheory InformationTheory
variable {n d o p m : ℕ}

/-- C57: the state space model of a piecewise kernel at times between which no change point lies strictly has the law of the
piecewise process, started at the first time with mean zero and the active kernel's stationary covariance. State
means of the kernels are allowed; they become the levels towards which the mean moves. -/
theorem C57_prior {base : Fin (m + 1) → Stationary o d} {k : Fin (m + 1) → ℝ → ℝ → Mat o o}
    (hb : ∀ i, Builds (base i) (k i)) (μ : Fin (m + 1) → Vec d) {cp : Fin m → ℝ} {K : Piecewise o d}
    (hK : Piecewise.init (List.ofFn fun i => (base i).setStateMean (μ i)) (List.ofFn cp) 0 = .ok K) (hm : 0 < m)
    {ts : Fin (n + 1) → ℝ} (hts : Monotone ts) (h0 : ∀ i, -10000000000 ≤ ts i ∧ ts i < 10000000000)
    (hch : ∀ k : Fin n, NoChange cp (ts k.castSucc) (ts k.succ)) {s : SSM n d}
    (hs : K.stateSpaceModel approxInf ts = .ok s) :
    s.law = gpLaw (pieceMean (pwA base) μ (pwP base) cp (ts 0)) (pieceCov (pwA base) μ (pwP base) cp (ts 0)) ts := by
  have hc : ∀ i, Core ((base i).setStateMean (μ i)) := fun i => by
    obtain ⟨h, -, -⟩ := Builds.good (hb i)
    exact ⟨h.time, h.zero, h.add, h.psd, h.contr, h.pos⟩
  obtain ⟨h1, h2⟩ := pw_ssm_law (ker := fun i => (base i).setStateMean (μ i)) hc (μ := μ)
    (fun i t δ => by
      show statOffsets (base i).stateTransitions (μ i) t δ = _
      unfold statOffsets
      rw [(Builds.good (hb i)).1.time]
      simp [Stationary.setStateMean, Matrix.sub_mulVec]) hK hm hts h0 hch hs
  rw [SSM.law_eq_gauss, h1, h2]
  rfl

/-- C57: the law of the process does not depend on which of its times are modelled: refining the grid of times leaves the
law at the original times unchanged, as long as the first time stays. -/
theorem C57_consistent {base : Fin (m + 1) → Stationary o d} {k : Fin (m + 1) → ℝ → ℝ → Mat o o}
    (hb : ∀ i, Builds (base i) (k i)) (μ : Fin (m + 1) → Vec d) {cp : Fin m → ℝ} {K : Piecewise o d}
    (hK : Piecewise.init (List.ofFn fun i => (base i).setStateMean (μ i)) (List.ofFn cp) 0 = .ok K) (hm : 0 < m)
    {N : ℕ} {ts : Fin (n + 1) → ℝ} {fine : Fin (N + 1) → ℝ} (hts : Monotone ts) (hf : Monotone fine)
    (h0 : ∀ i, -10000000000 ≤ fine i ∧ fine i < 10000000000)
    (hch : ∀ k : Fin n, NoChange cp (ts k.castSucc) (ts k.succ))
    (hch' : ∀ k : Fin N, NoChange cp (fine k.castSucc) (fine k.succ)) (e : Fin (n + 1) → Fin (N + 1))
    (he : ∀ i, fine (e i) = ts i) (he0 : e 0 = 0) {s : SSM n d} {s' : SSM N d}
    (hs : K.stateSpaceModel approxInf ts = .ok s) (hs' : K.stateSpaceModel approxInf fine = .ok s') :
    s'.law.map (fun x => fun i : Fin (n + 1) × Fin d => x (e i.1, i.2)) = s.law := by
  have hsp : ∀ i, StatProc (pwA base i) (pwP base i) := fun i => (Builds.good (hb i)).1.statProc
  rw [C57_prior hb μ hK hm hf h0 hch' hs', C57_prior hb μ hK hm hts (fun i => he i ▸ h0 (e i)) hch hs]
  have h1 : fine 0 = ts 0 := by rw [← he0, he]
  have hp := (piece_markov hsp μ cp (ts 0)).psd_any fine fun i => h1 ▸ hf (Fin.zero_le i)
  unfold gpLaw
  rw [h1]
  refine (gaussLaw_comp hp _ (fun i : Fin (n + 1) × Fin d => (e i.1, i.2))).trans ?_
  congr 1
  · funext i
    simp only [Function.comp_apply, he]
  · ext i j
    simp only [submatrix_apply, Matrix.of_apply, he]
    rfl

section
variable {ker : Fin (m + 1) → Stationary o d} {k : Fin (m + 1) → ℝ → ℝ → Mat o o} {cp : Fin m → ℝ}

/-- C57: as long as no change point is passed since the start, the outputs have the covariance function of the active
kernel: a piecewise kernel is its `i`-th kernel on a time axis that stays in interval `i`. -/
theorem C57_first_interval (hb : ∀ i, Builds (ker i) (k i)) {t₀ t t' : ℝ} (ht : t₀ ≤ t) (ht' : t₀ ≤ t')
    (hs : segment cp t = segment cp t₀) (hs' : segment cp t' = segment cp t₀) :
    pwKernel ker cp t₀ t t' = k (segment cp t₀) t t' := by
  have hsp : ∀ i, StatProc (pwA ker i) (pwP ker i) := fun i => (Builds.good (hb i)).1.statProc
  have hno : ∀ {a b : ℝ}, t₀ ≤ a → segment cp a = segment cp t₀ → segment cp b = segment cp t₀ → a ≤ b →
      NoChange cp a b := by
    intro a b ha ea eb hab i hi
    have hlt : (Spec.segment cp a) < (Spec.segment cp b) := by
      show (Finset.univ.filter fun j => cp j ≤ a).card < (Finset.univ.filter fun j => cp j ≤ b).card
      refine Finset.card_lt_card ⟨fun j hj => ?_, fun h => ?_⟩
      · rw [Finset.mem_filter] at hj ⊢
        exact ⟨hj.1, hj.2.trans hab⟩
      · have : i ∈ Finset.univ.filter fun j => cp j ≤ a := h (Finset.mem_filter.2 ⟨Finset.mem_univ _, hi.2.le⟩)
        exact absurd (Finset.mem_filter.1 this).2 (not_le.2 hi.1)
    rw [ea, eb] at hlt
    exact lt_irrefl _ hlt
  have hA : ∀ {a b : ℝ}, t₀ ≤ a → segment cp a = segment cp t₀ → segment cp b = segment cp t₀ → a ≤ b →
      (pieces (pwA ker) (fun _ => 0) (pwP ker) cp a b) = Channel.relax (pwA ker (segment cp t₀)) 0
        (pwP ker (segment cp t₀)) (b - a) := by
    intro a b ha ea eb hab
    rw [pieces_noChange hsp _ cp hab (hno ha ea eb hab), ea]
  have hV : ∀ {a : ℝ}, t₀ ≤ a → segment cp a = segment cp t₀ →
      pieceVar (pwA ker) (fun _ => 0) (pwP ker) cp t₀ a = pwP ker (segment cp t₀) := by
    intro a ha ea
    unfold pieceVar
    rw [hA le_rfl rfl ea ha]
    simp [Channel.relax]
  obtain ⟨-, -, hD⟩ := Builds.good (hb (segment cp t₀))
  unfold pwKernel pwEmission
  rw [hs, hs', pwStateCov_eq]
  unfold markovCov
  dsimp only
  split_ifs with hle
  · rw [hA ht' hs' hs hle, hV ht' hs', ← hD.cov t t' hle]
    simp only [Channel.relax, Matrix.mul_assoc]
    rfl
  · have hle := (not_le.1 hle).le
    rw [hA ht hs hs' hle, hV ht hs, ← hD.symm, ← hD.cov t' t hle]
    simp only [Channel.relax, transpose_mul, transpose_transpose, Matrix.mul_assoc]
    rfl

/-- C57: if all the kernels are the same, the change points have no effect. -/
theorem C57_same_kernel {base : Stationary o d} {κ : ℝ → ℝ → Mat o o} (hb : Builds base κ) (cp : Fin m → ℝ) (t₀ t t' : ℝ) :
    pwKernel (fun _ : Fin (m + 1) => base) cp t₀ t t' = κ t t' := by
  obtain ⟨hc, -, hD⟩ := Builds.good hb
  have hsum : ∀ {a b : ℝ}, a ≤ b → ∑ i, timeIn cp i a b = b - a := by
    intro a b hab
    have hU : (⋃ i, {u | a < u ∧ u ≤ b ∧ segment cp u = i}) = Set.Ioc a b := by
      ext u
      simp only [Set.mem_iUnion, Set.mem_ofPred_eq, Set.mem_Ioc]
      exact ⟨fun ⟨_, h1, h2, _⟩ => ⟨h1, h2⟩, fun h => ⟨_, h.1, h.2, rfl⟩⟩
    have := measure_iUnion (μ := volume) (f := fun i : Fin (m + 1) => {u | a < u ∧ u ≤ b ∧ segment cp u = i})
      (by
        intro i j hij
        refine Set.disjoint_left.2 fun u hu hu' => hij ?_
        exact hu.2.2.symm.trans hu'.2.2)
      (fun i => (timeSet_ordConnected cp i a b).measurableSet)
    rw [hU, tsum_fintype, Real.volume_Ioc] at this
    unfold timeIn
    rw [← ENNReal.toReal_sum fun i _ => timeSet_ne_top cp i a b, ← this, ENNReal.toReal_ofReal (sub_nonneg.2 hab)]
  have hchain : ∀ {N : ℕ} (δ : Fin N → ℝ), (∀ i, 0 ≤ δ i) →
      chain (fun i => Channel.relax (base.stateTransitions 0) (0 : Vec d) base.Pinf (δ i)) =
        Channel.relax (base.stateTransitions 0) 0 base.Pinf (∑ i, δ i) := by
    intro N δ hδ
    induction N with
    | zero => rw [chain_zero, Fin.sum_univ_zero, relax_zero hc.zero]
    | succ N ih =>
      rw [chain_succ, ih _ fun i => hδ i.succ, Fin.sum_univ_succ,
        relax_add hc.statProc _ (hδ 0) (Finset.sum_nonneg fun i _ => hδ i.succ)]
  have hp : ∀ a b : ℝ, pieces (pwA fun _ : Fin (m + 1) => base) (fun _ => 0) (pwP fun _ => base) cp a b =
      Channel.relax (base.stateTransitions 0) 0 base.Pinf (∑ i, timeIn cp i a b) := fun a b =>
    hchain (fun i => timeIn cp i a b) fun i => timeIn_nonneg cp i a b
  have hV : ∀ a, pieceVar (pwA fun _ : Fin (m + 1) => base) (fun _ => 0) (pwP fun _ => base) cp t₀ a = base.Pinf := by
    intro a
    unfold pieceVar
    rw [hp]
    simp [Channel.relax, pwP]
  unfold pwKernel pwEmission
  rw [pwStateCov_eq]
  unfold markovCov
  dsimp only
  split_ifs with hle
  · rw [hp, hV, hsum hle, ← hD.cov t t' hle]
    simp only [Channel.relax, Matrix.mul_assoc]
  · have hle := (not_le.1 hle).le
    rw [hp, hV, hsum hle, ← hD.symm, ← hD.cov t' t hle]
    simp only [Channel.relax, transpose_mul, transpose_transpose, Matrix.mul_assoc]

end

section
variable {ker : Fin (m + 1) → Stationary o d} {k : Fin (m + 1) → ℝ → ℝ → Mat o o} {cp : Fin m → ℝ}

/-- C57: `predict_state`, for sorted queries from the first to the last conditioning time: the marginals of
`q(u) p(s | u)`, the conditional law being that of the piecewise process. -/
theorem C57_predict_state {c : PWProcess n o d} (h : PWValid ker k cp c.kernel c.times) (hq : c.q.Nondegenerate)
    {new : Fin (p + 1) → ℝ} (hnew : Monotone new) (h0 : ∀ j, c.times 0 ≤ new j) (h1 : ∀ j, new j ≤ c.times (Fin.last n)) :
    ∃ r, c.predictState new = .ok r ∧ (∀ j, (r j).2.PosSemidef) ∧
      ∃ ν, IsPredictive (pwPrior ker cp c.times new) c.q.law ν ∧
      ∀ j, ν.map (fun x => fun a : Fin d => x.2 (j, a)) = gaussLaw (r j).1 (r j).2 :=
  h.predict rfl rfl hq hnew h0 h1

/-- The two forms of `predict_f`. -/
theorem PWValid.predictF {c : PWProcess n o d} (h : PWValid ker k cp c.kernel c.times)
    {new : Fin (p + 1) → ℝ} (hnew : Monotone new) (h0 : ∀ j, c.times 0 ≤ new j) (h1 : ∀ j, new j ≤ c.times (Fin.last n))
    {r} (hr : c.predictState new = .ok r) :
    (∃ f, c.predictF new = .ok f ∧ ∀ j, (f j).1 = pwEmission ker cp (new j) *ᵥ (r j).1 + c.meanFunction (new j) ∧
      (f j).2 = pwEmission ker cp (new j) * (r j).2 * (pwEmission ker cp (new j))ᵀ) ∧
    ∃ f, c.predictFDiag new = .ok f ∧ ∀ j, (f j).1 = pwEmission ker cp (new j) *ᵥ (r j).1 + c.meanFunction (new j) ∧
      ∀ i, (f j).2 i = (pwEmission ker cp (new j) * (r j).2 * (pwEmission ker cp (new j))ᵀ) i i := by
  have he := pw_emissions ker cp h.made h.one hnew (fun q => (lt_of_lt_of_le h.lower (h0 q)).le)
    (fun q => lt_of_le_of_lt (h1 q) h.upper)
  have hp := fun j => C25_projection (fun j => pwEmission ker cp (new j)) (fun q => (r q).1) (fun q => (r q).2) j
  constructor
  · refine ⟨fun q => (projectStateToF (fun j => pwEmission ker cp (new j)) (fun q => (r q).1) q + c.meanFunction (new q),
      projectStateCovarianceToFFull (fun j => pwEmission ker cp (new j)) (fun q => (r q).2) q), ?_, fun j => ⟨?_, ?_⟩⟩
    · unfold PWProcess.predictF
      rw [he, hr]
      simp only [Bind.bind, Except.bind, toFin_map]
      rfl
    · exact congrArg (· + c.meanFunction (new j)) (hp j).1
    · exact (hp j).2.1
  · refine ⟨fun q => (projectStateToF (fun j => pwEmission ker cp (new j)) (fun q => (r q).1) q + c.meanFunction (new q),
      projectStateCovarianceToFDiag (fun j => pwEmission ker cp (new j)) (fun q => (r q).2) q), ?_, fun j => ⟨?_, ?_⟩⟩
    · unfold PWProcess.predictFDiag
      rw [he, hr]
      simp only [Bind.bind, Except.bind, toFin_map]
      rfl
    · exact congrArg (· + c.meanFunction (new j)) (hp j).1
    · exact congrFun (hp j).2.2

/-- C57: predicting at no times raises. -/
theorem C57_no_queries {c : PWProcess n o d} (h : PWValid ker k cp c.kernel c.times) (new : Fin 0 → ℝ) :
    c.predictState new = .error .index ∧ c.predictF new = .error .index ∧ c.predictFDiag new = .error .index := by
  have h1 : c.predictState new = .error .index := by
    unfold PWProcess.predictState Piecewise.initialCovarianceAtFirst
    rw [List.ofFn_zero, List.take_nil, (C30_any_order ker cp h.made h.one (ts := []) (by simp)).1]
    rfl
  have he := pw_emissions ker cp h.made h.one (new := new) (fun a => a.elim0) (fun q => q.elim0) (fun q => q.elim0)
  refine ⟨h1, ?_, ?_⟩
  · unfold PWProcess.predictF
    rw [he, h1]; rfl
  · unfold PWProcess.predictFDiag
    rw [he, h1]; rfl

/-- The block diagonal observation noise of the model. -/
noncomputable def PWGPR.noiseCov (g : PWGPR n o d) : Matrix (Fin (n + 1) × Fin o) (Fin (n + 1) × Fin o) ℝ :=
  blkDiag fun _ => g.cholObsCov * g.cholObsCovᵀ

theorem PWGPR.kalman_ok {g : PWGPR n o d} (h : PWValid ker k cp g.kernel g.times) : ∃ s : SSM n d, s.Nondegenerate ∧
    g.kernel.stateSpaceModel approxInf g.times = .ok s ∧ stk s.mus = 0 ∧
    s.Kd = (Matrix.of fun i j : Fin (n + 1) × Fin d => pwStateCov ker cp (g.times 0) (g.times i.1) (g.times j.1) i.2 j.2) ∧
    g.kalman = .ok (kalmanFilter s (fun i => pwEmission ker cp (g.times i))
      (fun i => g.observations i - g.meanFunction (g.times i)) g.cholObsCov) := by
  obtain ⟨s, hs, hnd, h1, h2⟩ := h.ssm
  refine ⟨s, hnd, hs, h1, h2, ?_⟩
  unfold PWGPR.kalman
  rw [hs, pw_emissions ker cp h.made h.one h.times.monotone (fun q => (h.range q).1) (fun q => (h.range q).2)]
  simp only [Bind.bind, Except.bind, toFin_map]
  rfl

/-- C57: `log_likelihood()` of Gaussian process regression with a piecewise kernel is the dense marginal log
likelihood with the covariance function of the piecewise process; `loss()` is its negative. -/
theorem C57_log_likelihood {g : PWGPR n o d} (h : PWValid ker k cp g.kernel g.times) (hf : NoiseFactor g.cholObsCov) :
    g.logLikelihood = .ok (gaussLogDensity (meanVec g.meanFunction g.times)
        (gpGram (pwKernel ker cp (g.times 0)) g.times + g.noiseCov) (stk g.observations)) ∧
    g.loss = .ok (-(gaussLogDensity (meanVec g.meanFunction g.times)
        (gpGram (pwKernel ker cp (g.times 0)) g.times + g.noiseCov) (stk g.observations))) := by
  obtain ⟨s, hnd, hs, h1, h2, hk⟩ := PWGPR.kalman_ok h
  obtain ⟨r, hr, -, hv⟩ := C19_log_likelihood s (fun i => pwEmission ker cp (g.times i))
    (fun i => g.observations i - g.meanFunction (g.times i)) g.cholObsCov hnd hf h.two (h.core 0).pos
  have hv := hv s.mus s.Kd ⟨s.mus_isMeans, s.Kd_isJointCov⟩
  have ho : obsMatrix (fun i => pwEmission ker cp (g.times i)) id = outMat (pwOut ker cp) g.times :=
    obsMatrix_id_eq_outMat (pwOut ker cp) g.times
  rw [h1, h2, mulVec_zero, ho, h.out_conj] at hv
  have e : r = gaussLogDensity (meanVec g.meanFunction g.times)
      (gpGram (pwKernel ker cp (g.times 0)) g.times + g.noiseCov) (stk g.observations) := by
    rw [hv]
    unfold gaussLogDensity PWGPR.noiseCov
    rw [sub_zero]
    rfl
  have hl : g.logLikelihood = .ok r := by
    unfold PWGPR.logLikelihood
    rw [hk]
    exact hr
  refine ⟨by rw [hl, e], ?_⟩
  unfold PWGPR.loss
  rw [hl, e]
  rfl

theorem PWGPR.posterior_ok {g : PWGPR n o d} (h : PWValid ker k cp g.kernel g.times) (hf : NoiseFactor g.cholObsCov) :
    ∃ (s : SSM n d) (c : PWProcess n o d),
    g.kernel.stateSpaceModel approxInf g.times = .ok s ∧ g.posterior = .ok c ∧ c.q.Nondegenerate ∧
    c.kernel = g.kernel ∧ c.times = g.times ∧ c.meanFunction = g.meanFunction ∧
    IsBayesPosterior (stateLaw s) (obsLogLik (fun i => pwEmission ker cp (g.times i)) id
      (fun _ => g.cholObsCov * g.cholObsCovᵀ) fun i => g.observations i - g.meanFunction (g.times i)) c.q.law := by
  obtain ⟨s, hnd, hs, -, -, hk⟩ := PWGPR.kalman_ok h
  obtain ⟨q, hq, hqn, hb, -⟩ := C18_posterior s (fun i => pwEmission ker cp (g.times i))
    (fun i => g.observations i - g.meanFunction (g.times i)) g.cholObsCov hnd hf h.two
  refine ⟨s, ⟨q, g.kernel, g.times, g.meanFunction⟩, hs, ?_, hqn, rfl, rfl, rfl, hb⟩
  unfold PWGPR.posterior
  rw [hk]
  simp only [bind, Except.bind, hq, pure, Except.pure]

/-- C57: the posterior of Gaussian process regression with a piecewise kernel predicts, at sorted queries in the closed
range of the data times, the dense posterior mean (mean function included) and covariance for the covariance function
of the piecewise process. -/
theorem C57_posterior {g : PWGPR n o d} (h : PWValid ker k cp g.kernel g.times) (hf : NoiseFactor g.cholObsCov) :
    ∃ c, g.posterior = .ok c ∧ c.q.Nondegenerate ∧
    ∀ {p : ℕ} (new : Fin (p + 1) → ℝ), Monotone new → (∀ j, g.times 0 ≤ new j) → (∀ j, new j ≤ g.times (Fin.last n)) →
      ∃ f, c.predictF new = .ok f ∧ ∀ j,
        (f j).1 = gpPostMean g.meanFunction (pwKernel ker cp (g.times 0)) g.times g.noiseCov (stk g.observations) (new j) ∧
        (f j).2 = gpPostCov (pwKernel ker cp (g.times 0)) g.times g.noiseCov (new j) (new j) := by
  obtain ⟨s, c, hs, hc, hqn, hck, hct, hcm, hb⟩ := PWGPR.posterior_ok h hf
  refine ⟨c, hc, hqn, fun {p} new hnew h0 h1 => ?_⟩
  have hR : ∀ i : Fin (n + 1), (g.cholObsCov * g.cholObsCovᵀ).PosDef := fun _ => hf.posDef
  obtain ⟨r, hr, hps, ν, hν, hm⟩ := h.predict hck hct hqn hnew h0 h1
  have h' : PWValid ker k cp c.kernel c.times := by rw [hck, hct]; exact h
  obtain ⟨f, hfr, hfv⟩ := (h'.predictF hnew (by rw [hct]; exact h0) (by rw [hct]; exact h1) hr).1
  refine ⟨f, hfr, fun j => ?_⟩
  have hall : ∀ i, g.times 0 ≤ Sum.elim g.times new i := by
    rintro (i | i)
    · exact h.times.monotone (Fin.zero_le i)
    · exact h0 i
  have hdense := (dense_bayes (fun _ => 0) (h.symm (g.times 0)) g.times new (h.gram_psd _ hall) (posDef_blkDiag hR)
    (stk fun i => g.observations i - g.meanFunction (g.times i))).1
  have ho := h.outputs hs hR _ hb h0 hν
  have := congrArg (fun μ => μ.map (fun x => x ∘ fun a : Fin o => ((Sum.inr j : Fin (n + 1) ⊕ Fin (p + 1)), a))) ho
  rw [gaussLaw_comp hdense, Measure.map_map (by fun_prop) (measurable_outputsAt _ _ _)] at this
  have key : (gaussLaw (r j).1 (r j).2).map (fun x => pwEmission ker cp (new j) *ᵥ x) =
      gaussLaw (gpPostMean (fun _ => 0) (pwKernel ker cp (g.times 0)) g.times g.noiseCov
        (stk fun i => g.observations i - g.meanFunction (g.times i)) (new j))
        (gpPostCov (pwKernel ker cp (g.times 0)) g.times g.noiseCov (new j) (new j)) := by
    rw [← hm j, Measure.map_map (measurable_mulVec _) (by fun_prop)]
    exact this
  have hpost : (gpPostCov (pwKernel ker cp (g.times 0)) g.times g.noiseCov (new j) (new j)).PosSemidef :=
    hdense.submatrix fun a : Fin o => ((Sum.inr j : Fin (n + 1) ⊕ Fin (p + 1)), a)
  have haff := gaussLaw_map_affine (hps j) (r j).1 (0 : Vec o) (pwEmission ker cp (new j))
  simp only [zero_add] at haff
  rw [haff] at key
  obtain ⟨e1, e2⟩ := (SSM.gaussLaw_inj (posSemidef_conj' (hps j) _) hpost).1 key
  obtain ⟨f1, f2⟩ := hfv j
  rw [f1, f2, hcm, e1, e2, gpPostMean_shift]
  exact ⟨rfl, rfl⟩

/-- C57: on data at sorted times between the first and the last inducing point, the elbo of the sparse variational model
with a piecewise kernel is the expected log likelihood under `q(u) p(s | u)` (scaled) minus the KL divergence, and on
the full data `log p(y) = elbo + KL(q-process ‖ posterior)`, `p(y)` being the evidence of the Gaussian process model
with the covariance function of the piecewise process. -/
theorem C57_svgp {v : PWSVGP n o d} (h : PWValid ker k cp v.kernel v.inducing) (hq : v.q.Nondegenerate)
    (hlik : ExactLikelihood v.likelihood) {X : Fin (p + 1) → ℝ} (hX : Monotone X)
    (h0 : ∀ j, v.inducing 0 ≤ X j) (h1 : ∀ j, X j ≤ v.inducing (Fin.last n)) (Y : Fin (p + 1) → Vec o) :
    ∃ (s : SSM n d) (e kl E : ℝ) (ν : Measure _), v.distP = .ok s ∧ v.elbo X Y = .ok e ∧ v.loss X Y = .ok (-e) ∧
      IsPredictive (pwPrior ker cp v.inducing X) v.q.law ν ∧ klDiv v.q.law s.law = ENNReal.ofReal kl ∧ 0 ≤ kl ∧
      E = (∫ x, outputLogLik v.likelihood Y (pwLatent ker cp v.meanFunction X x.2) ∂ν) ∧
      e = (match v.numData with | some N => (N : ℝ) / (p + 1 : ℕ) | none => 1) * E - kl ∧
      ∀ post, IsBayesPosterior (pwPrior ker cp v.inducing X)
          (fun x => outputLogLik v.likelihood Y (pwLatent ker cp v.meanFunction X x.2)) post →
        klDiv ν post ≠ ⊤ ∧
        Real.log (evidence (gpLaw v.meanFunction (pwKernel ker cp (v.inducing 0)) X)
          (outputLogLik v.likelihood Y)).toReal = (E - kl) + (klDiv ν post).toReal ∧
        (v.numData = none ∨ v.numData = some (p + 1) →
          e ≤ Real.log (evidence (gpLaw v.meanFunction (pwKernel ker cp (v.inducing 0)) X)
            (outputLogLik v.likelihood Y)).toReal) := by
  obtain ⟨s, hs, hnd, -, -⟩ := h.ssm
  obtain ⟨kl, hkl, hkl', hkl0, -⟩ := C13_kl_divergence v.q s hq hnd h.two (h.core 0).pos
  obtain ⟨r, hr, hpsd, ν, hν, hmarg⟩ := C57_predict_state (c := v.posterior) h hq hX h0 h1
  obtain ⟨f, hf, hfv⟩ := (PWValid.predictF (c := v.posterior) h hX h0 h1 hr).2
  have hpq : IsProbabilityMeasure v.q.law := by rw [SSM.law_eq_gauss]; infer_instance
  have hν : IsPredictive (pwPrior ker cp v.inducing X) v.q.law ν := hν
  obtain ⟨hprob, hkν⟩ := klDiv_predictive (q := v.q.law) hν
  have hkν' : klDiv ν (pwPrior ker cp v.inducing X) = ENNReal.ofReal kl := by
    rw [hkν, ← (h.prior_fst h0 hs).1]; exact hkl'
  have hone : ∀ j a, ν.map (fun x => pwLatent ker cp v.meanFunction X x.2 (j, a)) =
      gaussianReal ((f j).1 a) ((f j).2 a).toNNReal := by
    intro j a
    obtain ⟨e1, e2⟩ := hfv j
    have hM : Measurable fun x : (Fin (n + 1) × Fin d → ℝ) × (Fin (p + 1) × Fin d → ℝ) =>
        fun a : Fin d => x.2 (j, a) := by fun_prop
    have hA := measurable_affine (v.meanFunction (X j)) (pwEmission ker cp (X j))
    rw [show (fun x : (Fin (n + 1) × Fin d → ℝ) × (Fin (p + 1) × Fin d → ℝ) =>
        pwLatent ker cp v.meanFunction X x.2 (j, a)) =
      (fun y : Fin o → ℝ => y a) ∘ (fun x => v.meanFunction (X j) + pwEmission ker cp (X j) *ᵥ x) ∘
        (fun x => fun a : Fin d => x.2 (j, a)) from funext fun x => add_comm _ _,
      ← Measure.map_map (measurable_pi_apply a) (hA.comp hM), ← Measure.map_map hA hM, hmarg j,
      gaussLaw_map_affine (hpsd j), gaussLaw_eval (posSemidef_conj' (hpsd j) _), e1, e2]
    rw [add_comm]
    rfl
  have hvar : ∀ j a, 0 ≤ (f j).2 a := fun j a => by
    obtain ⟨-, e2⟩ := hfv j
    rw [e2]
    exact (posSemidef_conj' (hpsd j) _).diag_nonneg
  have hml : Measurable (pwLatent ker cp v.meanFunction X) := measurable_latentAt (pwOut ker cp) v.meanFunction X
  have hmj : ∀ j a, Measurable fun x : (Fin (n + 1) × Fin d → ℝ) × (Fin (p + 1) × Fin d → ℝ) =>
      pwLatent ker cp v.meanFunction X x.2 (j, a) := fun j a =>
    (measurable_pi_apply (j, a)).comp (hml.comp measurable_snd)
  have hint : ∀ j a, Integrable (fun x => v.likelihood.logProb
      (pwLatent ker cp v.meanFunction X x.2 (j, a)) (Y j a)) ν := by
    intro j a
    have := hlik.integrable ((f j).1 a) ((f j).2 a) (Y j a)
    rw [← hone j a] at this
    exact this.comp_measurable (hmj j a)
  have hi : Integrable (fun x => outputLogLik v.likelihood Y (pwLatent ker cp v.meanFunction X x.2)) ν :=
    integrable_finsetSum _ fun j _ => integrable_finsetSum _ fun a _ => hint j a
  have hsum : ∫ x, outputLogLik v.likelihood Y (pwLatent ker cp v.meanFunction X x.2) ∂ν =
      ∑ j, v.likelihood.varExps (f j).1 (f j).2 (Y j) := by
    unfold outputLogLik ScalarLikelihood.varExps
    rw [integral_finsetSum _ fun j _ => integrable_finsetSum _ fun a _ => hint j a]
    refine Finset.sum_congr rfl fun j _ => ?_
    rw [integral_finsetSum _ fun a _ => hint j a]
    refine Finset.sum_congr rfl fun a _ => ?_
    rw [hlik.varExp _ _ _ (hvar j a), ← hone j a,
      integral_map (hmj j a).aemeasurable (hlik.measurable _).aestronglyMeasurable]
  have he : v.elbo X Y = .ok ((match v.numData with | some N => (N : ℝ) / (p + 1 : ℕ) | none => 1) *
      (∫ x, outputLogLik v.likelihood Y (pwLatent ker cp v.meanFunction X x.2) ∂ν) - kl) := by
    unfold PWSVGP.elbo PWSVGP.distP
    rw [hf, hs, hsum]
    simp only [Bind.bind, Except.bind, hkl, pure, Except.pure]
    cases v.numData <;> simp only [mul_comm]
  have hl : v.loss X Y = .ok (-((match v.numData with | some N => (N : ℝ) / (p + 1 : ℕ) | none => 1) *
      (∫ x, outputLogLik v.likelihood Y (pwLatent ker cp v.meanFunction X x.2) ∂ν) - kl)) := by
    unfold PWSVGP.loss
    rw [he]
    rfl
  refine ⟨s, _, kl, _, ν, hs, he, hl, hν, hkl', hkl0, rfl, rfl, fun post hpost => ?_⟩
  have hm : Measurable fun x : (Fin (n + 1) × Fin d → ℝ) × (Fin (p + 1) × Fin d → ℝ) =>
      outputLogLik v.likelihood Y (pwLatent ker cp v.meanFunction X x.2) :=
    (measurable_outputLogLik hlik Y).comp (hml.comp measurable_snd)
  obtain ⟨h2, h3⟩ := elbo_identity hm hpost (by rw [hkν']; exact ENNReal.ofReal_ne_top) hi
  have hall : ∀ i, v.inducing 0 ≤ Sum.elim v.inducing X i := by
    rintro (i | i)
    · exact h.times.monotone (Fin.zero_le i)
    · exact h0 i
  have hlat : (pwPrior ker cp v.inducing X).map (fun x => pwLatent ker cp v.meanFunction X x.2) =
      gpLaw v.meanFunction (pwKernel ker cp (v.inducing 0)) X := by
    have e1 : (pwPrior ker cp v.inducing X).map Prod.snd =
        gpLaw (fun _ => 0) (pwStateCov ker cp (v.inducing 0)) X := by
      unfold pwPrior
      rw [Measure.map_map measurable_snd measurable_atTimes]
      unfold gpLaw
      exact gaussLaw_comp (h.psd (Sum.elim v.inducing X) hall) (fun i => (0 : Vec d) i.2)
        (fun i : Fin (p + 1) × Fin d => (Sum.inr i.1, i.2))
    have e2 : pwLatent ker cp v.meanFunction X = fun x => meanVec v.meanFunction X + outMat (pwOut ker cp) X *ᵥ x :=
      latentAt_eq (pwOut ker cp) v.meanFunction X
    rw [show (fun x : (Fin (n + 1) × Fin d → ℝ) × (Fin (p + 1) × Fin d → ℝ) => pwLatent ker cp v.meanFunction X x.2) =
      pwLatent ker cp v.meanFunction X ∘ Prod.snd from rfl, ← Measure.map_map hml measurable_snd, e1, e2]
    unfold gpLaw
    rw [gaussLaw_map_affine (h.psd X h0), h.out_conj]
    congr 1
    rw [show (fun i : Fin (p + 1) × Fin d => (0 : Vec d) i.2) = 0 from rfl, mulVec_zero, add_zero]
    rfl
  have hevd : evidence (pwPrior ker cp v.inducing X)
      (fun x => outputLogLik v.likelihood Y (pwLatent ker cp v.meanFunction X x.2)) =
      evidence (gpLaw v.meanFunction (pwKernel ker cp (v.inducing 0)) X) (outputLogLik v.likelihood Y) := by
    rw [← hlat]
    unfold evidence
    have hmm : Measurable fun x : (Fin (n + 1) × Fin d → ℝ) × (Fin (p + 1) × Fin d → ℝ) =>
      pwLatent ker cp v.meanFunction X x.2 := hml.comp measurable_snd
    rw [lintegral_map _ hmm]
    · have := measurable_outputLogLik hlik Y
      fun_prop
  rw [hevd, hkν', ENNReal.toReal_ofReal hkl0] at h3
  refine ⟨h2, h3, fun hN => ?_⟩
  rw [h3]
  have hsc : (match v.numData with | some N => (N : ℝ) / (p + 1 : ℕ) | none => 1) = 1 := by
    rcases hN with hN | hN <;> rw [hN]
    exact div_self (Nat.cast_ne_zero.2 (Nat.succ_ne_zero p))
  rw [hsc, one_mul]
  linarith [ENNReal.toReal_nonneg (a := klDiv ν post)]

end
/-- Non-vacuity: two Ornstein-Uhlenbeck kernels, a change point at `0`, three times around it. The covariance function of the
process decays at the first kernel's rate before the change point and at the second one's after it. -/
theorem exists_pwValid : ∃ (K : Piecewise 1 1) (ker : Fin 2 → Stationary 1 1) (k : Fin 2 → ℝ → ℝ → Mat 1 1),
    PWValid ker k (fun _ : Fin 1 => (0 : ℝ)) K ![-1, 0, 1] ∧
    pwKernel ker (fun _ : Fin 1 => (0 : ℝ)) (-1) 1 (-1) = !![Real.exp (-2) * Real.exp (-1) * (1 / 2)] := by
  obtain ⟨k₀, k₁, a0, a1, h0, h1, -⟩ := exists_two_ou
  have hK : Piecewise.init (List.ofFn ![k₀, k₁]) (List.ofFn fun _ : Fin 1 => (0 : ℝ)) 0 =
      .ok ⟨List.ofFn ![k₀, k₁], List.ofFn fun _ : Fin 1 => (0 : ℝ), 0⟩ := by
    unfold Piecewise.init; rw [if_neg (by simp), if_neg (by simp)]
  have hmono : StrictMono ![(-1 : ℝ), 0, 1] := by
    rw [Fin.strictMono_iff_lt_succ]
    intro i; fin_cases i
    · show (-1 : ℝ) < 0; norm_num
    · show (0 : ℝ) < 1; norm_num
  have hb : ∀ i, Builds (![k₀, k₁] i) (![iso (ouCov 1 1), iso (ouCov 2 1)] i) := by
    intro i; fin_cases i
    · exact .leaf (.ou a0)
    · exact .leaf (.ou a1)
  have hV : PWValid ![k₀, k₁] ![iso (ouCov 1 1), iso (ouCov 2 1)] (fun _ : Fin 1 => (0 : ℝ)) _ ![-1, 0, 1] :=
    ⟨hK, one_pos, hb,
      by intro i; fin_cases i
         · exact .ou a0
         · exact .ou a1, two_pos, hmono, by show (-10000000000 : ℝ) < -1; norm_num,
      by show (1 : ℝ) < 10000000000; norm_num,
      by intro i j hj; fin_cases i
         · exact lt_irrefl (0 : ℝ) hj.2
         · exact lt_irrefl (0 : ℝ) hj.1⟩
  refine ⟨_, _, _, hV, ?_⟩
  have hsp : ∀ i, StatProc (pwA ![k₀, k₁] i) (pwP ![k₀, k₁] i) := fun i => (Builds.good (hb i)).1.statProc
  have hseg : segment (fun _ : Fin 1 => (0 : ℝ)) (-1) = 0 := by rw [segment_zero, if_neg (by norm_num)]
  have hseg1 : segment (fun _ : Fin 1 => (0 : ℝ)) 0 = 1 := by rw [segment_zero, if_pos le_rfl]
  have hseg2 : segment (fun _ : Fin 1 => (0 : ℝ)) 1 = 1 := by rw [segment_zero, if_pos zero_le_one]
  have hP : k₀.Pinf = !![0.5 * 1 / 1] ∧ k₀.emission (-1) = sdeEmission 1 1 ∧ k₁.emission 1 = sdeEmission 1 1 := by
    rw [(kernelInit_ok a0).2.2, (kernelInit_ok a1).2.2]
    exact ⟨rfl, rfl, rfl⟩
  unfold pwKernel pwEmission
  rw [pwStateCov_eq]
  unfold markovCov
  dsimp only
  rw [if_pos (by norm_num), pieceVar_start hsp, pieces_trans hsp _ _ (show (-1 : ℝ) ≤ 0 by norm_num) zero_le_one,
    pieces_noChange hsp _ _ (by norm_num) (fun j hj => lt_irrefl (0 : ℝ) hj.2),
    pieces_noChange hsp _ _ (by norm_num) (fun j hj => lt_irrefl (0 : ℝ) hj.1), hseg, hseg1, hseg2]
  simp only [Channel.andThen, Channel.relax, pwA, pwP]
  show (k₁).emission 1 * (k₁.stateTransitions 0 (1 - 0) * k₀.stateTransitions 0 (0 - -1) * k₀.Pinf) * ((k₀).emission (-1))ᵀ = _
  rw [h0, h1, hP.1, hP.2.1, hP.2.2]
  ext i j; fin_cases i; fin_cases j
  simp [Matrix.mul_apply, sdeEmission]
  norm_num

/-- Non-vacuity of the hypotheses of C57: regression and the sparse variational model with that kernel, on sorted data that
lie on both sides of the change point. -/
example : ∃ (ker : Fin 2 → Stationary 1 1) (k : Fin 2 → ℝ → ℝ → Mat 1 1) (g : PWGPR 2 1 1) (v : PWSVGP 2 1 1)
    (l E : ℝ), PWValid ker k (fun _ : Fin 1 => (0 : ℝ)) g.kernel g.times ∧ NoiseFactor g.cholObsCov ∧
    g.logLikelihood = .ok l ∧ g.observations 0 ≠ g.observations 1 ∧
    PWValid ker k (fun _ : Fin 1 => (0 : ℝ)) v.kernel v.inducing ∧ v.q.Nondegenerate ∧ v.q.mu0 ≠ 0 ∧
    ExactLikelihood v.likelihood ∧ v.elbo ![-1 / 2, 0, 0, 1 / 3] (fun i => ![(i : ℝ)]) = .ok E := by
  obtain ⟨K, ker, k, hV, -⟩ := exists_pwValid
  have hnf : NoiseFactor (1 : Mat 1 1) := by
    constructor
    · intro a b hab; exact Matrix.one_apply_ne hab.ne
    · intro a; exact (Matrix.one_apply_eq (α := ℝ) a).trans_ne one_ne_zero
  have hq : SSM.Nondegenerate (⟨![1], 1, fun _ => 1, fun _ => 0, fun _ => 1⟩ : SSM 2 1) := by
    intro i
    refine Fin.cases ?_ (fun i => ?_) i <;>
    exact ⟨fun a b hab => Matrix.one_apply_ne hab.ne, fun a => (Matrix.one_apply_eq (α := ℝ) a).trans_ne one_ne_zero⟩
  have h1 := (C57_log_likelihood (g := ⟨![-1, 0, 1], fun i => ![(i : ℝ)], K, fun t => ![t], 1⟩) hV hnf).1
  obtain ⟨_, e, _, _, _, -, he, -⟩ := C57_svgp
    (v := ⟨K, poissonLikelihood, ![-1, 0, 1], fun t => ![t], some 7, ⟨![1], 1, fun _ => 1, fun _ => 0, fun _ => 1⟩⟩) hV hq
    poissonLikelihood_exact (X := ![-1 / 2, 0, 0, 1 / 3])
    (by
      rw [Fin.monotone_iff_le_succ]
      intro i; fin_cases i <;> simp <;> norm_num)
    (by intro j; show (-1 : ℝ) ≤ _; fin_cases j <;> simp <;> norm_num)
    (by intro j; show _ ≤ (1 : ℝ); fin_cases j <;> simp <;> norm_num) fun i => ![(i : ℝ)]
  refine ⟨ker, k, _, _, _, e, hV, hnf, h1, ?_, hV, hq, ?_, poissonLikelihood_exact, he⟩
  · intro h; have := congrFun h 0; simp at this
  · intro h; have := congrFun h 0; simp at this

end MF
