import Verif.Props.PiecewiseTraining

/-!
# C83: training the sparse variational GP over a piecewise kernel
-/

namespace MF
open Matrix Spec MeasureTheory ProbabilityTheory InformationTheory Filter Topology
variable {n d o p m : ℕ}

section svgp
variable {ker : Fin (m + 1) → Stationary o d} {k : Fin (m + 1) → ℝ → ℝ → Mat o o} {cp : Fin m → ℝ}
  {K : Piecewise o d} {ts : Fin (n + 1) → ℝ}

/-! ### variances of the piecewise process are positive -/

theorem PWValid.var_posDef (h : PWValid ker k cp K ts) {x : ℝ} (h0 : ts 0 ≤ x) (h1 : x ≤ ts (Fin.last n)) :
    (pwStateCov ker cp (ts 0) x x).PosDef := by
  have hsp : ∀ i, StatProc (pwA ker i) (pwP ker i) := fun i => (h.core i).statProc
  have e : pwStateCov ker cp (ts 0) x x = pieceVar (pwA ker) (fun _ => 0) (pwP ker) cp (ts 0) x := by
    rw [pwStateCov_eq]
    unfold markovCov
    rw [if_pos le_rfl]
    dsimp only
    rw [pieces_self hsp]
    simp [Channel.stay]
  rw [e]
  rcases h0.lt_or_eq with hlt | rfl
  · obtain ⟨i, -, ha, hb⟩ := exists_interval h.times.monotone hlt h1
    have hi0 : ts 0 ≤ ts i.castSucc := h.times.monotone (Fin.zero_le _)
    rw [pieceVar_step hsp _ cp hi0 ha.le]
    refine PosDef.posSemidef_add (posSemidef_conj' ((h.markov (ts 0)).psd _ hi0) _) ?_
    rw [pieces_noChange hsp _ cp ha.le ((h.change i).sub le_rfl hb)]
    exact (NoiseTag.noisy (h.noise _)).2.strict rfl _ (sub_pos.2 ha)
  · rw [pieceVar_start hsp]
    exact (NoiseTag.noisy (h.noise _)).2.pd

/-! ### predictions in terms of pairs of inducing states -/

/-- The row of output `a` of the projection of the pair of neighbours. -/
noncomputable def pwRow (ker : Fin (m + 1) → Stationary o d) (cp : Fin m → ℝ) (X : Fin p → ℝ)
    (P : Fin p → Matrix (Fin d) (Fin d ⊕ Fin d) ℝ) (i : Fin p) (a : Fin o) : Fin d ⊕ Fin d → ℝ := (pwEmission ker cp (X i) * P i) a

/-- The part of the predictive variance of output `a` that does not depend on `q`. -/
noncomputable def pwRest (ker : Fin (m + 1) → Stationary o d) (cp : Fin m → ℝ) (X : Fin p → ℝ) (P0 : Mat d d)
    (P : Fin p → Matrix (Fin d) (Fin d ⊕ Fin d) ℝ) (T : Fin p → Mat d d) (J : Fin p → Fin (n + 2)) (i : Fin p) (a : Fin o) : ℝ :=
  (pwEmission ker cp (X i) * T i * (pwEmission ker cp (X i))ᵀ) a a + pwRow ker cp X P i a ⬝ᵥ (endCov P0 (J i) *ᵥ pwRow ker cp X P i a)

theorem pw_row_predict (X : Fin p → ℝ) (P0 : Mat d d) (P : Fin p → Matrix (Fin d) (Fin d ⊕ Fin d) ℝ) (T : Fin p → Mat d d)
    (J : Fin p → Fin (n + 2)) (q : SSM n d) (i : Fin p) (a : Fin o) :
    (pwEmission ker cp (X i) *ᵥ (nbPredict P0 (P i) (T i) (J i) q).1) a = pwRow ker cp X P i a ⬝ᵥ neighbours q.mus (J i) ∧
    (pwEmission ker cp (X i) * (nbPredict P0 (P i) (T i) (J i) q).2 * (pwEmission ker cp (X i))ᵀ) a a =
      pwRow ker cp X P i a ⬝ᵥ ((pickMat (nbIdx d (J i)) * q.Kd * (pickMat (nbIdx d (J i)))ᵀ) *ᵥ pwRow ker cp X P i a) +
        pwRest ker cp X P0 P T J i a := by
  constructor
  · have e : (nbPredict P0 (P i) (T i) (J i) q).1 = P i *ᵥ neighbours q.mus (J i) := by
      rw [← pair_mean_eq]
      conv_rhs => rw [← fromCols_toCols (P i), fromCols_mulVec]
      rfl
    rw [e, mulVec_mulVec]
    rfl
  · have e : (nbPredict P0 (P i) (T i) (J i) q).2 = T i + P i * (pickMat (nbIdx d (J i)) * q.Kd * (pickMat (nbIdx d (J i)))ᵀ +
        endCov P0 (J i)) * (P i)ᵀ := by
      rw [← pair_cov_eq P0 (isSymm_of_psd q.Kd_posSemidef) (J i)]
      rfl
    rw [e, Matrix.mul_add, Matrix.add_mul, Matrix.add_apply,
      show pwEmission ker cp (X i) * (P i * (pickMat (nbIdx d (J i)) * q.Kd * (pickMat (nbIdx d (J i)))ᵀ + endCov P0 (J i)) * (P i)ᵀ) *
          (pwEmission ker cp (X i))ᵀ = (pwEmission ker cp (X i) * P i) * (pickMat (nbIdx d (J i)) * q.Kd * (pickMat (nbIdx d (J i)))ᵀ +
          endCov P0 (J i)) * (pwEmission ker cp (X i) * P i)ᵀ by rw [Matrix.transpose_mul]; simp only [Matrix.mul_assoc],
      row_conj' (pwEmission ker cp (X i) * P i), Matrix.add_mulVec, dotProduct_add]
    unfold pwRest pwRow
    ring

/-- What the prediction code returns, with its ingredients. -/
theorem PWValid.stats (h : PWValid ker k cp K ts) {X : Fin (p + 1) → ℝ} (hX : Monotone X) (h0 : ∀ j, ts 0 ≤ X j) (h1 : ∀ j, X j ≤ ts (Fin.last n)) :
    ∃ P0 P T, K.initialCovarianceAtFirst approxInf X = .ok P0 ∧
      K.conditionalStatisticsAux approxInf X ts = .ok (P, T, fun j => searchsortedLeft ts (X j)) := by
  obtain ⟨s, -, hs, -, -⟩ := h.ssm
  obtain ⟨P0, P, T, idx, hP0, hst⟩ := pw_predict_parts (⟨s, K, ts, fun _ => 0⟩ : PWProcess n o d) h hs hX h0 h1
  have hn0 : ∀ q, -approxInf < X q := fun q => lt_of_lt_of_le h.lower (h0 q)
  have hn1 : ∀ q, X q < approxInf := fun q => lt_of_le_of_lt (h1 q) h.upper
  choose cs hcs using fun q => pw_codeStats (cp := cp) h.core (fun i => (NoiseTag.noisy (h.noise i)).2) h.times.monotone (hn0 q) (hn1 q).le
  have e := pw_conditionalStatisticsAux ker cp h.made h.one h.times.monotone h.lower.le h.upper hX (fun q => (hn0 q).le) hn1
  rw [conditionalStatisticsAux_of hcs] at e
  exact ⟨P0, _, _, hP0, e⟩

/-- Distributions with arbitrarily small covariance. -/
theorem exists_small_Kd {s : SSM n d} (hn : 0 < n) (hd : 0 < d) (hs : s.Nondegenerate) {ε : ℝ} (he : 0 < ε) :
    ∃ s' : SSM n d, s'.Nondegenerate ∧ s'.Kd = ε • s.Kd := by
  have hsy : SymDiag (ε⁻¹ • ssmToNaturals s) := SymDiag.smul (symDiag_naturals hs) _
  have hden : denseOf (ε⁻¹ • ssmToNaturals s) = ε⁻¹ • s.Pd := by
    have := denseOf_sum ({()} : Finset Unit) (fun _ => ε⁻¹) (fun _ => ssmToNaturals s)
    rw [Finset.sum_singleton, Finset.sum_singleton, denseOf_naturals hs] at this
    exact this
  have hPd : s.Pd.PosDef := by rw [← SSM.Kd_inv hs]; exact (SSM.Kd_posDef hs).inv
  have hP : ProperNaturals (ε⁻¹ • ssmToNaturals s) := by
    show (denseOf _).PosDef
    rw [hden]
    exact hPd.smul (inv_pos.2 he)
  obtain ⟨q, -, b2, b3⟩ := C17_naturals_round_trip (ε⁻¹ • ssmToNaturals s).1 (ε⁻¹ • ssmToNaturals s).2.1 (ε⁻¹ • ssmToNaturals s).2.2 hn hd hsy hP
  refine ⟨q, b2, ?_⟩
  have e1 : q.Pd = ε⁻¹ • s.Pd := by
    rw [← denseOf_naturals b2, ← hden, b3]
  have u1 := isUnit_det' (SSM.Kd_posDef b2).isUnit
  have u2 := isUnit_det' (SSM.Kd_posDef hs).isUnit
  have e2 : q.Kd⁻¹ = ε⁻¹ • s.Kd⁻¹ := by rw [SSM.Kd_inv b2, SSM.Kd_inv hs, e1]
  have e3 : (ε • s.Kd) * q.Kd⁻¹ = 1 := by
    rw [e2, Matrix.smul_mul, Matrix.mul_smul, Matrix.mul_nonsing_inv _ u2, smul_smul, mul_inv_cancel₀ he.ne', one_smul]
  calc q.Kd = ((ε • s.Kd) * q.Kd⁻¹) * q.Kd := by rw [e3, Matrix.one_mul]
    _ = ε • s.Kd := by rw [Matrix.mul_assoc, Matrix.nonsing_inv_mul _ u1, Matrix.mul_one]

theorem pw_var_nonneg (h : PWValid ker k cp K ts) {X : Fin (p + 1) → ℝ} (hX : Monotone X) (h0 : ∀ j, ts 0 ≤ X j)
    (h1 : ∀ j, X j ≤ ts (Fin.last n)) {P0 P T J} (hP0 : K.initialCovarianceAtFirst approxInf X = .ok P0)
    (hst : K.conditionalStatisticsAux approxInf X ts = .ok (P, T, J)) {q : SSM n d} (hq : q.Nondegenerate) (i : Fin (p + 1)) (a : Fin o) :
    0 ≤ pwRow ker cp X P i a ⬝ᵥ ((pickMat (nbIdx d (J i)) * q.Kd * (pickMat (nbIdx d (J i)))ᵀ) *ᵥ pwRow ker cp X P i a) +
        pwRest ker cp X P0 P T J i a := by
  obtain ⟨r, hr, hpsd, -⟩ := C57_predict_state (c := (⟨q, K, ts, fun _ => 0⟩ : PWProcess n o d)) h hq hX h0 h1
  have hv := pw_predict_value (⟨q, K, ts, fun _ => 0⟩ : PWProcess n o d) h hP0 hst hq
  have e := Except.ok.inj (hr.symm.trans hv)
  rw [← (pw_row_predict X P0 P T J q i a).2]
  have := hpsd i
  rw [e] at this
  exact (posSemidef_conj' this _).diag_nonneg

theorem pw_rest_nonneg (h : PWValid ker k cp K ts) {X : Fin (p + 1) → ℝ} (hX : Monotone X) (h0 : ∀ j, ts 0 ≤ X j)
    (h1 : ∀ j, X j ≤ ts (Fin.last n)) {P0 P T J} (hP0 : K.initialCovarianceAtFirst approxInf X = .ok P0)
    (hst : K.conditionalStatisticsAux approxInf X ts = .ok (P, T, J)) (i : Fin (p + 1)) (a : Fin o) :
    0 ≤ pwRest ker cp X P0 P T J i a := by
  obtain ⟨s, -, hs, -, -⟩ := h.ssm
  set c := pwRow ker cp X P i a ⬝ᵥ ((pickMat (nbIdx d (J i)) * s.Kd * (pickMat (nbIdx d (J i)))ᵀ) *ᵥ pwRow ker cp X P i a) with hc
  have key : ∀ ε : ℝ, 0 < ε → 0 ≤ ε * c + pwRest ker cp X P0 P T J i a := fun ε he => by
    obtain ⟨s', hs', e⟩ := exists_small_Kd h.two (h.core 0).pos hs he
    have := pw_var_nonneg h hX h0 h1 hP0 hst hs' i a
    rwa [e, Matrix.mul_smul, Matrix.smul_mul, Matrix.smul_mulVec, dotProduct_smul, smul_eq_mul] at this
  have hlim : Tendsto (fun ε : ℝ => ε * c + pwRest ker cp X P0 P T J i a) (𝓝[>] 0) (𝓝 (0 * c + pwRest ker cp X P0 P T J i a)) :=
    ((tendsto_nhdsWithin_of_tendsto_nhds tendsto_id).mul_const c).add_const _
  have := ge_of_tendsto hlim (eventually_nhdsWithin_of_forall fun ε he => key ε he)
  rwa [zero_mul, zero_add] at this

theorem pw_var_pos (h : PWValid ker k cp K ts) {X : Fin (p + 1) → ℝ} (hX : Monotone X) (h0 : ∀ j, ts 0 ≤ X j)
    (h1 : ∀ j, X j ≤ ts (Fin.last n)) {P0 P T J} (hP0 : K.initialCovarianceAtFirst approxInf X = .ok P0)
    (hst : K.conditionalStatisticsAux approxInf X ts = .ok (P, T, J)) {q : SSM n d} (hq : q.Nondegenerate) (i : Fin (p + 1)) (a : Fin o)
    (hem : pwEmission ker cp (X i) a ≠ 0) :
    0 < pwRow ker cp X P i a ⬝ᵥ ((pickMat (nbIdx d (J i)) * q.Kd * (pickMat (nbIdx d (J i)))ᵀ) *ᵥ pwRow ker cp X P i a) +
        pwRest ker cp X P0 P T J i a := by
  have hr := pw_rest_nonneg h hX h0 h1 hP0 hst i a
  rcases hr.lt_or_eq with hr | hr
  · refine add_pos_of_nonneg_of_pos ?_ hr
    rw [← pairRow_var]
    exact q.Kd_posSemidef.dotProduct_mulVec_nonneg _
  by_cases hz : pairRow (n := n) (pwRow ker cp X P i a) (J i) = 0
  · exfalso
    obtain ⟨s, hs, hsn, -, -⟩ := h.ssm
    obtain ⟨r, hrr, hpsd, ν, ⟨κ, hκ, hpr, hν⟩, hmarg⟩ := C57_predict_state (c := (⟨s, K, ts, fun _ => 0⟩ : PWProcess n o d)) h hsn hX h0 h1
    have hv := pw_predict_value (⟨s, K, ts, fun _ => 0⟩ : PWProcess n o d) h hP0 hst hsn
    have e := Except.ok.inj (hrr.symm.trans hv)
    have hνp : ν = pwPrior ker cp ts X := by
      have e1 : s.law = (pwPrior ker cp ts X).map Prod.fst := (h.prior_fst h0 hs).1
      rw [hν, show (⟨s, K, ts, fun _ => 0⟩ : PWProcess n o d).q.law = s.law from rfl, e1]
      exact hpr.symm
    have hall : ∀ i, ts 0 ≤ Sum.elim ts X i := by
      rintro (i | i)
      · exact h.times.monotone (Fin.zero_le i)
      · exact h0 i
    have hpm : (pwPrior ker cp ts X).map (fun x => fun a : Fin d => x.2 (i, a)) = gaussLaw 0 (pwStateCov ker cp (ts 0) (X i) (X i)) := by
      unfold pwPrior
      rw [Measure.map_map (by fun_prop) measurable_atTimes]
      unfold gpLaw
      exact (gaussLaw_comp (h.psd (Sum.elim ts X) hall) (fun i => (0 : Vec d) i.2) (fun a : Fin d => (Sum.inr i, a)))
    have hS := h.var_posDef (h0 i) (h1 i)
    have e2 := (hmarg i).symm.trans ((congrArg (fun μ => μ.map fun x => fun a : Fin d => x.2 (i, a)) hνp).trans hpm)
    have e3 := ((SSM.gaussLaw_inj (hpsd i) hS.posSemidef).1 e2).2
    have e4 := (pw_row_predict (ker := ker) (cp := cp) X P0 P T J s i a).2
    rw [← hr, add_zero, ← pairRow_var, hz, zero_dotProduct] at e4
    have e5 : (r i).2 = (nbPredict P0 (P i) (T i) (J i) s).2 := by rw [e]
    rw [← e5, e3, row_conj'] at e4
    have := hS.dotProduct_mulVec_pos hem
    rw [star_trivial] at this
    exact this.ne' e4
  · rw [← hr, add_zero, ← pairRow_var]
    have := (SSM.Kd_posDef hq).dotProduct_mulVec_pos hz
    rwa [star_trivial] at this

/-! ### the model -/

/-- The factor `num_data / minibatch size` in the bound, 1 without `num_data`. -/
noncomputable def PWSVGP.scale (v : PWSVGP n o d) (p : ℕ) : ℝ :=
  match v.numData with
  | some N => (N : ℝ) / p
  | none => 1

theorem PWSVGP.scale_nonneg (v : PWSVGP n o d) (p : ℕ) : 0 ≤ v.scale p := by
  unfold PWSVGP.scale
  split
  · positivity
  · exact zero_le_one

/-- The value of `loss((X, Y))` as a function of `dist_q`. -/
noncomputable def PWSVGP.lossOf (v : PWSVGP n o d) (X : Fin p → ℝ) (Y : Fin p → Vec o) (s : SSM n d) : ℝ :=
  match ({ v with q := s } : PWSVGP n o d).loss X Y with
  | .ok x => x
  | .error _ => 0

theorem pw_predictFDiag_value (c : PWProcess n o d) (h : PWValid ker k cp c.kernel c.times)
    {X : Fin (p + 1) → ℝ} (hX : Monotone X) (h0 : ∀ j, c.times 0 ≤ X j) (h1 : ∀ j, X j ≤ c.times (Fin.last n))
    {P0 P T J} (hP0 : c.kernel.initialCovarianceAtFirst approxInf X = .ok P0)
    (hst : c.kernel.conditionalStatisticsAux approxInf X c.times = .ok (P, T, J)) {q : SSM n d} (hq : q.Nondegenerate) :
    ∃ f, ({ c with q := q } : PWProcess n o d).predictFDiag X = .ok f ∧ ∀ i a,
      (f i).1 a = pwRow ker cp X P i a ⬝ᵥ neighbours q.mus (J i) + c.meanFunction (X i) a ∧
      (f i).2 a = pwRow ker cp X P i a ⬝ᵥ ((pickMat (nbIdx d (J i)) * q.Kd * (pickMat (nbIdx d (J i)))ᵀ) *ᵥ pwRow ker cp X P i a) +
        pwRest ker cp X P0 P T J i a := by
  obtain ⟨f, hf, hfv⟩ := (PWValid.predictF (c := { c with q := q }) h hX h0 h1 (pw_predict_value c h hP0 hst hq)).2
  refine ⟨f, hf, fun i a => ?_⟩
  obtain ⟨e1, e2⟩ := pw_row_predict (ker := ker) (cp := cp) X P0 P T J q i a
  obtain ⟨a1, a2⟩ := hfv i
  rw [← e1, ← e2, a1, a2]
  exact ⟨rfl, rfl⟩

theorem PWSVGP.lossOf_formula {v : PWSVGP n o d} (h : PWValid ker k cp v.kernel v.inducing) {X : Fin (p + 1) → ℝ} (hX : Monotone X)
    (h0 : ∀ j, v.inducing 0 ≤ X j) (h1 : ∀ j, X j ≤ v.inducing (Fin.last n)) (Y : Fin (p + 1) → Vec o)
    {P0 P T J} (hP0 : v.kernel.initialCovarianceAtFirst approxInf X = .ok P0)
    (hst : v.kernel.conditionalStatisticsAux approxInf X v.inducing = .ok (P, T, J)) :
    ∃ s : SSM n d, v.distP = .ok s ∧ s.Nondegenerate ∧
      ∀ s' : SSM n d, s'.Nondegenerate →
        ({ v with q := s' } : PWSVGP n o d).elbo X Y = .ok (-v.lossOf X Y s') ∧
        v.lossOf X Y s' = (klDiv s'.law s.law).toReal -
        ∑ i : Fin (p + 1) × Fin o, v.scale (p + 1) * v.likelihood.varExp
          (pwRow ker cp X P i.1 i.2 ⬝ᵥ neighbours s'.mus (J i.1) + v.meanFunction (X i.1) i.2)
          (pwRow ker cp X P i.1 i.2 ⬝ᵥ ((pickMat (nbIdx d (J i.1)) * s'.Kd * (pickMat (nbIdx d (J i.1)))ᵀ) *ᵥ pwRow ker cp X P i.1 i.2) +
              pwRest ker cp X P0 P T J i.1 i.2)
          (Y i.1 i.2) := by
  obtain ⟨s, hs, hnd, -, -⟩ := h.ssm
  refine ⟨s, hs, hnd, fun q₂ hq₂ => ?_⟩
  obtain ⟨f, hf, hpp⟩ := pw_predictFDiag_value v.posterior h hX h0 h1 hP0 hst hq₂
  obtain ⟨kl, hkl, hkl', hkl0, -⟩ := C13_kl_divergence q₂ s hq₂ hnd h.two (h.core 0).pos
  have hkl' : klDiv q₂.law s.law = ENNReal.ofReal kl := hkl'
  have he : ({ v with q := q₂ } : PWSVGP n o d).elbo X Y =
      .ok ((∑ i, v.likelihood.varExps (f i).1 (f i).2 (Y i)) * v.scale (p + 1) - kl) := by
    have hf' : ({ v with q := q₂ } : PWSVGP n o d).posterior.predictFDiag X = .ok f := hf
    unfold PWSVGP.elbo PWSVGP.distP
    rw [hf', hs]
    simp only [Bind.bind, Except.bind, Pure.pure, Except.pure, hkl]
    rfl
  have hL : v.lossOf X Y q₂ = -((∑ i, v.likelihood.varExps (f i).1 (f i).2 (Y i)) * v.scale (p + 1) - kl) := by
    unfold PWSVGP.lossOf PWSVGP.loss
    rw [he]; rfl
  refine ⟨by rw [hL, neg_neg]; exact he, ?_⟩
  rw [hL, hkl', ENNReal.toReal_ofReal hkl0, neg_sub, Fintype.sum_prod_type, Finset.sum_mul]
  congr 1
  refine Finset.sum_congr rfl fun i _ => ?_
  unfold ScalarLikelihood.varExps
  rw [Finset.sum_mul]
  refine Finset.sum_congr rfl fun a _ => ?_
  rw [(hpp i a).1, (hpp i a).2, mul_comm]
  rfl

open Classical in
/-- C83: the gradient of the `loss((X, Y))` of the sparse variational GP over a piecewise kernel, data at sorted times within the range of the inducing
points: the natural parameters of `dist_q` minus those of the prior times, for every datum and output, a Gaussian factor on the pair of inducing states
around it, raised to the power `num_data / minibatch size`. -/
theorem C83_svgp_gradient {v : PWSVGP n o d} (h : PWValid ker k cp v.kernel v.inducing) (hq : v.q.Nondegenerate)
    (hlik : DifferentiableVarExp v.likelihood) {X : Fin (p + 1) → ℝ} (hX : Monotone X)
    (h0 : ∀ j, v.inducing 0 ≤ X j) (h1 : ∀ j, X j ≤ v.inducing (Fin.last n)) (hem : ∀ j a, pwEmission ker cp (X j) a ≠ 0) (Y : Fin (p + 1) → Vec o) :
    ∃ (s : SSM n d) (η : ExpPar n d) (fx : Fin (p + 1) → Vec o × Vec o) (P : Fin (p + 1) → Matrix (Fin d) (Fin d ⊕ Fin d) ℝ)
      (T : Fin (p + 1) → Mat d d) (J : Fin (p + 1) → Fin (n + 2)),
      v.distP = .ok s ∧ ssmToExpectations v.q = .ok η ∧ v.posterior.predictFDiag X = .ok fx ∧
      v.kernel.conditionalStatisticsAux approxInf X v.inducing = .ok (P, T, J) ∧ (∀ i a, 0 < (fx i).2 a) ∧
      ∀ (W : Fin (p + 1) → Fin o → Fin d ⊕ Fin d → ℝ), (∀ i a, W i a = (pwEmission ker cp (X i) * P i) a) →
      ∀ (g : Fin (p + 1) → Fin o → ℝ × ℝ), (∀ i a, g i a =
        (deriv (fun x => v.likelihood.varExp x ((fx i).2 a) (Y i a)) ((fx i).1 a) -
          2 * deriv (fun x => v.likelihood.varExp ((fx i).1 a) x (Y i a)) ((fx i).2 a) * ((fx i).1 a - v.meanFunction (X i) a),
         deriv (fun x => v.likelihood.varExp ((fx i).1 a) x (Y i a)) ((fx i).2 a))) →
        IsTotalGradient (lossOfExpectations (v.lossOf X Y)) η (ssmToNaturals v.q - (ssmToNaturals s + v.scale (p + 1) • pairSiteNaturals
          (fun j => ∑ i ∈ Finset.univ.filter (fun i => InInterval v.inducing j (X i)), ∑ a, (g i a).1 • W i a)
          (fun j => ∑ i ∈ Finset.univ.filter (fun i => InInterval v.inducing j (X i)), ∑ a, (g i a).2 • vecMulVec (W i a) (W i a)))) := by
  obtain ⟨P0, P, T, hP0, hst⟩ := h.stats hX h0 h1
  set J : Fin (p + 1) → Fin (n + 2) := fun i => searchsortedLeft v.inducing (X i) with hJ
  obtain ⟨s, hs, hsn, hL⟩ := PWSVGP.lossOf_formula h hX h0 h1 Y hP0 hst
  obtain ⟨fx, hf, hpp⟩ := pw_predictFDiag_value v.posterior h hX h0 h1 hP0 hst hq
  have hpos := fun i a => pw_var_pos h hX h0 h1 hP0 hst hq i a (hem i a)
  refine ⟨s, expPar v.q, fx, P, T, J, hs, ssmToExpectations_eq v.q hq h.two (h.core 0).pos, hf, hst,
    fun i a => by rw [(hpp i a).2]; exact hpos i a, fun W hW g hg => ?_⟩
  obtain rfl : W = fun i a => pwRow ker cp X P i a := funext fun i => funext (hW i)
  rw [pairSites_sum h.times.monotone X (fun i a => pwRow ker cp X P i a) g, ← sub_sub, Finset.smul_sum]
  have hre : ∀ i : Fin (p + 1) × Fin o, v.scale (p + 1) • ((g i.1 i.2).1 • pairSiteNaturals (Pi.single (J i.1) (pwRow ker cp X P i.1 i.2)) 0 +
      (g i.1 i.2).2 • pairSiteNaturals 0 (Pi.single (J i.1) (vecMulVec (pwRow ker cp X P i.1 i.2) (pwRow ker cp X P i.1 i.2)))) =
      (v.scale (p + 1) * (g i.1 i.2).1) • pairSiteNaturals (Pi.single (J i.1) (pwRow ker cp X P i.1 i.2)) 0 +
      (v.scale (p + 1) * (g i.1 i.2).2) • pairSiteNaturals 0
        (Pi.single (J i.1) (vecMulVec (pwRow ker cp X P i.1 i.2) (pwRow ker cp X P i.1 i.2))) := fun i => by
    rw [smul_add, smul_smul, smul_smul]
  rw [Finset.sum_congr rfl fun i _ => hre i]
  refine totalGradient_elbo hq hsn (c := 0)
    (α := fun i : Fin (p + 1) × Fin o => pairSiteNaturals (Pi.single (J i.1) (pwRow ker cp X P i.1 i.2)) 0)
    (β := fun i => pairSiteNaturals 0 (Pi.single (J i.1) (vecMulVec (pwRow ker cp X P i.1 i.2) (pwRow ker cp X P i.1 i.2))))
    (g := fun i => (v.scale (p + 1) * (g i.1 i.2).1, v.scale (p + 1) * (g i.1 i.2).2))
    (F := fun i e => v.scale (p + 1) * v.likelihood.varExp (e.1 + v.meanFunction (X i.1) i.2)
      (e.2 - e.1 ^ 2 + pwRest ker cp X P0 P T J i.1 i.2) (Y i.1 i.2))
    (fun i => pairSiteNaturals_symDiag fun j => transpose_zero) (fun i => pairSiteNaturals_symDiag fun j => ?_) (fun i => ?_) fun s' hs' => ?_
  · by_cases hj : j = J i.1
    · rw [hj, Pi.single_eq_same, transpose_vecMulVec]
    · rw [Pi.single_eq_of_ne hj, transpose_zero]
  · obtain ⟨i, a⟩ := i
    dsimp only
    obtain ⟨e1, e2⟩ := pairing_single (pwRow ker cp X P i a) (J i) v.q
    rw [e1, e2]
    have hp1 := (hpp i a).1
    have hp2 := (hpp i a).2
    have hps := hpos i a
    rw [show v.posterior.meanFunction = v.meanFunction from rfl] at hp1
    set m := pwRow ker cp X P i a ⬝ᵥ neighbours v.q.mus (J i) with hm
    set var := pwRow ker cp X P i a ⬝ᵥ ((pickMat (nbIdx d (J i)) * v.q.Kd * (pickMat (nbIdx d (J i)))ᵀ) *ᵥ pwRow ker cp X P i a) with hv
    set R := pwRest ker cp X P0 P T J i a with hR
    set c := v.meanFunction (X i) a with hcm
    have hd := (hlik (m + c) (var + R) (Y i a) hps).hasFDerivAt
    set lik' : ScalarLikelihood := ⟨v.likelihood.logProb, fun m s y => v.scale (p + 1) * v.likelihood.varExp (m + c) (s + R) y⟩ with hl
    have hsh : HasFDerivAt (fun x : ℝ × ℝ => (x.1 + c, x.2 + R))
        ((ContinuousLinearMap.fst ℝ ℝ ℝ).prod (ContinuousLinearMap.snd ℝ ℝ ℝ)) (m, var) :=
      (hasFDerivAt_fst.add_const _).prodMk (hasFDerivAt_snd.add_const _)
    have hd' : HasFDerivAt (fun x : ℝ × ℝ => lik'.varExp x.1 x.2 (Y i a)) _ (m, var) :=
      (HasFDerivAt.comp (g := fun x : ℝ × ℝ => v.likelihood.varExp x.1 x.2 (Y i a)) (f := fun x : ℝ × ℝ => (x.1 + c, x.2 + R)) (m, var)
        hd hsh).const_mul (v.scale (p + 1))
    refine (C34_gradient hd').congr_fderiv ?_
    rw [hg i a, hp1, hp2]
    have d1 : deriv (fun x => lik'.varExp x var (Y i a)) m =
        v.scale (p + 1) * deriv (fun x => v.likelihood.varExp x (var + R) (Y i a)) (m + c) := by
      show deriv (fun x => v.scale (p + 1) * v.likelihood.varExp (x + c) (var + R) (Y i a)) m = _
      rw [deriv_const_mul_field, deriv_comp_add_const (fun x => v.likelihood.varExp x (var + R) (Y i a)) c m]
    have d2 : deriv (fun x => lik'.varExp m x (Y i a)) var =
        v.scale (p + 1) * deriv (fun x => v.likelihood.varExp (m + c) x (Y i a)) (var + R) := by
      show deriv (fun x => v.scale (p + 1) * v.likelihood.varExp (m + c) (x + R) (Y i a)) var = _
      rw [deriv_const_mul_field, deriv_comp_add_const (fun x => v.likelihood.varExp (m + c) x (Y i a)) R var]
    unfold localGradients gradMeanVarToExpectation
    simp only [d1, d2]
    rw [show m + c - c = m by ring]
    congr 2
    ring
  · rw [(hL s' hs').2, add_zero]
    congr 1
    refine Finset.sum_congr rfl fun i _ => ?_
    obtain ⟨e1, e2⟩ := pairing_single (pwRow ker cp X P i.1 i.2) (J i.1) s'
    beta_reduce
    rw [e1, e2, add_sub_cancel_right]

/-- C83: the sparse variational GP over a piecewise kernel, trained by natural gradients on a fixed batch. With a log-concave, smooth likelihood there is
one best distribution of the inducing states, and for every initial `dist_q` there is a positive rate such that with that or any smaller `gamma` every step
succeeds, `elbo((X, Y))` never decreases and converges to the best value, and the natural parameters, the marginals and all predictions `predict_f`
(at sorted times within the range of the inducing points) converge to those of the best distribution. -/
theorem C83_svgp_converges {v : PWSVGP n o d} (h : PWValid ker k cp v.kernel v.inducing) (he : ExactLikelihood v.likelihood)
    (hl : LogConcaveLikelihood v.likelihood) (hs : SmoothVarExp v.likelihood) {X : Fin (p + 1) → ℝ} (hX : Monotone X)
    (h0 : ∀ j, v.inducing 0 ≤ X j) (h1 : ∀ j, X j ≤ v.inducing (Fin.last n)) (hem : ∀ j a, pwEmission ker cp (X j) a ≠ 0) (Y : Fin (p + 1) → Vec o) :
    ∃ (best : SSM n d) (e : ℝ), best.Nondegenerate ∧ ({ v with q := best } : PWSVGP n o d).elbo X Y = .ok e ∧
      (∀ s : SSM n d, s.Nondegenerate → ∃ e', ({ v with q := s } : PWSVGP n o d).elbo X Y = .ok e' ∧ e' ≤ e ∧ (e' = e → s.law = best.law)) ∧
      ∀ q₀ : SSM n d, q₀.Nondegenerate →
      ∃ γ₀ : ℝ, 0 < γ₀ ∧ ∀ grad : ℕ → SSM n d → ExpPar n d × ExpPar n d, GivesGradient (v.lossOf X Y) grad →
        ∀ opt : NatGrad n d, opt.momentum = false → 0 < opt.gamma → opt.gamma ≤ γ₀ → ∃ (run : ℕ → SSM n d) (b : ℕ → ℝ)
          (m : ℕ → (Fin (n + 1) → Vec d) × (Fin (n + 1) → Mat d d)) (m' : (Fin (n + 1) → Vec d) × (Fin (n + 1) → Mat d d)),
          (∀ N, NatGrad.steps grad N (opt, q₀) = .ok (opt, run N)) ∧ (∀ N, ({ v with q := run N } : PWSVGP n o d).elbo X Y = .ok (b N)) ∧
          Monotone b ∧ Tendsto b atTop (𝓝 e) ∧ Tendsto (fun N => ssmToNaturals (run N)) atTop (𝓝 (ssmToNaturals best)) ∧
          (∀ N, (run N).marginals = .ok (m N)) ∧ best.marginals = .ok m' ∧ Tendsto m atTop (𝓝 m') ∧
          ∀ (p' : ℕ) (new : Fin (p' + 1) → ℝ), Monotone new → (∀ j, v.inducing 0 ≤ new j) → (∀ j, new j ≤ v.inducing (Fin.last n)) →
            ∃ (f : ℕ → Fin (p' + 1) → Vec o × Mat o o) (f' : Fin (p' + 1) → Vec o × Mat o o),
              (∀ N, ({ v with q := run N } : PWSVGP n o d).posterior.predictF new = .ok (f N)) ∧
              ({ v with q := best } : PWSVGP n o d).posterior.predictF new = .ok f' ∧ Tendsto f atTop (𝓝 f') := by
  have hd := (h.core 0).pos
  obtain ⟨P0, P, T, hP0, hst⟩ := h.stats hX h0 h1
  set J : Fin (p + 1) → Fin (n + 2) := fun i => searchsortedLeft v.inducing (X i) with hJ
  obtain ⟨s0, hs0, hsn, hL⟩ := PWSVGP.lossOf_formula h hX h0 h1 Y hP0 hst
  obtain ⟨best, hb, hmax, hrun⟩ := NatDyn.natgrad_converges (p := s0) he hl hs h.two hd hsn (ι := Fin (p + 1) × Fin o)
    (fun i => pairRow (pwRow ker cp X P i.1 i.2) (J i.1))
    (α := fun i : Fin (p + 1) × Fin o => pairSiteNaturals (Pi.single (J i.1) (pwRow ker cp X P i.1 i.2)) 0)
    (β := fun i => pairSiteNaturals 0 (Pi.single (J i.1) (vecMulVec (pwRow ker cp X P i.1 i.2) (pwRow ker cp X P i.1 i.2))))
    (κ := fun _ => v.scale (p + 1)) (b := fun i => v.meanFunction (X i.1) i.2) (r := fun i => pwRest ker cp X P0 P T J i.1 i.2)
    (y := fun i => Y i.1 i.2) (L := v.lossOf X Y)
    (fun i => pairSiteNaturals_symDiag fun j => transpose_zero)
    (fun i => pairSiteNaturals_symDiag fun j => by
      by_cases hj : j = J i.1
      · rw [hj, Pi.single_eq_same, transpose_vecMulVec]
      · rw [Pi.single_eq_of_ne hj, transpose_zero])
    (fun i s => by rw [(pairing_single _ (J i.1) s).1, pairRow_mean])
    (fun i s => by rw [(pairing_single _ (J i.1) s).2, pairRow_mean, pairRow_var])
    (fun i => denseOf_zero_pair) (fun i => denseOf_pairRow _ _)
    (fun i => by
      funext t a
      show (0 : ℝ) + 0 = 0
      rw [add_zero]) (fun _ => v.scale_nonneg (p + 1))
    (fun i => pw_rest_nonneg h hX h0 h1 hP0 hst i.1 i.2)
    (fun s hs i => by
      rw [pairRow_var]
      exact pw_var_pos h hX h0 h1 hP0 hst hs i.1 i.2 (hem i.1 i.2))
    (fun s hs => by
      rw [(hL s hs).2]
      congr 1
      refine Finset.sum_congr rfl fun i _ => ?_
      rw [pairRow_mean, pairRow_var])
  refine ⟨best, -v.lossOf X Y best, hb, (hL best hb).1,
    fun s hs => ⟨_, (hL s hs).1, neg_le_neg (hmax s hs).1, fun e => (hmax s hs).2 (neg_injective e)⟩, fun q₀ hq₀ => ?_⟩
  obtain ⟨γ₀, g0, -, hr⟩ := hrun q₀ hq₀
  refine ⟨γ₀, g0, fun grad hgrad opt hm k0 k1 => ?_⟩
  obtain ⟨run, r1, r2, r3, r4, r5, r6, r7⟩ := hr grad hgrad opt hm k0 k1
  refine ⟨run, fun N => -v.lossOf X Y (run N), fun N => ((run N).mus, fun t => blk (run N).Kd t t), (best.mus, fun t => blk best.Kd t t), r1,
    fun N => (hL _ (r2 N)).1, fun i j hij => neg_le_neg (r3 hij), r4.neg, r5, fun N => SSM.marginals_eq (r2 N) h.two hd, SSM.marginals_eq hb h.two hd,
    r6.prodMk_nhds ?_, fun p new hnew n0 n1 => ?_⟩
  · exact tendsto_pi_nhds.2 fun t => tendsto_pi_nhds.2 fun a => tendsto_pi_nhds.2 fun b =>
      (continuous_apply_apply (t, a) (t, b)).continuousAt.tendsto.comp r7
  · exact pw_predict_tendsto v.posterior h r2 hb r6 r7 hnew n0 n1

/-- C83: with a log-concave likelihood the gradient of `loss((X, Y))` vanishes exactly at the best distribution of the inducing states. -/
theorem C83_svgp_stationary {v : PWSVGP n o d} (h : PWValid ker k cp v.kernel v.inducing) (hq : v.q.Nondegenerate) (he : ExactLikelihood v.likelihood)
    (hl : LogConcaveLikelihood v.likelihood) (hd : DifferentiableVarExp v.likelihood) {X : Fin (p + 1) → ℝ} (hX : Monotone X)
    (h0 : ∀ j, v.inducing 0 ≤ X j) (h1 : ∀ j, X j ≤ v.inducing (Fin.last n)) (hem : ∀ j a, pwEmission ker cp (X j) a ≠ 0) (Y : Fin (p + 1) → Vec o)
    {η : ExpPar n d} (hη : ssmToExpectations v.q = .ok η) :
    ∃ e : SSM n d → ℝ, (∀ s : SSM n d, s.Nondegenerate → ({ v with q := s } : PWSVGP n o d).elbo X Y = .ok (e s)) ∧
      (IsGradient (lossOfExpectations (v.lossOf X Y)) η 0 ↔ ∀ s : SSM n d, s.Nondegenerate → e s ≤ e v.q) ∧
      (IsGradient (lossOfExpectations (v.lossOf X Y)) η 0 → ∀ s : SSM n d, s.Nondegenerate → e s = e v.q → s.law = v.q.law) := by
  have e1 := ssmToExpectations_eq v.q hq h.two (h.core 0).pos
  rw [hη] at e1
  obtain rfl : η = expPar v.q := Except.ok.inj e1
  obtain ⟨P0, P, T, hP0, hst⟩ := h.stats hX h0 h1
  set J : Fin (p + 1) → Fin (n + 2) := fun i => searchsortedLeft v.inducing (X i) with hJ
  obtain ⟨s0, hs0, hsn, hL⟩ := PWSVGP.lossOf_formula h hX h0 h1 Y hP0 hst
  obtain ⟨k1, k2⟩ := elbo_stationary (q := v.q) (p := s0) he hl hd hq hsn (ι := Fin (p + 1) × Fin o)
    (fun i => pairRow (pwRow ker cp X P i.1 i.2) (J i.1))
    (α := fun i : Fin (p + 1) × Fin o => pairSiteNaturals (Pi.single (J i.1) (pwRow ker cp X P i.1 i.2)) 0)
    (β := fun i => pairSiteNaturals 0 (Pi.single (J i.1) (vecMulVec (pwRow ker cp X P i.1 i.2) (pwRow ker cp X P i.1 i.2))))
    (κ := fun _ => v.scale (p + 1)) (b := fun i => v.meanFunction (X i.1) i.2) (r := fun i => pwRest ker cp X P0 P T J i.1 i.2)
    (y := fun i => Y i.1 i.2) (L := v.lossOf X Y)
    (fun i => pairSiteNaturals_symDiag fun j => transpose_zero)
    (fun i => pairSiteNaturals_symDiag fun j => by
      by_cases hj : j = J i.1
      · rw [hj, Pi.single_eq_same, transpose_vecMulVec]
      · rw [Pi.single_eq_of_ne hj, transpose_zero])
    (fun i s => by rw [(pairing_single _ (J i.1) s).1, pairRow_mean])
    (fun i s => by rw [(pairing_single _ (J i.1) s).2, pairRow_mean, pairRow_var])
    (fun i => denseOf_zero_pair) (fun i => denseOf_pairRow _ _) (fun _ => v.scale_nonneg (p + 1))
    (fun i => pw_rest_nonneg h hX h0 h1 hP0 hst i.1 i.2)
    (fun i => by
      rw [pairRow_var]
      exact pw_var_pos h hX h0 h1 hP0 hst hq i.1 i.2 (hem i.1 i.2))
    (fun s hs => by
      rw [(hL s hs).2]
      congr 1
      refine Finset.sum_congr rfl fun i _ => ?_
      rw [pairRow_mean, pairRow_var])
  refine ⟨fun s => -v.lossOf X Y s, fun s hs => (hL s hs).1, ?_, ?_⟩
  · rw [k1]
    simp only [neg_le_neg_iff]
  · intro hg s hs hes
    exact k2 hg s hs (neg_injective hes)

end svgp

/-- Non-vacuity: two Ornstein-Uhlenbeck kernels of different length scale with a change point at 0, inducing points at -1, 0, 1, data between them and the
Poisson likelihood, on a minibatch of 2 out of 10. -/
example : ∃ (ker : Fin 2 → Stationary 1 1) (k : Fin 2 → ℝ → ℝ → Mat 1 1) (v : PWSVGP 2 1 1) (X : Fin 2 → ℝ),
    PWValid ker k (fun _ : Fin 1 => (0 : ℝ)) v.kernel v.inducing ∧ v.q.Nondegenerate ∧ Monotone X ∧ (∀ j, v.inducing 0 ≤ X j) ∧
    (∀ j, X j ≤ v.inducing (Fin.last 2)) ∧ (∀ j a, pwEmission ker (fun _ : Fin 1 => (0 : ℝ)) (X j) a ≠ 0) ∧ v.numData = some 10 ∧ X 0 < X 1 ∧
    ExactLikelihood v.likelihood ∧ LogConcaveLikelihood v.likelihood ∧ SmoothVarExp v.likelihood := by
  obtain ⟨k₀, k₁, a0, a1, h0, h1, -⟩ := exists_two_ou
  have hK : Piecewise.init (List.ofFn ![k₀, k₁]) (List.ofFn fun _ : Fin 1 => (0 : ℝ)) 0 =
      .ok ⟨List.ofFn ![k₀, k₁], List.ofFn fun _ : Fin 1 => (0 : ℝ), 0⟩ := by
    unfold Piecewise.init; rw [if_neg (by simp), if_neg (by simp)]
  have hmono : StrictMono ![(-1 : ℝ), 0, 1] := by
    rw [Fin.strictMono_iff_lt_succ]
    intro i; fin_cases i
    · show (-1 : ℝ) < 0; norm_num
    · show (0 : ℝ) < 1; norm_num
  have hb : ∀ i, Builds (![k₀, k₁] i) (![iso (ouCov 1 1), iso (ouCov 2 1)] i) := by
    intro i; fin_cases i
    · exact .leaf (.ou a0)
    · exact .leaf (.ou a1)
  have hV : PWValid ![k₀, k₁] ![iso (ouCov 1 1), iso (ouCov 2 1)] (fun _ : Fin 1 => (0 : ℝ)) _ ![-1, 0, 1] :=
    ⟨hK, one_pos, hb,
      by intro i; fin_cases i
         · exact .ou a0
         · exact .ou a1, two_pos, hmono, by show (-10000000000 : ℝ) < -1; norm_num,
      by show (1 : ℝ) < 10000000000; norm_num,
      by intro i j hj; fin_cases i
         · exact lt_irrefl (0 : ℝ) hj.2
         · exact lt_irrefl (0 : ℝ) hj.1⟩
  obtain ⟨s, hs, hsn, -, -⟩ := hV.ssm
  refine ⟨_, _, ⟨_, poissonLikelihood, ![-1, 0, 1], fun _ => 0, some 10, s⟩, ![-1 / 2, 1 / 2], hV, hsn, ?_, ?_, ?_, fun t a h2 => ?_, rfl, ?_,
    poissonLikelihood_exact, poissonLikelihood_logConcave, poissonLikelihood_smooth⟩
  · refine (Fin.strictMono_iff_lt_succ.2 fun i => ?_).monotone
    fin_cases i
    show (-1 / 2 : ℝ) < 1 / 2; norm_num
  · intro j; fin_cases j
    · show (-1 : ℝ) ≤ -1 / 2; norm_num
    · show (-1 : ℝ) ≤ 1 / 2; norm_num
  · intro j; fin_cases j
    · show (-1 / 2 : ℝ) ≤ 1; norm_num
    · show (1 / 2 : ℝ) ≤ 1; norm_num
  · have e0 : ∀ (i : Fin 2) t, (![k₀, k₁] i).emission t = sdeEmission 1 1 := fun i t => by
      fin_cases i
      · show k₀.emission t = _
        rw [(kernelInit_ok a0).2.2]; rfl
      · show k₁.emission t = _
        rw [(kernelInit_ok a1).2.2]; rfl
    unfold pwEmission at h2
    rw [e0] at h2
    have := congrFun h2 0
    obtain rfl : a = 0 := Subsingleton.elim _ _
    simp [sdeEmission] at this
  · show (-1 / 2 : ℝ) < 1 / 2; norm_num

end MF
