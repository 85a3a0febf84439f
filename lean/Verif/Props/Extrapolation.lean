import Verif.Lemmas.Extrapolate
import Verif.Props.Conditionals

/-! # C50: the far-away pseudo-observations used for extrapolation cost exponentially little -/

namespace MF
open Matrix Spec MeasureTheory ProbabilityTheory
variable {n d o p : ℕ}

/-- `predict_state` (posterior.py:207-229) with the constant `APPROX_INF` (base.py:46, used at
conditionals.py:238) replaced by `inf`. -/
noncomputable def CondProcess.predictStateAt (c : CondProcess n o d) (inf : ℝ) (new : Fin p → ℝ) :
    Except Err (Fin p → Vec d × Mat d d) := do
  let (pwMu, pwCov) ← pairwiseMarginals c.q c.kernel.initialMean c.kernel.initialCovariance
  conditionalPredict inf new c.times c.kernel.trans pwMu (some pwCov)

theorem predictStateAt_of {c : CondProcess n o d} {inf : ℝ} (hq : c.q.Nondegenerate) (hn : 0 < n) (hd : 0 < d)
    {new : Fin p → ℝ} {cs : Fin p → CondStats d}
    (hcs : ∀ j, CodeStats inf c.times c.kernel.trans (new j) (cs j)) :
    ∃ mu : Fin (n + 3) → Vec d, ∃ C : Fin (n + 3) → Mat d d, ∃ S : Fin (n + 2) → Mat d d,
      mu = Fin.cons c.kernel.initialMean (Fin.snoc (α := fun _ => Vec d) c.q.mus c.kernel.initialMean) ∧
      C = Fin.cons c.kernel.initialCovariance (Fin.snoc (α := fun _ => Mat d d)
        (fun k => blk c.q.Kd k k) c.kernel.initialCovariance) ∧
      S = Fin.cons 0 (Fin.snoc (α := fun _ => Mat d d)
        (fun k : Fin n => blk c.q.Kd k.succ k.castSucc) 0) ∧
      c.predictStateAt inf new = .ok fun j => ((cs j).D *ᵥ mu (searchsortedLeft c.times (new j)).castSucc +
          (cs j).E *ᵥ mu (searchsortedLeft c.times (new j)).succ,
        (cs j).T + fromCols (cs j).D (cs j).E *
          fromBlocks (C (searchsortedLeft c.times (new j)).castSucc)
            (S (searchsortedLeft c.times (new j)))ᵀ (S (searchsortedLeft c.times (new j)))
            (C (searchsortedLeft c.times (new j)).succ) * (fromCols (cs j).D (cs j).E)ᵀ) := by
  obtain ⟨mu, C, S, hpw, hmu, hC, hS⟩ := pairwiseMarginals_eq hq hn hd c.kernel.initialMean
    c.kernel.initialCovariance
  refine ⟨mu, C, S, hmu, hC, hS, ?_⟩
  unfold CondProcess.predictStateAt conditionalPredict
  rw [hpw, conditionalStatisticsAux_of hcs]
  simp only [bind, Except.bind, pure, Except.pure]
  congr 1
  funext j
  simp only [baseConditionalPredict, Option.map_some]
  rw [fromCols_mulVec]
  simp only [Sum.elim_comp_inl, Sum.elim_comp_inr]

/-- The code's answer at one query, as a function of its statistics. -/
private noncomputable def codeAnswer (c : CondProcess n o d) (t : ℝ) (cs : CondStats d) : Vec d × Mat d d :=
  let mu : Fin (n + 3) → Vec d :=
    Fin.cons c.kernel.initialMean (Fin.snoc (α := fun _ => Vec d) c.q.mus c.kernel.initialMean)
  let C : Fin (n + 3) → Mat d d := Fin.cons c.kernel.initialCovariance (Fin.snoc (α := fun _ => Mat d d)
        (fun k => blk c.q.Kd k k) c.kernel.initialCovariance)
  let S : Fin (n + 2) → Mat d d := Fin.cons 0 (Fin.snoc (α := fun _ => Mat d d)
        (fun k : Fin n => blk c.q.Kd k.succ k.castSucc) 0)
  (cs.D *ᵥ mu (searchsortedLeft c.times t).castSucc + cs.E *ᵥ mu (searchsortedLeft c.times t).succ,
    cs.T + fromCols cs.D cs.E * fromBlocks (C (searchsortedLeft c.times t).castSucc)
            (S (searchsortedLeft c.times t))ᵀ (S (searchsortedLeft c.times t))
            (C (searchsortedLeft c.times t).succ) * (fromCols cs.D cs.E)ᵀ)

/-- One query: the exact linear predictor, and the distance of the code's answer from the exact one. -/
private theorem one_query {c : CondProcess n o d} (hc : Core c.kernel) (hr : Regular c.kernel)
    (hj : c.kernel.jitter = 0)
    (hs : ∀ δ, 0 < δ → (c.kernel.Pinf - c.kernel.stateTransitions 0 δ * c.kernel.Pinf *
      (c.kernel.stateTransitions 0 δ)ᵀ).PosDef) (hts : Monotone c.times) :
    ∃ κ : ℝ, 0 < κ ∧ ∃ B : ℝ, 0 ≤ B ∧ ∀ inf : ℝ, (∀ i, |c.times i| + 1 ≤ inf) → ∀ t : ℝ, |t| < inf →
      ∃ cs : CondStats d, ∃ l r : Fin (n + 1), ∃ D E : Mat d d, CodeStats inf c.times c.kernel.trans t cs ∧
        (∀ i, stateCov (c.kernel.stateTransitions 0) c.kernel.Pinf t (c.times i) =
          D * stateCov (c.kernel.stateTransitions 0) c.kernel.Pinf (c.times l) (c.times i) +
          E * stateCov (c.kernel.stateTransitions 0) c.kernel.Pinf (c.times r) (c.times i)) ∧
        (∀ a, |(codeAnswer c t cs).1 a - (D *ᵥ c.q.mus l + E *ᵥ c.q.mus r) a| ≤
          B * Real.exp (-(κ * (inf - |t|)))) ∧
        ∀ a b, |(codeAnswer c t cs).2 a b -
          ((c.kernel.Pinf - (stateCov (c.kernel.stateTransitions 0) c.kernel.Pinf t (c.times l) * Dᵀ +
              stateCov (c.kernel.stateTransitions 0) c.kernel.Pinf t (c.times r) * Eᵀ)) +
            fromCols D E * fromBlocks (blk c.q.Kd l l) (blk c.q.Kd l r) (blk c.q.Kd r l) (blk c.q.Kd r r) *
              (fromCols D E)ᵀ) a b| ≤ B * Real.exp (-(κ * (inf - |t|))) := by
  have hst := hc.statProc
  set A := c.kernel.stateTransitions 0 with hA
  set P := c.kernel.Pinf with hP
  have h1 := hs 1 one_pos
  have hPd : P.PosDef := by
    have := h1.add_posSemidef (hst.psd.mul_mul_conjTranspose_same (A 1))
    rwa [conjTranspose_eq_transpose_of_trivial, sub_add_cancel] at this
  have hPu : IsUnit P.det := (isUnit_iff_isUnit_det _).1 hPd.isUnit
  have hKd : (c.q.Kd)ᵀ = c.q.Kd := (SSM.Kd_isJointCov (s := c.q)).symm
  have hPi : c.kernel.initialCovariance = P := by
    rw [Stationary.initialCovariance, hj, jitterMatrix_zero, add_zero]
  obtain ⟨κ₁, hκ₁, B₁, hB₁, hR⟩ := hst.right_final h1 (c.q.mus (Fin.last n)) (blk c.q.Kd (Fin.last n) (Fin.last n))
  obtain ⟨κ₂, hκ₂, B₂, hB₂, hL⟩ := hst.left_final h1 (c.q.mus 0) (blk c.q.Kd 0 0)
  have weaken : ∀ {κ' B' s s' x : ℝ}, min κ₁ κ₂ ≤ κ' → B' ≤ max B₁ B₂ → 0 ≤ B' → 0 ≤ s → s ≤ s' →
      x ≤ B' * Real.exp (-(κ' * s')) → x ≤ max B₁ B₂ * Real.exp (-(min κ₁ κ₂ * s)) := by
    intro κ' B' s s' x hk hB hB0 hs0 hss hx
    refine hx.trans (mul_le_mul hB (Real.exp_le_exp.2 ?_) (Real.exp_pos _).le (hB0.trans hB))
    have a1 : 0 < min κ₁ κ₂ := lt_min hκ₁ hκ₂
    have a2 : min κ₁ κ₂ * s ≤ κ' * s' := mul_le_mul hk hss hs0 (a1.le.trans hk)
    linarith
  refine ⟨min κ₁ κ₂, lt_min hκ₁ hκ₂, max B₁ B₂, hB₁.trans (le_max_left _ _), fun inf hinf t ht => ?_⟩
  obtain ⟨ht1, ht2⟩ := abs_lt.1 ht
  obtain ⟨cs, tm, tp, hcs, htm, htp, hlt, hut, eE, eD, eT⟩ := codeStats_exists hc hr hj hs hts ht1 ht2.le
  have hsl := lt_searchsortedLeft hts t
  by_cases hleft : t ≤ c.times 0
  · -- before the first conditioning time
    have hk : searchsortedLeft c.times t = 0 := by
      refine Fin.ext ?_
      show ((searchsortedLeft c.times t : Fin (n + 2)) : ℕ) = 0
      have a2 := mt (hsl 0).1 (not_lt.2 hleft)
      simp only [Fin.val_zero] at a2
      omega
    rw [hk] at htm htp
    have e1 : augmentedTimes inf c.times (0 : Fin (n + 2)).succ = c.times 0 := augmentedTimes_mid _ _ 0
    rw [e1] at htp
    rw [Fin.castSucc_zero, augmentedTimes_zero] at htm
    subst htm htp
    have hab := abs_le.1 (show |c.times 0| ≤ inf - 1 by linarith [hinf 0])
    have hx : 0 ≤ c.times 0 - t ∧ 0 ≤ t - -inf ∧ 1 ≤ c.times 0 - t + (t - -inf) :=
      ⟨by linarith, by linarith, by linarith [hab.1]⟩
    obtain ⟨b1, b2⟩ := hL ⟨(c.times 0 - t, t - -inf), hx⟩ cs.D cs.E cs.T eE eD eT
    dsimp only at b1 b2
    have hdist : inf - |t| ≤ t - -inf := by linarith [neg_abs_le t]
    have hEt : (P * (A (c.times 0 - t))ᵀ * P⁻¹)ᵀ = P⁻¹ * A (c.times 0 - t) * P := by
      rw [transpose_mul, transpose_mul, transpose_transpose, hst.symm, transpose_nonsing_inv, hst.symm,
        Matrix.mul_assoc]
    refine ⟨cs, 0, 0, 0, P * (A (c.times 0 - t))ᵀ * P⁻¹, hcs, fun i => ?_, fun a => ?_, fun a b => ?_⟩
    · rw [Matrix.zero_mul, zero_add]
      have hi : c.times 0 ≤ c.times i := hts (Fin.zero_le _)
      rw [hst.cov_le (hleft.trans hi), hst.cov_le hi, transpose_mul, transpose_mul, hst.symm]
      have e2 : A (c.times i - t) = A (c.times i - c.times 0) * A (c.times 0 - t) := by
        rw [← hst.add _ _ (sub_nonneg.2 hi) (sub_nonneg.2 hleft)]; congr 1; ring
      rw [e2, transpose_mul, Matrix.mul_assoc (P * (A (c.times 0 - t))ᵀ), ← Matrix.mul_assoc P⁻¹,
        nonsing_inv_mul _ hPu, Matrix.one_mul, Matrix.mul_assoc]
    · refine weaken (min_le_right _ _) (le_max_right _ _) hB₂ (by linarith) hdist ?_
      refine le_trans (le_of_eq ?_) (b1 a)
      simp only [codeAnswer, hk]
      rw [pad_first, pad_second, hr.mean]
      simp
    · refine weaken (min_le_right _ _) (le_max_right _ _) hB₂ (by linarith) hdist ?_
      refine le_trans (le_of_eq ?_) (b2 a b)
      simp only [codeAnswer, hk]
      rw [pad_first, pad_second, Fin.cons_zero, hPi, fromCols_fromBlocks, fromCols_fromBlocks, hst.cov_le hleft,
        ← Matrix.sub_apply]
      congr 1
      refine congrFun (congrFun ?_ a) b
      simp only [transpose_zero, Matrix.mul_zero, Matrix.zero_mul, add_zero, zero_add, hEt]
      rw [transpose_mul, hst.symm]
      simp only [Matrix.mul_assoc]
      rfl
  · have hleft := not_le.1 hleft
    by_cases hright : c.times (Fin.last n) < t
    · -- beyond the last conditioning time
      have hk : searchsortedLeft c.times t = Fin.last (n + 1) := by
        refine Fin.ext ?_
        have a1 := (hsl (Fin.last n)).2 hright
        have a2 := (searchsortedLeft c.times t).2
        simp only [Fin.val_last] at a1 ⊢
        omega
      rw [hk] at htm htp
      have e1 : augmentedTimes inf c.times (Fin.last (n + 1)).castSucc = c.times (Fin.last n) :=
        augmentedTimes_mid _ _ (Fin.last n)
      rw [e1] at htm
      rw [Fin.succ_last, augmentedTimes_last] at htp
      subst htm htp
      have hab := abs_le.1 (show |c.times (Fin.last n)| ≤ tp - 1 by linarith [hinf (Fin.last n)])
      have hx : 0 ≤ t - c.times (Fin.last n) ∧ 0 ≤ tp - t ∧ 1 ≤ t - c.times (Fin.last n) + (tp - t) :=
        ⟨by linarith, by linarith, by linarith [hab.2]⟩
      obtain ⟨b1, b2⟩ := hR ⟨(t - c.times (Fin.last n), tp - t), hx⟩ cs.D cs.E cs.T eE eD eT
      dsimp only at b1 b2
      have hdist : tp - |t| ≤ tp - t := by linarith [le_abs_self t]
      refine ⟨cs, Fin.last n, Fin.last n, A (t - c.times (Fin.last n)), 0, hcs, fun i => ?_, fun a => ?_,
        fun a b => ?_⟩
      · rw [Matrix.zero_mul, add_zero]
        have hi : c.times i ≤ c.times (Fin.last n) := hts (Fin.le_last _)
        rw [StatProc.cov_ge (hi.trans hright.le), StatProc.cov_ge hi, ← Matrix.mul_assoc,
          ← hst.add _ _ (sub_nonneg.2 hright.le) (sub_nonneg.2 hi)]
        congr 2; ring
      · refine weaken (min_le_left _ _) (le_max_left _ _) hB₁ (by linarith) hdist ?_
        refine le_trans (le_of_eq ?_) (b1 a)
        simp only [codeAnswer, hk]
        rw [pad_butlast, pad_last, hr.mean]
        simp
      · refine weaken (min_le_left _ _) (le_max_left _ _) hB₁ (by linarith) hdist ?_
        refine le_trans (le_of_eq ?_) (b2 a b)
        simp only [codeAnswer, hk]
        rw [pad_butlast, pad_last, pad_cross_last, hPi, fromCols_fromBlocks, fromCols_fromBlocks,
          StatProc.cov_ge hright.le, ← Matrix.sub_apply]
        congr 1
        refine congrFun (congrFun ?_ a) b
        simp only [transpose_zero, Matrix.mul_zero, Matrix.zero_mul, add_zero, zero_add]
        rfl
    · -- within the range
      obtain ⟨k, hk, hk1, hk2⟩ := exists_interval hts hleft (not_lt.1 hright)
      rw [hk] at htm htp
      rw [aug_left] at htm
      rw [aug_right] at htp
      subst htm htp
      have hSd := hs (c.times k.succ - t + (t - c.times k.castSucc)) (by linarith)
      rw [← hst.innov (sub_nonneg.2 hk1.le) (sub_nonneg.2 hk2)] at hSd
      have gain := gain_mul hSd eE
      have hpos : 0 ≤ max B₁ B₂ * Real.exp (-(min κ₁ κ₂ * (inf - |t|))) :=
        mul_nonneg (hB₁.trans (le_max_left _ _)) (Real.exp_pos _).le
      have hTs : cs.Tᵀ = cs.T := isSymm_of_psd (innovation_law (hst.contr _ (sub_nonneg.2 hk1.le))
        (hst.contr _ (sub_nonneg.2 hk2)) hSd eE eT).1
      have hTr := hst.bridge_resid hk1.le hk2 hTs eD eT
      rw [hst.cov_self] at hTr
      have e1 : k.castSucc.succ.castSucc = k.castSucc.castSucc.succ := rfl
      have e2 : k.castSucc.succ.succ = k.succ.castSucc.succ := rfl
      refine ⟨cs, k.castSucc, k.succ, cs.D, cs.E, hcs, fun i => ?_, fun a => ?_, fun a b => ?_⟩
      · refine hst.bridge_cov hk1.le hk2 gain eD ?_
        rcases le_or_gt i k.castSucc with hle | hgt
        · exact Or.inl (hts hle)
        · exact Or.inr (hts (Fin.castSucc_lt_iff_succ_le.1 hgt))
      · refine le_trans (le_of_eq ?_) hpos
        rw [abs_eq_zero, sub_eq_zero]
        simp only [codeAnswer, hk, e1, e2, Fin.cons_succ, Fin.snoc_castSucc]
      · refine le_trans (le_of_eq ?_) hpos
        rw [abs_eq_zero, sub_eq_zero, hTr]
        simp only [codeAnswer, hk, e1, e2, Fin.cons_succ, Fin.snoc_castSucc, blk_transpose_symm hKd]

/-- C50: `predict_state` is exact up to an error exponentially small in the distance to the
pseudo-observations. For every kernel expression without degenerate noise (and jitter zero), every
nondegenerate `q` and sorted conditioning times there are a rate `κ > 0` and a constant `B`, such that for
every value `inf` of `APPROX_INF` exceeding all conditioning times by at least one, and all query times with
`|t| < inf` in any order, including extrapolation, the call returns, and mean and covariance differ from
those of `q(u) p(s | u)`, the process without pseudo-observations, by at most `B e^{-κ (inf - |t|)}`. -/
theorem C50_extrapolation {c : CondProcess n o d} {k} (hK : Builds c.kernel k) (hN : NoiseTag c.kernel true)
    (hj : c.kernel.jitter = 0) (hq : c.q.Nondegenerate) (hn : 0 < n) (hts : Monotone c.times) :
    ∃ κ : ℝ, 0 < κ ∧ ∃ B : ℝ, ∀ inf : ℝ, (∀ i, |c.times i| + 1 ≤ inf) →
      ∀ (p : ℕ) (new : Fin p → ℝ), (∀ j, |new j| < inf) →
      ∃ r, c.predictStateAt inf new = .ok r ∧
      ∃ ν, IsPredictive (priorLaw c.kernel c.times new) c.q.law ν ∧
      ∃ (m : Fin p → Vec d) (C : Fin p → Mat d d), ∀ j, (C j).PosSemidef ∧
        ν.map (fun x => fun a : Fin d => x.2 (j, a)) = gaussLaw (m j) (C j) ∧
        (∀ a, |(r j).1 a - m j a| ≤ B * Real.exp (-(κ * (inf - |new j|)))) ∧
        ∀ a b, |(r j).2 a b - C j a b| ≤ B * Real.exp (-(κ * (inf - |new j|))) := by
  obtain ⟨hc, hr, -⟩ := Builds.good hK
  obtain ⟨-, hno⟩ := NoiseTag.noisy hN
  obtain ⟨κ, hκ, B, -, H⟩ := one_query hc hr hj (hno.strict rfl) hts
  refine ⟨κ, hκ, B, fun inf hinf p new hnew => ?_⟩
  choose cs l r D E hcs hrep hm hC using fun j => H inf hinf (new j) (hnew j)
  have hR : Reproduces (c.kernel.stateTransitions 0) c.kernel.Pinf c.times new l r D E := hrep
  have hp : IsProbabilityMeasure c.q.law := by rw [SSM.law_eq_gauss]; infer_instance
  obtain ⟨mu, C, S, rfl, rfl, rfl, hok⟩ := predictStateAt_of hq hn hc.pos hcs
  refine ⟨_, hok, _, hR.predictive hc.statProc c.q.law, fun j => D j *ᵥ c.q.mus (l j) + E j *ᵥ c.q.mus (r j),
    fun j => rowT (c.kernel.stateTransitions 0) c.kernel.Pinf c.times new l r D E j + fromCols (D j) (E j) *
      fromBlocks (blk c.q.Kd (l j) (l j)) (blk c.q.Kd (l j) (r j)) (blk c.q.Kd (r j) (l j))
        (blk c.q.Kd (r j) (r j)) * (fromCols (D j) (E j))ᵀ, fun j => ?_⟩
  have hmarg := hR.marginal hc.statProc (μ := stk c.q.mus) c.q.Kd_posSemidef j
  rw [SSM.law_eq_gauss]
  exact ⟨hmarg.2, hmarg.1, hm j, hC j⟩

/-- The theorem above speaks about the code: `APPROX_INF = 1e10`. -/
theorem C50_code (c : CondProcess n o d) (new : Fin p → ℝ) :
    c.predictState new = c.predictStateAt 10000000000 new := rfl

section one
theorem mul11 (x y : ℝ) : (!![x] : Mat 1 1) * !![y] = !![x * y] := by
  ext a b; rw [Subsingleton.elim a 0, Subsingleton.elim b 0, Matrix.mul_apply]; simp
theorem add11 (x y : ℝ) : (!![x] : Mat 1 1) + !![y] = !![x + y] := by
  ext a b; rw [Subsingleton.elim a 0, Subsingleton.elim b 0]; rfl
theorem sub11 (x y : ℝ) : (!![x] : Mat 1 1) - !![y] = !![x - y] := by
  ext a b; rw [Subsingleton.elim a 0, Subsingleton.elim b 0]; rfl
theorem t11 (x : ℝ) : (!![x] : Mat 1 1)ᵀ = !![x] := by
  ext a b; rw [Subsingleton.elim a 0, Subsingleton.elim b 0]; rfl
theorem inv11 (x : ℝ) : (!![x] : Mat 1 1)⁻¹ = !![x⁻¹] := by
  rw [Matrix.inv_def]
  ext a b; rw [Subsingleton.elim a 0, Subsingleton.elim b 0]
  simp [Matrix.adjugate_fin_one]
end one

/-- C50, with the constant of the code and explicit numbers: for `Matern12` with lengthscale `l`, the mean
predicted at `t` beyond the last conditioning time `t_n` differs from the exact `e^{-(t - t_n) / l} μ_n` by
at most `e^{-2 (1e10 - t) / l} |μ_n|`. -/
theorem C50_matern12 {c : CondProcess n o 1} {l v : ℝ} (hK : matern12 o l v 0 = .ok c.kernel)
    (hq : c.q.Nondegenerate) (hn : 0 < n) (hts : Monotone c.times) {new : Fin p → ℝ} {r}
    (h : c.predictState new = .ok r) {μ} (hμ : c.q.marginalMeans = .ok μ) (j : Fin p)
    (h0 : c.times (Fin.last n) < new j) (h1 : new j ≤ 10000000000) :
    |(r j).1 0 - Real.exp (-(new j - c.times (Fin.last n)) / l) * μ (Fin.last n) 0| ≤
      Real.exp (-(2 * (10000000000 - new j)) / l) * |μ (Fin.last n) 0| := by
  have hlf := leaf_matern12 hK
  obtain ⟨-, hp, hKe⟩ := kernelInit_ok hK
  have hl : 0 < l := hp l (by simp)
  have hv : 0 < v := hp v (by simp)
  rw [SSM.marginalMeans_eq hn] at hμ
  cases hμ
  obtain ⟨-, -, hright⟩ := C22_predict_state hq hn one_pos hts h c.q.mus_isMeans c.q.Kd_isJointCov j
  obtain ⟨cs, hcs, hm, -⟩ := hright h0
  have hm0 : c.kernel.initialMean = 0 := hlf.2.1.mean
  have hj : c.kernel.jitter = 0 := by rw [hKe]; rfl
  have hA : ∀ t δ, c.kernel.stateTransitions t δ = !![Real.exp (-δ / l)] := fun t δ => by rw [hKe]; rfl
  have hP : c.kernel.Pinf = !![v] := by rw [hKe]; rfl
  have hQ : ∀ t δ, 0 ≤ δ → c.kernel.transitionNoise t δ = !![v - Real.exp (-δ / l) ^ 2 * v] := fun t δ hδ => by
    rw [hlf.2.1.noise t δ hδ, hj, jitterMatrix_zero, add_zero, hA, hP]
    rw [t11, mul11, mul11, sub11]
    congr 3; ring
  rw [hA, hA, hQ _ _ (sub_nonneg.2 h0.le), hQ _ _ (sub_nonneg.2 h1)] at hcs
  set a1 := Real.exp (-(new j - c.times (Fin.last n)) / l) with ha1
  set a2 := Real.exp (-(10000000000 - new j) / l) with ha2
  obtain ⟨hSd, hE, hD, -⟩ := condStats_ok (t11 _) (t11 _) hcs
  have hS : (!![v - a2 ^ 2 * v] + !![a2] * !![v - a1 ^ 2 * v] * (!![a2] : Mat 1 1)ᵀ) =
      (!![v * (1 - a1 ^ 2 * a2 ^ 2)] : Mat 1 1) := by
    rw [t11, mul11, mul11, add11]
    congr 3; ring
  rw [hS, inv11] at hE
  have e0 : 0 < a1 := Real.exp_pos _
  have e1 : a1 < 1 := by
    rw [ha1, Real.exp_lt_one_iff, neg_div, neg_lt_zero]
    exact div_pos (sub_pos.2 h0) hl
  have e2 : 0 < a2 := Real.exp_pos _
  have e3 : a2 ≤ 1 := by
    rw [ha2, Real.exp_le_one_iff, neg_div, neg_nonpos]
    exact div_nonneg (sub_nonneg.2 h1) hl.le
  have hE0 : cs.E 0 0 = (1 - a1 ^ 2) * a2 / (1 - a1 ^ 2 * a2 ^ 2) := by
    rw [hE, t11, mul11, mul11]
    show (v - a1 ^ 2 * v) * a2 * (v * (1 - a1 ^ 2 * a2 ^ 2))⁻¹ = _
    have hv' := hv.ne'
    field_simp
  have hD0 : cs.D 0 0 = a1 - cs.E 0 0 * a2 * a1 := by
    rw [hD]; simp [Matrix.mul_apply]
  have hr0 : (r j).1 0 = cs.D 0 0 * c.q.mus (Fin.last n) 0 := by
    rw [hm, hm0]; simp [mulVec, dotProduct]
  have hsq : Real.exp (-(2 * (10000000000 - new j)) / l) = a2 ^ 2 := by
    rw [ha2, ← Real.exp_nat_mul]; congr 1; push_cast; ring
  have hden : 0 < 1 - a1 ^ 2 * a2 ^ 2 := by
    have : a1 ^ 2 < 1 := by nlinarith
    have : a2 ^ 2 ≤ 1 := by nlinarith
    nlinarith [sq_nonneg a1, sq_nonneg a2]
  have hb : |cs.E 0 0 * a2 * a1| ≤ a2 ^ 2 := by
    have hx : cs.E 0 0 * a2 * a1 = a2 ^ 2 * (((1 - a1 ^ 2) / (1 - a1 ^ 2 * a2 ^ 2)) * a1) := by
      rw [hE0]; ring
    have h11 : 0 ≤ 1 - a1 ^ 2 := by nlinarith
    have hfrac : (1 - a1 ^ 2) / (1 - a1 ^ 2 * a2 ^ 2) ≤ 1 := by
      rw [div_le_one hden]
      have : a2 ^ 2 ≤ 1 := by nlinarith
      nlinarith [sq_nonneg a1]
    have hfr0 : 0 ≤ (1 - a1 ^ 2) / (1 - a1 ^ 2 * a2 ^ 2) := div_nonneg h11 hden.le
    rw [hx, abs_of_nonneg (by positivity)]
    have : (1 - a1 ^ 2) / (1 - a1 ^ 2 * a2 ^ 2) * a1 ≤ 1 := by nlinarith
    nlinarith [sq_nonneg a2]
  rw [hr0, hD0, hsq, ← sub_mul, abs_mul, sub_sub_cancel_left, abs_neg]
  exact mul_le_mul_of_nonneg_right hb (abs_nonneg _)

/-- C50, the reason: the processes forget exponentially fast. For every kernel expression without degenerate
noise and with bounded emissions, the covariance function it denotes satisfies
`|k(t, t')| ≤ B e^{-κ |t - t'|}`. -/
theorem C50_mixing {K : Stationary o d} {k} (hK : Builds K k) (hN : NoiseTag K true) {M : ℝ}
    (hM : ∀ t i a, |K.emission t i a| ≤ M) :
    ∃ κ : ℝ, 0 < κ ∧ ∃ B : ℝ, ∀ t t' i j, |k t t' i j| ≤ B * Real.exp (-(κ * |t - t'|)) := by
  obtain ⟨hc, hr, hd⟩ := Builds.good hK
  obtain ⟨-, hno⟩ := NoiseTag.noisy hN
  obtain ⟨κ, hκ, C, hC⟩ := hc.statProc.decay (hno.strict rfl 1 one_pos)
  let F : Filter {x : ℝ × ℝ // x.2 ≤ x.1} := ⊤
  have hH : EO F (fun x => K.emission x.1.1) 1 := fun i a =>
    Asymptotics.isBigO_top.2 ⟨M, fun x => by simpa using hM _ i a⟩
  have hH' : EO F (fun x => K.emission x.1.2) 1 := fun i a =>
    Asymptotics.isBigO_top.2 ⟨M, fun x => by simpa using hM _ i a⟩
  have hA : EO F (fun x => K.stateTransitions 0 (x.1.1 - x.1.2))
      (fun x => Real.exp (-(κ * (x.1.1 - x.1.2)))) := fun i j =>
    Asymptotics.isBigO_top.2 ⟨C, fun x => by
      rw [Real.norm_eq_abs, Real.norm_eq_abs, abs_of_pos (Real.exp_pos _)]
      exact hC _ (sub_nonneg.2 x.2) i j⟩
  have hk := ((hH.one_mul hA).mul_one (EO.const K.Pinf)).mul_one hH'.transpose
  choose B hB using fun i j => Asymptotics.isBigO_top.1 (hk i j)
  have key : ∀ t t', t' ≤ t → ∀ i j, |k t t' i j| ≤ (∑ i, ∑ j, |B i j|) * Real.exp (-(κ * |t - t'|)) := by
    intro t t' htt i j
    have h1 := hB i j ⟨(t, t'), htt⟩
    dsimp only at h1
    rw [hd.cov t t' htt, Real.norm_eq_abs, Real.norm_eq_abs, abs_of_pos (Real.exp_pos _)] at h1
    rw [abs_of_nonneg (sub_nonneg.2 htt)]
    refine h1.trans (mul_le_mul_of_nonneg_right ?_ (Real.exp_pos _).le)
    have h2 := Finset.single_le_sum (f := fun j => |B i j|) (fun i _ => abs_nonneg _) (Finset.mem_univ j)
    have h3 := Finset.single_le_sum (f := fun i => ∑ j, |B i j|) (fun i _ => by positivity) (Finset.mem_univ i)
    exact (le_abs_self _).trans (h2.trans h3)
  refine ⟨κ, hκ, ∑ i, ∑ j, |B i j|, fun t t' i j => ?_⟩
  rcases le_total t' t with htt | htt
  · exact key t t' htt i j
  · rw [abs_sub_comm t t', ← hd.symm t' t, transpose_apply]
    exact key t' t htt j i

/-- Non-vacuity: a `Matern12` process with conditioning times `0, 1`, query times on both sides, between
and at the conditioning times; the numerical bound at `t = 3` is `e^{-2 (1e10 - 3)} · 5`, for a mean `5`. -/
example : ∃ (c : CondProcess 1 1 1) (k : ℝ → ℝ → Mat 1 1), Builds c.kernel k ∧ NoiseTag c.kernel true ∧
    c.kernel.jitter = 0 ∧ c.q.Nondegenerate ∧ Monotone c.times ∧
    (∃ M, ∀ t i a, |c.kernel.emission t i a| ≤ M) ∧
    (∃ κ : ℝ, 0 < κ ∧ ∃ B : ℝ, ∀ inf, 2 ≤ inf → ∃ r, c.predictStateAt inf ![-3/2, 1/2, 1, 7/4] = .ok r) ∧
    ∃ r, c.predictState ![3] = .ok r ∧
      |(r 0).1 0 - Real.exp (-2) * 5| ≤ Real.exp (-(2 * (10000000000 - 3)) / 1) * |5| := by
  obtain ⟨K, hK⟩ : ∃ K, matern12 1 1 2 0 = .ok K :=
    ⟨_, by unfold matern12 kernelInit; rw [if_neg (by simp), if_neg (by simp)]⟩
  have hb : Builds K _ := .leaf (.matern12 hK)
  have hN : NoiseTag K true := .matern12 hK
  have hj : K.jitter = 0 := by rw [(kernelInit_ok hK).2.2]; rfl
  have hmono : Monotone (![0, 1] : Fin 2 → ℝ) := by
    refine Fin.monotone_iff_le_succ.2 fun i => ?_
    fin_cases i; simp
  let c : CondProcess 1 1 1 := ⟨⟨5, 1, fun _ => 1, 0, fun _ => 1⟩, K, ![0, 1], 0⟩
  have hq : c.q.Nondegenerate := by
    intro b
    refine Fin.cases ⟨?_, ?_⟩ (fun k => ⟨?_, ?_⟩) b
    · intro i j h; exact absurd h (by fin_cases i; fin_cases j; simp)
    · intro i; simp [SSM.concatChol, c]
    · intro i j h; exact absurd h (by fin_cases i; fin_cases j; simp)
    · intro i; simp [SSM.concatChol, c]
  refine ⟨c, _, hb, hN, hj, hq, hmono, ⟨1, fun t i a => ?_⟩, ?_, ?_⟩
  · show |K.emission t i a| ≤ 1
    rw [(kernelInit_ok hK).2.2]
    show |sdeEmission 1 1 i a| ≤ 1
    simp only [sdeEmission, of_apply]
    split_ifs <;> simp
  · obtain ⟨κ, hκ, B, H⟩ := C50_extrapolation (c := c) hb hN hj hq one_pos hmono
    refine ⟨κ, hκ, B, fun inf hinf => ?_⟩
    obtain ⟨r, hr, -⟩ := H inf (fun i => by fin_cases i <;> simp [c] <;> linarith) 4 ![-3/2, 1/2, 1, 7/4]
      (fun j => by fin_cases j <;> norm_num [abs_of_neg] <;> linarith)
    exact ⟨r, hr⟩
  · obtain ⟨r, hr⟩ := C22_succeeds (c := c) (new := ![3]) hb hN hq one_pos hmono
      (fun j => by fin_cases j; norm_num) (fun j => by fin_cases j; norm_num)
    refine ⟨r, hr, ?_⟩
    have := C50_matern12 hK hq one_pos hmono hr (SSM.marginalMeans_eq one_pos) 0 (by simp [c]) (by norm_num)
    have hm0 : c.q.mus 0 = 5 := c.q.mus_isMeans.1
    have hm1 : c.q.mus (Fin.last 1) = 5 := by
      have := c.q.mus_isMeans.2 0
      rw [show (0 : Fin 1).succ = Fin.last 1 from rfl, show (0 : Fin 1).castSucc = 0 from rfl, hm0] at this
      rw [this]
      simp [c]
    rw [hm1, show c.times (Fin.last 1) = 1 from rfl] at this
    norm_num [c] at this ⊢
    exact this

end MF
