import Verif.Lemmas.Conditionals

/-! # Predictions and samples at new times -/

namespace MF
open Matrix Spec MeasureTheory ProbabilityTheory
variable {n d o p : ℕ}

/-! ### the interior case -/

/-- Index of the interval `(t_k, t_{k+1}]` containing an interior query. -/
theorem exists_interval {ts : Fin (n + 1) → ℝ} (hts : Monotone ts) {t : ℝ} (h0 : ts 0 < t)
    (h1 : t ≤ ts (Fin.last n)) : ∃ k : Fin n, searchsortedLeft ts t = k.castSucc.succ ∧
      ts k.castSucc < t ∧ t ≤ ts k.succ := by
  have hlt := lt_searchsortedLeft hts t
  generalize searchsortedLeft ts t = i at hlt ⊢
  have hi0 : 0 < (i : ℕ) := (hlt 0).2 h0
  have hi1 : (i : ℕ) ≤ n := by
    by_contra hc
    exact absurd ((hlt (Fin.last n)).1 (by simpa using not_le.1 hc)) (not_lt.2 h1)
  refine ⟨⟨(i : ℕ) - 1, by omega⟩, ?_, ?_, ?_⟩
  · refine Fin.ext ?_
    show (i : ℕ) = (i : ℕ) - 1 + 1
    omega
  · refine (hlt _).1 ?_
    show (i : ℕ) - 1 < i
    omega
  · refine not_lt.1 fun hc => absurd ((hlt _).2 hc) ?_
    show ¬ ((i : ℕ) - 1 + 1 < i)
    omega

theorem aug_left {inf : ℝ} (ts : Fin (n + 1) → ℝ) (k : Fin n) :
    augmentedTimes inf ts (k.castSucc.succ : Fin (n + 2)).castSucc = ts k.castSucc := by
  rw [← Fin.succ_castSucc, augmentedTimes_mid]

theorem aug_right {inf : ℝ} (ts : Fin (n + 1) → ℝ) (k : Fin n) :
    augmentedTimes inf ts (k.castSucc.succ : Fin (n + 2)).succ = ts k.succ := by
  rw [Fin.succ_castSucc, augmentedTimes_mid]

theorem Bridges.interior {A : ℝ → Mat d d} {P : Mat d d} {inf : ℝ} {ts : Fin (n + 1) → ℝ}
    {new : Fin p → ℝ} {c : Fin p → CondStats d} {k : Fin p → Fin n}
    (hk : ∀ j, searchsortedLeft ts (new j) = (k j).castSucc.succ)
    (h : Bridges A P (augmentedTimes inf ts) new (fun j => searchsortedLeft ts (new j)) c) :
    Bridges A P ts new k c where
  left j := by have := h.left j; simp only [hk, aug_left] at this; exact this
  right j := by have := h.right j; simp only [hk, aug_right] at this; exact this
  symm := h.symm
  gain j := by have := h.gain j; simp only [hk, aug_left, aug_right] at this; exact this
  D j := by have := h.D j; simp only [hk, aug_left, aug_right] at this; exact this
  T j := by have := h.T j; simp only [hk, aug_left, aug_right] at this; exact this

/-! ### predict_state -/

/-- The value of `predict_state`. -/
theorem predictState_ok {c : CondProcess n o d} (hq : c.q.Nondegenerate) (hn : 0 < n) (hd : 0 < d)
    {new : Fin p → ℝ} {r} (h : c.predictState new = .ok r) :
    ∃ cs : Fin p → CondStats d, (∀ j, CodeStats approxInf c.times c.kernel.trans (new j) (cs j)) ∧
      ∃ mu : Fin (n + 3) → Vec d, ∃ C : Fin (n + 3) → Mat d d, ∃ S : Fin (n + 2) → Mat d d,
      mu = Fin.cons c.kernel.initialMean (Fin.snoc (α := fun _ => Vec d) c.q.mus c.kernel.initialMean) ∧
      C = Fin.cons c.kernel.initialCovariance (Fin.snoc (α := fun _ => Mat d d)
        (fun k => blk c.q.Kd k k) c.kernel.initialCovariance) ∧
      S = Fin.cons 0 (Fin.snoc (α := fun _ => Mat d d)
        (fun k : Fin n => blk c.q.Kd k.succ k.castSucc) 0) ∧
      ∀ j, r j = ((cs j).D *ᵥ mu (searchsortedLeft c.times (new j)).castSucc +
          (cs j).E *ᵥ mu (searchsortedLeft c.times (new j)).succ,
        (cs j).T + fromCols (cs j).D (cs j).E *
          fromBlocks (C (searchsortedLeft c.times (new j)).castSucc)
            (S (searchsortedLeft c.times (new j)))ᵀ (S (searchsortedLeft c.times (new j)))
            (C (searchsortedLeft c.times (new j)).succ) * (fromCols (cs j).D (cs j).E)ᵀ) := by
  obtain ⟨mu, C, S, hpw, hmu, hC, hS⟩ := pairwiseMarginals_eq hq hn hd c.kernel.initialMean
    c.kernel.initialCovariance
  unfold CondProcess.predictState conditionalPredict at h
  rw [hpw] at h
  simp only [bind, Except.bind, pure, Except.pure] at h
  split at h
  · cases h
  rename_i v hv
  obtain ⟨cs, hcs, rfl⟩ := conditionalStatisticsAux_ok hv
  cases h
  refine ⟨cs, hcs, mu, C, S, hmu, hC, hS, fun j => ?_⟩
  simp only [baseConditionalPredict, Option.map_some]
  rw [fromCols_mulVec]
  simp only [Sum.elim_comp_inl, Sum.elim_comp_inr]

theorem predictState_of {c : CondProcess n o d} (hq : c.q.Nondegenerate) (hn : 0 < n) (hd : 0 < d)
    {new : Fin p → ℝ} {cs : Fin p → CondStats d}
    (hcs : ∀ j, CodeStats approxInf c.times c.kernel.trans (new j) (cs j)) :
    ∃ r, c.predictState new = .ok r := by
  obtain ⟨mu, C, S, hpw, hmu, hC, hS⟩ := pairwiseMarginals_eq hq hn hd c.kernel.initialMean
    c.kernel.initialCovariance
  unfold CondProcess.predictState conditionalPredict
  rw [hpw, conditionalStatisticsAux_of hcs]
  simp only [bind, Except.bind, pure, Except.pure]
  exact ⟨_, rfl⟩

/-! ### the ends -/

/-- Where each coordinate of the extended vector comes from. -/
def endIdx : Fin (n + 3) × Fin d → (Fin 2 × Fin d) ⊕ (Fin (n + 1) × Fin d) := fun i =>
  (Fin.cons (.inl (0, i.2)) (Fin.snoc (α := fun _ => (Fin 2 × Fin d) ⊕ (Fin (n + 1) × Fin d))
    (fun k => .inr (k, i.2)) (.inl (1, i.2))) : Fin (n + 3) → _) i.1

theorem asm_eq (x : ((Fin 2 × Fin d) ⊕ (Fin (n + 1) × Fin d)) → ℝ) :
    stk (Fin.cons (unstk (splitV x).1 0)
      (Fin.snoc (α := fun _ => Vec d) (unstk (splitV x).2) (unstk (splitV x).1 1))) =
      x ∘ (endIdx (n := n) (d := d)) := by
  funext ⟨i, a⟩
  refine Fin.cases ?_ (fun i => ?_) i
  · simp [stk, endIdx, splitV, unstk]
  · refine Fin.lastCases ?_ (fun i => ?_) i
    · simp [stk, endIdx, splitV, unstk]
    · simp [stk, endIdx, splitV, unstk]

theorem measurable_asm : Measurable fun x : (Fin 2 × Fin d → ℝ) × (Fin (n + 1) × Fin d → ℝ) =>
    stk (Fin.cons (unstk x.1 0) (Fin.snoc (α := fun _ => Vec d) (unstk x.2) (unstk x.1 1))) := by
  refine measurable_pi_lambda _ fun i => ?_
  obtain ⟨i, a⟩ := i
  refine Fin.cases ?_ (fun i => ?_) i
  · simp only [stk, Fin.cons_zero, unstk]; fun_prop
  · refine Fin.lastCases ?_ (fun i => ?_) i
    · simp only [stk, Fin.cons_succ, Fin.snoc_last, unstk]; fun_prop
    · simp only [stk, Fin.cons_succ, Fin.snoc_castSucc, unstk]; fun_prop

theorem withEnds_gauss {K₁ : Matrix (Fin 2 × Fin d) (Fin 2 × Fin d) ℝ}
    {K₂ : Matrix (Fin (n + 1) × Fin d) (Fin (n + 1) × Fin d) ℝ} (h₁ : K₁.PosSemidef)
    (h₂ : K₂.PosSemidef) (m₁ m₂) :
    withEnds (gaussLaw m₁ K₁) (gaussLaw m₂ K₂) =
      gaussLaw (Sum.elim m₁ m₂ ∘ endIdx) ((fromBlocks K₁ 0 0 K₂).submatrix endIdx endIdx) := by
  unfold withEnds
  rw [gaussLaw_prod h₁ h₂, Measure.map_map measurable_asm measurable_splitV,
    ← gaussLaw_comp (posSemidef_blockdiag h₁ h₂)]
  congr 1
  funext x
  exact asm_eq x

theorem endIdx_zero (a : Fin d) : endIdx (n := n) (0, a) = .inl (0, a) := rfl
theorem endIdx_mid (k : Fin (n + 1)) (a : Fin d) : endIdx (n := n) (k.castSucc.succ, a) = .inr (k, a) := by
  simp [endIdx]
theorem endIdx_last (a : Fin d) : endIdx (n := n) ((Fin.last (n + 1)).succ, a) = .inl (1, a) := by
  simp [endIdx]

section ends
variable {K₁ : Matrix (Fin 2 × Fin d) (Fin 2 × Fin d) ℝ}
    {K₂ : Matrix (Fin (n + 1) × Fin d) (Fin (n + 1) × Fin d) ℝ}

/-- The covariance of the extended vector. -/
def augCov (K₁ : Matrix (Fin 2 × Fin d) (Fin 2 × Fin d) ℝ)
    (K₂ : Matrix (Fin (n + 1) × Fin d) (Fin (n + 1) × Fin d) ℝ) :
    Matrix (Fin (n + 3) × Fin d) (Fin (n + 3) × Fin d) ℝ :=
  (fromBlocks K₁ 0 0 K₂).submatrix endIdx endIdx

theorem augCov_diag {P : Mat d d} (h0 : blk K₁ 0 0 = P) (h1 : blk K₁ 1 1 = P) (i : Fin (n + 3)) :
    (Fin.cons P (Fin.snoc (α := fun _ => Mat d d) (fun k => blk K₂ k k) P) : Fin (n + 3) → Mat d d) i =
      blk (augCov K₁ K₂) i i := by
  refine Fin.cases ?_ (fun i => ?_) i
  · rw [Fin.cons_zero, ← h0]; rfl
  · rw [Fin.cons_succ]
    refine Fin.lastCases ?_ (fun i => ?_) i
    · rw [Fin.snoc_last, ← h1]
      ext a b
      show _ = fromBlocks K₁ 0 0 K₂ (endIdx _) (endIdx _)
      rw [endIdx_last, endIdx_last]; rfl
    · rw [Fin.snoc_castSucc]
      ext a b
      show _ = fromBlocks K₁ 0 0 K₂ (endIdx _) (endIdx _)
      rw [endIdx_mid, endIdx_mid]; rfl

theorem augCov_sub (k : Fin (n + 2)) :
    (Fin.cons 0 (Fin.snoc (α := fun _ => Mat d d) (fun k : Fin n => blk K₂ k.succ k.castSucc) 0) :
      Fin (n + 2) → Mat d d) k = blk (augCov K₁ K₂) k.succ k.castSucc := by
  refine Fin.cases ?_ (fun k => ?_) k
  · rw [Fin.cons_zero]
    ext a b
    have : ((0 : Fin (n + 2)).succ) = (0 : Fin (n + 1)).castSucc.succ := rfl
    rw [this]
    show _ = fromBlocks K₁ 0 0 K₂ (endIdx ((0 : Fin (n + 1)).castSucc.succ, a)) (endIdx (0, b))
    rw [endIdx_mid, endIdx_zero]; rfl
  · rw [Fin.cons_succ]
    refine Fin.lastCases ?_ (fun k => ?_) k
    · rw [Fin.snoc_last]
      ext a b
      have : (Fin.last n).succ.castSucc = (Fin.last n).castSucc.succ := rfl
      have h2 : (Fin.last n).succ.succ = (Fin.last (n + 1)).succ := rfl
      rw [this, h2]
      show _ = fromBlocks K₁ 0 0 K₂ (endIdx _) (endIdx _)
      rw [endIdx_mid, endIdx_last]; rfl
    · rw [Fin.snoc_castSucc]
      ext a b
      have : k.castSucc.succ.castSucc = k.castSucc.castSucc.succ := rfl
      have h2 : k.castSucc.succ.succ = k.succ.castSucc.succ := rfl
      rw [this, h2]
      show _ = fromBlocks K₁ 0 0 K₂ (endIdx _) (endIdx _)
      rw [endIdx_mid, endIdx_mid]; rfl

theorem augMean (μ : Fin (n + 1) → Vec d) (i : Fin (n + 3)) :
    (Fin.cons 0 (Fin.snoc (α := fun _ => Vec d) μ 0) : Fin (n + 3) → Vec d) i =
      unstk (Sum.elim (0 : Fin 2 × Fin d → ℝ) (stk μ) ∘ endIdx) i := by
  refine Fin.cases ?_ (fun i => ?_) i
  · rfl
  · rw [Fin.cons_succ]
    refine Fin.lastCases ?_ (fun i => ?_) i
    · rw [Fin.snoc_last]; funext a
      show _ = Sum.elim (0 : Fin 2 × Fin d → ℝ) (stk μ) (endIdx _)
      rw [endIdx_last]; rfl
    · rw [Fin.snoc_castSucc]; funext a
      show _ = Sum.elim (0 : Fin 2 × Fin d → ℝ) (stk μ) (endIdx _)
      rw [endIdx_mid]; rfl

theorem augCov_symm (h1 : K₁ᵀ = K₁) (h2 : K₂ᵀ = K₂) : (augCov K₁ K₂)ᵀ = augCov K₁ K₂ := by
  unfold augCov
  rw [transpose_submatrix, fromBlocks_transpose, h1, h2, transpose_zero, transpose_zero]

end ends

/-- The two far away times. -/
def endTimes (inf : ℝ) : Fin 2 → ℝ := ![-inf, inf]

theorem blk_transpose_symm {N : ℕ} {K : Matrix (Fin N × Fin d) (Fin N × Fin d) ℝ} (h : Kᵀ = K) (i j : Fin N) :
    (blk K i j)ᵀ = blk K j i := by
  conv_rhs => rw [← h]
  rfl

/-- Prediction at a conditioning time: the bridge is degenerate. -/
theorem condStats_at_zero {A₁ Q₁ : Mat d d} (h₁ : Q₁.PosSemidef) {c : CondStats d}
    (h : condStatsFromTransitions A₁ Q₁ 1 0 = .ok c) : c.D = 0 ∧ c.E = 1 ∧ c.T = 0 := by
  obtain ⟨hS, hE, hD, hT⟩ := condStats_ok (isSymm_of_psd h₁) transpose_zero h
  simp only [zero_add, Matrix.one_mul, transpose_one, Matrix.mul_one] at hS hE
  have e : c.E = 1 := by rw [hE]; exact mul_nonsing_inv _ ((isUnit_iff_isUnit_det _).1 hS.isUnit)
  rw [e] at hD hT
  simp only [Matrix.one_mul, sub_self] at hD hT
  exact ⟨hD, e, hT⟩

section law
variable {c : CondProcess n o d} {new : Fin p → ℝ} {r : Fin p → Vec d × Mat d d}

/-- `predict_state`, all queries: marginals of the predictive law with independent ends. -/
theorem predict_law_aug (hK : Core c.kernel) (hr : Regular c.kernel) (hj : c.kernel.jitter = 0)
    (hq : c.q.Nondegenerate) (hn : 0 < n) (hts : Monotone c.times)
    (ht0 : -approxInf ≤ c.times 0) (ht1 : c.times (Fin.last n) ≤ approxInf)
    (h0 : ∀ j, -approxInf < new j) (h1 : ∀ j, new j ≤ approxInf)
    (h : c.predictState new = .ok r) {cs : Fin p → CondStats d}
    (hcs : ∀ j, CodeStats approxInf c.times c.kernel.trans (new j) (cs j)) (j : Fin p) :
    (predLaw (c.kernel.stateTransitions 0) c.kernel.Pinf (augmentedTimes approxInf c.times) new
      (fun j => searchsortedLeft c.times (new j)) cs
      (withEnds (gpLaw (fun _ => 0) (stateCov (c.kernel.stateTransitions 0) c.kernel.Pinf)
        (endTimes approxInf)) c.q.law)).map (fun x => fun a : Fin d => x.2 (j, a)) =
      gaussLaw (r j).1 (r j).2 := by
  obtain ⟨cs', hcs', mu, C, S, rfl, rfl, rfl, hres⟩ := predictState_ok hq hn hK.pos h
  obtain rfl : cs' = cs := by
    funext j
    have e1 := hcs j
    have e2 := hcs' j
    unfold CodeStats at e1 e2
    exact Except.ok.inj (e2.symm.trans e1)
  have hb := codeStats_bridges hK hr hj hts h0 h1 hcs
  have hends := hK.statProc.psd_any (endTimes approxInf)
  have hlaw : withEnds (gpLaw (fun _ => 0) (stateCov (c.kernel.stateTransitions 0) c.kernel.Pinf)
        (endTimes approxInf)) c.q.law = gaussLaw (Sum.elim (0 : Fin 2 × Fin d → ℝ) (stk c.q.mus) ∘ endIdx)
        (augCov (covMat (c.kernel.stateTransitions 0) c.kernel.Pinf (endTimes approxInf)) c.q.Kd) := by
    rw [SSM.law_eq_gauss]
    exact withEnds_gauss hends c.q.Kd_posSemidef _ _
  have hpsd : (augCov (covMat (c.kernel.stateTransitions 0) c.kernel.Pinf (endTimes approxInf))
      c.q.Kd).PosSemidef := (posSemidef_blockdiag hends c.q.Kd_posSemidef).submatrix _
  rw [hlaw, hb.marginal hK.statProc (augmentedTimes_mono hts ht0 ht1) hpsd j, hres j]
  have hP : c.kernel.initialCovariance = c.kernel.Pinf := by
    rw [Stationary.initialCovariance, hj, jitterMatrix_zero, add_zero]
  have hKd : (c.q.Kd)ᵀ = c.q.Kd := (SSM.Kd_isJointCov (s := c.q)).symm
  rw [hr.mean, hP]
  have hsym : (augCov (covMat (c.kernel.stateTransitions 0) c.kernel.Pinf (endTimes approxInf))
      c.q.Kd)ᵀ = augCov (covMat (c.kernel.stateTransitions 0) c.kernel.Pinf (endTimes approxInf)) c.q.Kd :=
    augCov_symm (isSymm_of_psd hends) hKd
  have hsub := augCov_sub (K₁ := covMat (c.kernel.stateTransitions 0) c.kernel.Pinf
    (endTimes approxInf)) (K₂ := c.q.Kd)
  have hdiag := augCov_diag (K₁ := covMat (c.kernel.stateTransitions 0) c.kernel.Pinf
    (endTimes approxInf)) (K₂ := c.q.Kd) (P := c.kernel.Pinf) (hK.statProc.cov_self _)
    (hK.statProc.cov_self _)
  have hmean := augMean c.q.mus
  clear hlaw hpsd
  generalize augCov (covMat (c.kernel.stateTransitions 0) c.kernel.Pinf (endTimes approxInf)) c.q.Kd = K
    at hsym hsub hdiag ⊢
  generalize (Sum.elim (0 : Fin 2 × Fin d → ℝ) (stk c.q.mus) ∘ endIdx) = m at hmean ⊢
  rw [hsub, hdiag, hdiag, hmean, hmean, blk_transpose_symm hsym]

/-- Queries from the first to the last conditioning time: the statistics relate the query to the two neighbouring
conditioning times. At the first conditioning time the code uses the interval to the left of it, with
`D = 0`, `E = 1`; the same map is `D = 1`, `E = 0` on the first interval. -/
theorem interior_stats {K : Stationary o d} (hK : Core K) (hr : Regular K) (hj : K.jitter = 0) {inf : ℝ}
    {ts : Fin (n + 1) → ℝ} (hn : 0 < n) (hts : Monotone ts) (hinf : -inf < ts 0) (hsup : ts (Fin.last n) ≤ inf)
    (h0 : ∀ j, ts 0 ≤ new j) (h1 : ∀ j, new j ≤ ts (Fin.last n)) {cs : Fin p → CondStats d}
    (hcs : ∀ j, CodeStats inf ts K.trans (new j) (cs j)) :
    ∃ (k : Fin p → Fin n) (cs' : Fin p → CondStats d), Bridges (K.stateTransitions 0) K.Pinf ts new k cs' ∧
      ∀ j, (searchsortedLeft ts (new j) = (k j).castSucc.succ ∧ cs' j = cs j) ∨
        (new j = ts 0 ∧ searchsortedLeft ts (new j) = 0 ∧ (k j).castSucc = 0 ∧ cs j = ⟨0, 1, 0⟩ ∧ cs' j = ⟨1, 0, 0⟩) := by
  have h0' : ∀ j, -inf < new j := fun j => lt_of_lt_of_le hinf (h0 j)
  have h1' : ∀ j, new j ≤ inf := fun j => (h1 j).trans hsup
  have hb := codeStats_bridges hK hr hj hts h0' h1' hcs
  have key : ∀ j, ∃ (k : Fin n) (c' : CondStats d), Bridges (K.stateTransitions 0) K.Pinf ts (fun _ : Unit => new j)
      (fun _ => k) (fun _ => c') ∧ ((searchsortedLeft ts (new j) = k.castSucc.succ ∧ c' = cs j) ∨
        (new j = ts 0 ∧ searchsortedLeft ts (new j) = 0 ∧ k.castSucc = 0 ∧ cs j = ⟨0, 1, 0⟩ ∧ c' = ⟨1, 0, 0⟩)) := by
    intro j
    rcases (h0 j).lt_or_eq with hlt | heq
    · obtain ⟨k, hk, -⟩ := exists_interval hts hlt (h1 j)
      refine ⟨k, cs j, ⟨fun _ => ?_, fun _ => ?_, fun _ => hb.symm j, fun _ => ?_, fun _ => ?_, fun _ => ?_⟩, .inl ⟨hk, rfl⟩⟩
      · have := hb.left j; rwa [hk, aug_left] at this
      · have := hb.right j; rwa [hk, aug_right] at this
      · have := hb.gain j; rwa [hk, aug_left, aug_right] at this
      · have := hb.D j; rwa [hk, aug_left, aug_right] at this
      · have := hb.T j; rwa [hk, aug_left, aug_right] at this
    · have hs : searchsortedLeft ts (new j) = 0 := by
        have hlt := lt_searchsortedLeft hts (new j) 0
        by_contra hne
        have : (0 : ℕ) < (searchsortedLeft ts (new j) : ℕ) := Nat.pos_of_ne_zero fun h => hne (Fin.ext h)
        exact absurd (hlt.1 this) (by rw [heq]; exact lt_irrefl _)
      obtain ⟨m, rfl⟩ := Nat.exists_eq_succ_of_ne_zero hn.ne'
      refine ⟨0, ⟨1, 0, 0⟩, ⟨fun _ => ?_, fun _ => ?_, fun _ => transpose_zero, fun _ => ?_, fun _ => ?_, fun _ => ?_⟩,
        .inr ⟨heq.symm, hs, rfl, ?_, rfl⟩⟩
      · exact heq.le
      · rw [← heq]; exact hts (Fin.zero_le _)
      · show _ = (K.Pinf - K.stateTransitions 0 (new j - ts 0) * _ * _) * _
        rw [← heq, sub_self, hK.statProc.zero]
        simp [hK.statProc.zero]
      · show (1 : Mat d d) = K.stateTransitions 0 (new j - ts 0) - 0 * _ * _
        rw [← heq, sub_self, hK.statProc.zero]
        simp
      · show (0 : Mat d d) = (K.Pinf - K.stateTransitions 0 (new j - ts 0) * _ * _) - 0 * _ * _
        rw [← heq, sub_self, hK.statProc.zero]
        simp [hK.statProc.zero]
      · have hc := hcs j
        unfold CodeStats at hc
        have hd0 : augmentedTimes inf ts (searchsortedLeft ts (new j)).succ - new j = 0 := by
          rw [hs, ← heq]
          exact sub_self _
        have hl : (0 : ℝ) ≤ new j - augmentedTimes inf ts (searchsortedLeft ts (new j)).castSucc := by
          rw [hs]; exact sub_nonneg.2 (h0' j).le
        rw [hd0, trans_eq hK hr hj _ hl, trans_eq hK hr hj _ le_rfl, hK.statProc.zero] at hc
        simp only [Matrix.one_mul, transpose_one, Matrix.mul_one, sub_self] at hc
        obtain ⟨hD, hE, hT⟩ := condStats_at_zero (hK.contr _ hl) hc
        generalize cs j = c0 at hD hE hT
        obtain ⟨D, E, T⟩ := c0
        simp only at hD hE hT
        rw [hD, hE, hT]
  choose k c' hk using key
  exact ⟨k, c', ⟨fun j => (hk j).1.left (), fun j => (hk j).1.right (), fun j => (hk j).1.symm (),
    fun j => (hk j).1.gain (), fun j => (hk j).1.D (), fun j => (hk j).1.T ()⟩, fun j => (hk j).2⟩

/-- `predict_state`, queries from the first to the last conditioning time: marginals of the predictive law on the
conditioning times. -/
theorem predict_law_interior (hK : Core c.kernel) (hr : Regular c.kernel) (hj : c.kernel.jitter = 0)
    (hq : c.q.Nondegenerate) (hn : 0 < n) (hts : Monotone c.times)
    (hinf : -approxInf < c.times 0) (hsup : c.times (Fin.last n) ≤ approxInf)
    (h0 : ∀ j, c.times 0 ≤ new j) (h1 : ∀ j, new j ≤ c.times (Fin.last n))
    (h : c.predictState new = .ok r) :
    ∃ (k : Fin p → Fin n) (cs : Fin p → CondStats d),
      Bridges (c.kernel.stateTransitions 0) c.kernel.Pinf c.times new k cs ∧ ∀ j,
      (predLaw (c.kernel.stateTransitions 0) c.kernel.Pinf c.times new k cs c.q.law).map
        (fun x => fun a : Fin d => x.2 (j, a)) = gaussLaw (r j).1 (r j).2 := by
  obtain ⟨cs, hcs, mu, C, S, rfl, rfl, rfl, hres⟩ := predictState_ok hq hn hK.pos h
  obtain ⟨k, cs', hb, hk⟩ := interior_stats hK hr hj hn hts hinf hsup h0 h1 hcs
  refine ⟨k, cs', hb, fun j => ?_⟩
  rw [SSM.law_eq_gauss, hb.marginal hK.statProc hts c.q.Kd_posSemidef j, hres j]
  have hKd : (c.q.Kd)ᵀ = c.q.Kd := (SSM.Kd_isJointCov (s := c.q)).symm
  rcases hk j with ⟨hk, hc⟩ | ⟨-, hs, hk, hc, hc'⟩
  · have e1 : (k j).castSucc.succ.castSucc = (k j).castSucc.castSucc.succ := rfl
    have e2 : (k j).castSucc.succ.succ = (k j).succ.castSucc.succ := rfl
    simp only [hk, hc, e1, e2, Fin.cons_succ, Fin.snoc_castSucc, blk_transpose_symm hKd]
    rfl
  · rw [hc, hc', hs, hk]
    have e2 : (Fin.succ 0 : Fin (n + 3)) = (Fin.castSucc 0 : Fin (n + 2)).succ := rfl
    simp only [e2, Fin.cons_succ, Fin.snoc_castSucc, one_mulVec, zero_mulVec, zero_add, add_zero,
      fromCols_mul_fromBlocks, transpose_fromCols, fromCols_mul_fromRows, Matrix.one_mul, Matrix.zero_mul,
      transpose_one, transpose_zero, Matrix.mul_one, Matrix.mul_zero]
    rfl

end law

end MF
