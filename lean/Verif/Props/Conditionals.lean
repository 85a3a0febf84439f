import Verif.Lemmas.SampleLaw
import Verif.Props.Kernels
import Verif.Props.StateSpaceModel
import Verif.Props.Emission
import Verif.Spec.LinearGaussian

/-! # C21–C24, C45: conditional statistics, predictions and samples at new times -/

namespace MF
open Matrix Spec MeasureTheory ProbabilityTheory
variable {n d o p : ℕ}

/-! ## C21 -/

/-- C21: whenever it returns, `D, E, T` describe the conditional law of the middle state of the chain
`x₋ → x → x₊` (for every law of `x₋`). -/
theorem C21_bridge {A₁ Q₁ A₂ Q₂ : Mat d d} (h₁ : Q₁.PosSemidef) (h₂ : Q₂.PosSemidef) {c : CondStats d}
    (h : condStatsFromTransitions A₁ Q₁ A₂ Q₂ = .ok c) : IsBridge c.D c.E c.T A₁ Q₁ A₂ Q₂ := by
  obtain ⟨hS, hE, hD, hT⟩ := condStats_ok (isSymm_of_psd h₁) (isSymm_of_psd h₂) h
  exact isBridge_of h₁ h₂ hS hE hD hT

/-- C21: it returns exactly when the innovation covariance `Q₂ + A₂ Q₁ A₂ᵀ` is positive definite; in
particular for positive definite `Q₂`. -/
theorem C21_succeeds {A₁ Q₁ A₂ Q₂ : Mat d d} (h₁ : Q₁.PosSemidef) (h₂ : Q₂.PosSemidef) :
    ((∃ c, condStatsFromTransitions A₁ Q₁ A₂ Q₂ = .ok c) ↔ (Q₂ + A₂ * Q₁ * A₂ᵀ).PosDef) ∧
    (Q₂.PosDef → ∃ c, condStatsFromTransitions A₁ Q₁ A₂ Q₂ = .ok c) := by
  have key : (Q₂ + A₂ * Q₁ * A₂ᵀ).PosDef → ∃ c, condStatsFromTransitions A₁ Q₁ A₂ Q₂ = .ok c :=
    condStats_succeeds (isSymm_of_psd h₁)
  refine ⟨⟨?_, key⟩, fun h => key ?_⟩
  · rintro ⟨c, hc⟩
    exact (condStats_ok (isSymm_of_psd h₁) (isSymm_of_psd h₂) hc).1
  · exact h.add_posSemidef (by simpa using h₁.mul_mul_conjTranspose_same A₂)

/-- C21: with `return_precision=True` the first two outputs are the same and the third is the inverse
of the conditional covariance. -/
theorem C21_precision {A₁ Q₁ A₂ Q₂ : Mat d d} (h₁ : Q₁.PosSemidef) (h₂ : Q₂.PosSemidef)
    {c c' : CondStats d} (h : condStatsFromTransitions A₁ Q₁ A₂ Q₂ = .ok c)
    (h' : condPrecisionFromTransitions A₁ Q₁ A₂ Q₂ = .ok c') :
    c'.D = c.D ∧ c'.E = c.E ∧ c'.T * c.T = 1 ∧ c.T * c'.T = 1 := by
  have hs₁ := isSymm_of_psd h₁
  have hs₂ := isSymm_of_psd h₂
  obtain ⟨hS, hE, hD, hT⟩ := condStats_ok hs₁ hs₂ h
  unfold condStatsFromTransitions at h
  unfold condPrecisionFromTransitions at h'
  simp only [bind, Except.bind, pure, Except.pure] at h h'
  split at h
  · cases h
  rename_i L hL
  rw [hL] at h'
  simp only at h'
  split at h'
  · cases h'
  rename_i L₁ hL₁
  split at h'
  · cases h'
  rename_i L₂ hL₂
  rw [tfCholesky_eq_ok_iff, symLower_eq hs₁] at hL₁
  rw [tfCholesky_eq_ok_iff, symLower_eq hs₂] at hL₂
  have hcD : c'.D = c.D := by rw [← Except.ok.inj h, ← Except.ok.inj h']
  have hcE : c'.E = c.E := by rw [← Except.ok.inj h, ← Except.ok.inj h']
  have hcT : c'.T = Q₁⁻¹ + A₂ᵀ * Q₂⁻¹ * A₂ := by
    rw [← Except.ok.inj h']
    simp only
    rw [cholSolve_eq hL₁, Matrix.mul_one]
    congr 1
    have := (gain_eq (B := A₂) hL₂).2
    rw [this]
  have hS1 : (Q₂ + A₂ * Q₁ * A₂ᵀ) * (Q₂ + A₂ * Q₁ * A₂ᵀ)⁻¹ = 1 :=
    mul_nonsing_inv _ ((isUnit_iff_isUnit_det _).1 hS.isUnit)
  have hQ1 : Q₁⁻¹ * Q₁ = 1 := nonsing_inv_mul _ ((isUnit_iff_isUnit_det _).1 hL₁.posDef.isUnit)
  have hQ2 : Q₂⁻¹ * Q₂ = 1 := nonsing_inv_mul _ ((isUnit_iff_isUnit_det _).1 hL₂.posDef.isUnit)
  have hmain : c'.T * c.T = 1 := by
    rw [hcT, hT, hE]
    set S := Q₂ + A₂ * Q₁ * A₂ᵀ with hSdef
    have hA : A₂ * Q₁ * A₂ᵀ = S - Q₂ := by rw [hSdef]; abel
    have hx : Q₂⁻¹ * A₂ * Q₁ * A₂ᵀ * S⁻¹ = Q₂⁻¹ - S⁻¹ := by
      have : Q₂⁻¹ * A₂ * Q₁ * A₂ᵀ * S⁻¹ = Q₂⁻¹ * (A₂ * Q₁ * A₂ᵀ) * S⁻¹ := by simp only [Matrix.mul_assoc]
      rw [this, hA, Matrix.mul_sub, Matrix.sub_mul, hQ2, Matrix.mul_assoc, hS1, Matrix.mul_one, Matrix.one_mul]
    have hy : A₂ᵀ * Q₂⁻¹ * A₂ * (Q₁ * A₂ᵀ * S⁻¹ * A₂ * Q₁) =
        A₂ᵀ * (Q₂⁻¹ - S⁻¹) * A₂ * Q₁ := by
      rw [← hx]; simp only [Matrix.mul_assoc]
    have hz : Q₁⁻¹ * (Q₁ * A₂ᵀ * S⁻¹ * A₂ * Q₁) = A₂ᵀ * S⁻¹ * A₂ * Q₁ := by
      rw [show Q₁⁻¹ * (Q₁ * A₂ᵀ * S⁻¹ * A₂ * Q₁) = (Q₁⁻¹ * Q₁) * (A₂ᵀ * S⁻¹ * A₂ * Q₁) by
        simp only [Matrix.mul_assoc], hQ1, Matrix.one_mul]
    rw [Matrix.mul_sub, Matrix.add_mul, Matrix.add_mul, hy, hz, hQ1, Matrix.mul_sub, Matrix.sub_mul,
      Matrix.sub_mul]
    abel
  exact ⟨hcD, hcE, hmain, mul_eq_one_comm.1 hmain⟩

/-- The stated quantifier: positive definite process noises, both variants. -/
theorem C21_all {A₁ Q₁ A₂ Q₂ : Mat d d} (h₁ : Q₁.PosDef) (h₂ : Q₂.PosDef) :
    ∃ c c', condStatsFromTransitions A₁ Q₁ A₂ Q₂ = .ok c ∧
      condPrecisionFromTransitions A₁ Q₁ A₂ Q₂ = .ok c' ∧ IsBridge c.D c.E c.T A₁ Q₁ A₂ Q₂ ∧
      c'.D = c.D ∧ c'.E = c.E ∧ c'.T * c.T = 1 := by
  obtain ⟨c, hc⟩ := (C21_succeeds (A₁ := A₁) (A₂ := A₂) h₁.posSemidef h₂.posSemidef).2 h₂
  have hc' : ∃ c', condPrecisionFromTransitions A₁ Q₁ A₂ Q₂ = .ok c' := by
    have hcc := hc
    unfold condStatsFromTransitions at hcc
    unfold condPrecisionFromTransitions
    simp only [bind, Except.bind, pure, Except.pure] at hcc ⊢
    split at hcc
    · cases hcc
    obtain ⟨L₁, hL₁, -⟩ := tfCholesky_posDef h₁
    obtain ⟨L₂, hL₂, -⟩ := tfCholesky_posDef h₂
    rw [hL₁, hL₂]
    exact ⟨_, rfl⟩
  obtain ⟨c', hc'⟩ := hc'
  obtain ⟨hD, hE, hT, -⟩ := C21_precision h₁.posSemidef h₂.posSemidef hc hc'
  exact ⟨c, c', hc, hc', C21_bridge h₁.posSemidef h₂.posSemidef hc, hD, hE, hT⟩

/-- Non-vacuity: a two-dimensional instance with positive definite, non-diagonal noises. -/
example : ∃ c, condStatsFromTransitions !![1, 2; 0, 1] !![4, 2; 2, 2] !![1, 0; 3, 1] (!![4, 2; 2, 2] : Mat 2 2)
    = .ok c := by
  have h : (!![4, 2; 2, 2] : Mat 2 2).PosDef := by
    have := exSSM_nondegenerate.Q_posDef 0
    have e : exSSM.Q 0 = !![4, 2; 2, 2] := by
      ext i j
      fin_cases i <;> fin_cases j <;> simp [SSM.Q, exSSM, Matrix.mul_apply, Fin.sum_univ_two] <;> norm_num
    rwa [e] at this
  exact (C21_succeeds h.posSemidef h.posSemidef).2 h

/-! ## C22 -/

/-- C22: the insertion index separates the training times strictly before the query from the others, so
an interior query has neighbours `t_k < t ≤ t_{k+1}`. -/
theorem C22_neighbours {ts : Fin (n + 1) → ℝ} (hts : Monotone ts) (t : ℝ) :
    (∀ j : Fin (n + 1), (j : ℕ) < (searchsortedLeft ts t : ℕ) ↔ ts j < t) ∧
    (ts 0 < t → t ≤ ts (Fin.last n) → ∃ k : Fin n, ts k.castSucc < t ∧ t ≤ ts k.succ) := by
  refine ⟨lt_searchsortedLeft hts t, fun h0 h1 => ?_⟩
  obtain ⟨k, -, h⟩ := exists_interval hts h0 h1
  exact ⟨k, h⟩

/-- `r` is the combination of the two neighbouring marginals by the bridge from time `t₋` over `t` to
`t₊`: `x₋` has mean `m₋`, covariance `C₋`; `x₊` has `m₊`, `C₊`; their cross covariance
`Cov(x₊, x₋)` is `X`. -/
def CombinesBridge (K : Stationary o d) (tm t tp : ℝ) (mm mp : Vec d) (Cm X Cp : Mat d d)
    (r : Vec d × Mat d d) : Prop :=
  ∃ c, condStatsFromTransitions (K.stateTransitions tm (t - tm)) (K.transitionNoise tm (t - tm))
      (K.stateTransitions t (tp - t)) (K.transitionNoise t (tp - t)) = .ok c ∧
    r.1 = c.D *ᵥ mm + c.E *ᵥ mp ∧
    r.2 = c.T + (c.D * Cm * c.Dᵀ + c.D * Xᵀ * c.Eᵀ + c.E * X * c.Dᵀ + c.E * Cp * c.Eᵀ)

theorem fromCols_fromBlocks (D E A B C F : Mat d d) : fromCols D E * fromBlocks A B C F * (fromCols D E)ᵀ =
    D * A * Dᵀ + D * B * Eᵀ + E * C * Dᵀ + E * F * Eᵀ := by
  rw [fromCols_mul_fromBlocks, transpose_fromCols, fromCols_mul_fromRows]
  simp only [Matrix.add_mul]
  abel

section pad
variable {α : Type*} (a b : α) (f : Fin (n + 1) → α)
theorem pad_first : (Fin.cons a (Fin.snoc (α := fun _ => α) f b) : Fin (n + 3) → α)
    (0 : Fin (n + 2)).castSucc = a := rfl
theorem pad_second : (Fin.cons a (Fin.snoc (α := fun _ => α) f b) : Fin (n + 3) → α)
    (0 : Fin (n + 2)).succ = f 0 := by
  rw [Fin.cons_succ]; exact Fin.snoc_castSucc (α := fun _ => α) b f 0
theorem pad_butlast : (Fin.cons a (Fin.snoc (α := fun _ => α) f b) : Fin (n + 3) → α)
    (Fin.last (n + 1)).castSucc = f (Fin.last n) := by
  rw [show (Fin.last (n + 1)).castSucc = (Fin.last n).castSucc.succ from rfl, Fin.cons_succ]
  exact Fin.snoc_castSucc (α := fun _ => α) b f (Fin.last n)
theorem pad_last : (Fin.cons a (Fin.snoc (α := fun _ => α) f b) : Fin (n + 3) → α)
    (Fin.last (n + 1)).succ = b := by
  rw [Fin.cons_succ]; exact Fin.snoc_last (α := fun _ => α) b f
theorem pad_cross_last (f : Fin n → α) : (Fin.cons a (Fin.snoc (α := fun _ => α) f b) : Fin (n + 2) → α)
    (Fin.last (n + 1)) = b := by
  rw [← Fin.succ_last, Fin.cons_succ]; exact Fin.snoc_last (α := fun _ => α) b f
end pad

/-- C22: `predict_state` combines, at each query, the marginals of the two neighbouring conditioning
points; beyond the first or last conditioning point, the prior's initial marginal at time `∓1e10`,
uncorrelated with the posterior, stands in for the missing neighbour. -/
theorem C22_predict_state {c : CondProcess n o d} (hq : c.q.Nondegenerate) (hn : 0 < n) (hd : 0 < d)
    (hts : Monotone c.times) {new : Fin p → ℝ} {r} (h : c.predictState new = .ok r)
    {μ : Fin (n + 1) → Vec d} {S : Matrix (Ix n d) (Ix n d) ℝ} (hμ : IsMeans c.q.mu0 c.q.A c.q.b μ)
    (hS : IsJointCov (c.q.cholP0 * c.q.cholP0ᵀ) c.q.A (fun k => c.q.cholQ k * (c.q.cholQ k)ᵀ) S)
    (j : Fin p) :
    (∀ k : Fin n, c.times k.castSucc < new j → new j ≤ c.times k.succ →
      CombinesBridge c.kernel (c.times k.castSucc) (new j) (c.times k.succ) (μ k.castSucc) (μ k.succ)
        (blk S k.castSucc k.castSucc) (blk S k.succ k.castSucc) (blk S k.succ k.succ) (r j)) ∧
    (new j ≤ c.times 0 → CombinesBridge c.kernel (-10000000000) (new j) (c.times 0) c.kernel.initialMean (μ 0)
      c.kernel.initialCovariance 0 (blk S 0 0) (r j)) ∧
    (c.times (Fin.last n) < new j → CombinesBridge c.kernel (c.times (Fin.last n)) (new j) 10000000000
      (μ (Fin.last n)) c.kernel.initialMean (blk S (Fin.last n) (Fin.last n)) 0
      c.kernel.initialCovariance (r j)) := by
  obtain rfl : μ = c.q.mus := SSM.IsMeans.unique hμ c.q.mus_isMeans
  obtain rfl : S = c.q.Kd := SSM.IsJointCov.unique hS c.q.Kd_isJointCov
  obtain ⟨cs, hcs, mu, C, X, rfl, rfl, rfl, hres⟩ := predictState_ok hq hn hd h
  have hlt := lt_searchsortedLeft hts (new j)
  have hc := hcs j
  have hr := hres j
  unfold CodeStats Stationary.trans at hc
  refine ⟨fun k h1 h2 => ?_, fun h1 => ?_, fun h1 => ?_⟩
  · have hk : searchsortedLeft c.times (new j) = k.castSucc.succ := by
      refine Fin.ext ?_
      show ((searchsortedLeft c.times (new j) : Fin (n + 2)) : ℕ) = (k : ℕ) + 1
      have a1 := (hlt k.castSucc).2 h1
      have a2 := mt (hlt k.succ).1 (not_lt.2 h2)
      simp only [Fin.val_castSucc, Fin.val_succ] at a1 a2
      omega
    rw [hk] at hc hr
    simp only [aug_left, aug_right] at hc
    have e1 : k.castSucc.succ.castSucc = k.castSucc.castSucc.succ := rfl
    have e2 : k.castSucc.succ.succ = k.succ.castSucc.succ := rfl
    simp only [e1, e2, Fin.cons_succ, Fin.snoc_castSucc] at hr
    exact ⟨cs j, hc, by rw [hr], by rw [hr, fromCols_fromBlocks]⟩
  · have hk : searchsortedLeft c.times (new j) = 0 := by
      refine Fin.ext ?_
      show ((searchsortedLeft c.times (new j) : Fin (n + 2)) : ℕ) = 0
      have a2 := mt (hlt 0).1 (not_lt.2 h1)
      simp only [Fin.val_zero] at a2
      omega
    rw [hk] at hc hr
    have e1 : augmentedTimes approxInf c.times (0 : Fin (n + 2)).succ = c.times 0 := augmentedTimes_mid _ _ 0
    rw [e1] at hc
    rw [pad_first, pad_second, pad_first, pad_second, Fin.cons_zero] at hr
    exact ⟨cs j, hc, by rw [hr], by rw [hr, fromCols_fromBlocks]⟩
  · have hk : searchsortedLeft c.times (new j) = Fin.last (n + 1) := by
      refine Fin.ext ?_
      have a1 := (hlt (Fin.last n)).2 h1
      have a2 := (searchsortedLeft c.times (new j)).2
      simp only [Fin.val_last] at a1 ⊢
      omega
    rw [hk] at hc hr
    have e1 : augmentedTimes approxInf c.times (Fin.last (n + 1)).castSucc = c.times (Fin.last n) :=
      augmentedTimes_mid _ _ (Fin.last n)
    rw [e1, Fin.succ_last, augmentedTimes_last] at hc
    rw [pad_butlast, pad_last, pad_butlast, pad_last, pad_cross_last] at hr
    exact ⟨cs j, hc, by rw [hr], by rw [hr, fromCols_fromBlocks]⟩

/-- C22: predicting at a conditioning time returns exactly that time's marginal, for every kernel
expression with jitter zero. (For tied times: the marginal of the first one.) -/
theorem C22_at_training {c : CondProcess n o d} {k} (hK : Builds c.kernel k) (hj : c.kernel.jitter = 0)
    (hq : c.q.Nondegenerate) (hn : 0 < n) (hts : Monotone c.times)
    (hinf : -10000000000 < c.times 0) {new : Fin p → ℝ} {r} (h : c.predictState new = .ok r) {μ S m C}
    (hμ : c.q.marginalMeans = .ok μ) (hC : c.q.marginalCovariances = .ok S) (j : Fin p) (i : Fin (n + 1))
    (hi : new j = c.times i) (hfirst : ∀ i' < i, c.times i' < c.times i) (hm : m = μ i) (hc : C = S i) :
    r j = (m, C) := by
  obtain ⟨hc', hr, -⟩ := Builds.good hK
  have hd := hc'.pos
  rw [SSM.marginalMeans_eq hn] at hμ
  rw [SSM.marginalCovariances_eq hq hn hd] at hC
  cases hμ; cases hC
  subst hm hc
  have hnoise : ∀ t δ, 0 ≤ δ → (c.kernel.transitionNoise t δ).PosSemidef :=
    fun t δ hδ => (C27_process_covariance_psd hK t hδ).2.1
  have hA0 : ∀ t, c.kernel.stateTransitions t 0 = 1 := fun t => by rw [hc'.time, hc'.zero]
  have hQ0 : ∀ t, c.kernel.transitionNoise t 0 = 0 := fun t =>
    (C27_stationary hK hj t le_rfl le_rfl).2.2.2.1
  obtain ⟨hint, hleft, -⟩ := C22_predict_state hq hn hd hts h c.q.mus_isMeans c.q.Kd_isJointCov j
  have fin : ∀ {tm mm Cm X}, tm ≤ new j → CombinesBridge c.kernel tm (new j) (c.times i) mm (c.q.mus i) Cm X
      (blk c.q.Kd i i) (r j) → r j = (c.q.mus i, blk c.q.Kd i i) := by
    rintro tm mm Cm X htm ⟨cs, hcs, h1, h2⟩
    rw [hi, sub_self, hA0, hQ0, ← hi] at hcs
    obtain ⟨hD, hE, hT⟩ := condStats_at_zero (hnoise _ _ (sub_nonneg.2 htm)) hcs
    refine Prod.ext ?_ ?_
    · rw [h1, hD, hE, zero_mulVec, zero_add, one_mulVec]
    · rw [h2, hD, hE, hT]
      simp
  refine Fin.cases ?_ (fun i => ?_) i (motive := fun i => new j = c.times i → (∀ i' < i, c.times i' < c.times i) →
    (∀ {tm mm Cm X}, tm ≤ new j → CombinesBridge c.kernel tm (new j) (c.times i) mm (c.q.mus i) Cm X
      (blk c.q.Kd i i) (r j) → r j = (c.q.mus i, blk c.q.Kd i i)) → r j = (c.q.mus i, blk c.q.Kd i i)) hi hfirst fin
  · intro hi _ fin
    exact fin (by rw [hi]; exact hinf.le) (hleft hi.le)
  · intro hi hfirst fin
    have h1 : c.times i.castSucc < new j := by rw [hi]; exact hfirst _ Fin.castSucc_lt_succ
    exact fin h1.le (hint i h1 hi.le)

/-- C22: `predict_state` returns for all sorted conditioning times and all queries within `±1e10`, for
kernel expressions with noise throughout (the Matérn family and what is built from it). -/
theorem C22_succeeds {c : CondProcess n o d} {k} (hK : Builds c.kernel k) (hN : NoiseTag c.kernel true)
    (hq : c.q.Nondegenerate) (hn : 0 < n) (hts : Monotone c.times) {new : Fin p → ℝ}
    (h0 : ∀ j, -10000000000 < new j) (h1 : ∀ j, new j ≤ 10000000000) : ∃ r, c.predictState new = .ok r := by
  obtain ⟨hc, hr, -⟩ := Builds.good hK
  have : ∀ j, ∃ cs, CodeStats approxInf c.times c.kernel.trans (new j) cs := by
    intro j
    obtain ⟨hl, hr⟩ := augmented_between hts (h0 j) (h1 j)
    have hp := (C27_process_covariance_pd hK hN (augmentedTimes approxInf c.times
      (searchsortedLeft c.times (new j)).castSucc) (sub_pos.2 hl)).2
    have hs := (C27_process_covariance_psd hK (new j) (sub_nonneg.2 hr)).2.1
    refine (C21_succeeds hp.posSemidef hs).1.2 ?_
    have hu : IsUnit (c.kernel.stateTransitions (new j) (augmentedTimes approxInf c.times
      (searchsortedLeft c.times (new j)).succ - new j)) := by rw [hc.time]; exact hc.isUnit _
    have := (Matrix.IsUnit.posDef_star_right_conjugate_iff hu).2 hp
    rw [star_eq_conjTranspose, conjTranspose_eq_transpose_of_trivial] at this
    exact PosDef.posSemidef_add hs this
  choose cs hcs using this
  exact predictState_of hq hn hc.pos hcs

/-! ## C23 -/

/-- The prior law of the states at the conditioning times and the new times. -/
noncomputable def priorLaw (K : Stationary o d) (ts : Fin (n + 1) → ℝ) (new : Fin p → ℝ) :
    Measure ((Fin (n + 1) × Fin d → ℝ) × (Fin p × Fin d → ℝ)) :=
  (gpLaw (fun _ => 0) (stateCov (K.stateTransitions 0) K.Pinf) (Sum.elim ts new)).map atTimes

/-- C23: `priorLaw` is what the kernel's own state space model says, at the conditioning times alone and
at any (sorted) sequence of times. -/
theorem C23_prior_is_kernel {K : Stationary o d} {k} (hK : Builds K k) (hj : K.jitter = 0)
    {ts : Fin (n + 1) → ℝ} {s : SSM n d} (hs : K.stateSpaceModel ts = .ok s) (new : Fin p → ℝ) :
    s.law = (priorLaw K ts new).map Prod.fst ∧
    s.law = gpLaw (fun _ => 0) (stateCov (K.stateTransitions 0) K.Pinf) ts := by
  obtain ⟨hc, hr, -⟩ := Builds.good hK
  have h1 := kernel_ssm_law hc hr hj hs
  refine ⟨?_, h1⟩
  rw [h1, priorLaw, Measure.map_map measurable_fst measurable_atTimes]
  exact (gpLaw_comp hc.statProc (Sum.elim ts new) Sum.inl).symm

/-- C23: `predict_state` at query times from the first to the last conditioning time (both included): the results are
the marginals of `q(u) p(s | u)`, the chain `q` at the conditioning times with the new times inserted
according to the prior's conditional. -/
theorem C23_interior {c : CondProcess n o d} {k} (hK : Builds c.kernel k) (hj : c.kernel.jitter = 0)
    (hq : c.q.Nondegenerate) (hn : 0 < n) (hts : Monotone c.times)
    (ht0 : -10000000000 < c.times 0) (ht1 : c.times (Fin.last n) ≤ 10000000000) {new : Fin p → ℝ}
    (h0 : ∀ j, c.times 0 ≤ new j) (h1 : ∀ j, new j ≤ c.times (Fin.last n)) {r}
    (h : c.predictState new = .ok r) :
    ∃ ν, IsPredictive (priorLaw c.kernel c.times new) c.q.law ν ∧
      ∀ j, ν.map (fun x => fun a : Fin d => x.2 (j, a)) = gaussLaw (r j).1 (r j).2 := by
  obtain ⟨hc, hr, -⟩ := Builds.good hK
  obtain ⟨kk, cs, hb, hlaw⟩ := predict_law_interior hc hr hj hq hn hts ht0 ht1 h0 h1 h
  have hp : IsProbabilityMeasure c.q.law := by rw [SSM.law_eq_gauss]; infer_instance
  exact ⟨_, hb.predictive hc.statProc hts c.q.law, hlaw⟩

/-- C23, all queries within `±1e10`: the same, for the process pinned additionally at the times `∓1e10`
where the states follow the prior, independently of `q`. -/
theorem C23_with_ends {c : CondProcess n o d} {k} (hK : Builds c.kernel k) (hj : c.kernel.jitter = 0)
    (hq : c.q.Nondegenerate) (hn : 0 < n) (hts : Monotone c.times)
    (ht0 : -10000000000 ≤ c.times 0) (ht1 : c.times (Fin.last n) ≤ 10000000000) {new : Fin p → ℝ}
    (h0 : ∀ j, -10000000000 < new j) (h1 : ∀ j, new j ≤ 10000000000) {r}
    (h : c.predictState new = .ok r) :
    ∃ ν, IsPredictive
        (priorLaw c.kernel (Fin.cons (-10000000000) (Fin.snoc (α := fun _ => ℝ) c.times 10000000000)) new)
        (withEnds (gpLaw (fun _ => 0) (stateCov (c.kernel.stateTransitions 0) c.kernel.Pinf)
          ![-10000000000, 10000000000]) c.q.law) ν ∧
      ∀ j, ν.map (fun x => fun a : Fin d => x.2 (j, a)) = gaussLaw (r j).1 (r j).2 := by
  obtain ⟨hc, hr, -⟩ := Builds.good hK
  obtain ⟨cs, hcs, -⟩ := predictState_ok hq hn hc.pos h
  have hb := codeStats_bridges hc hr hj hts h0 h1 hcs
  have hp : IsProbabilityMeasure c.q.law := by rw [SSM.law_eq_gauss]; infer_instance
  have hg := gpLaw_isProb (fun _ => (0 : Vec d)) (stateCov (c.kernel.stateTransitions 0) c.kernel.Pinf)
    ![(-10000000000 : ℝ), 10000000000]
  have hw : IsProbabilityMeasure (withEnds (gpLaw (fun _ => 0) (stateCov (c.kernel.stateTransitions 0)
      c.kernel.Pinf) ![-10000000000, 10000000000]) c.q.law) :=
    Measure.isProbabilityMeasure_map measurable_asm.aemeasurable
  exact ⟨_, hb.predictive hc.statProc (augmentedTimes_mono hts ht0 ht1) _,
    predict_law_aug hc hr hj hq hn hts ht0 ht1 h0 h1 h hcs⟩

theorem compProd_withDensity_left {U S : Type*} [MeasurableSpace U] [MeasurableSpace S] (μ : Measure U)
    [SFinite μ] (κ : ProbabilityTheory.Kernel U S) [IsMarkovKernel κ] {f : U → ENNReal} (hf : Measurable f)
    [SFinite (μ.withDensity f)] :
    (μ.withDensity f).compProd κ = (μ.compProd κ).withDensity fun x => f x.1 := by
  ext s hs
  have hm : Measurable fun x : U × S => f x.1 := hf.comp measurable_fst
  rw [Measure.compProd_apply hs, lintegral_withDensity_eq_lintegral_mul _ hf
    (Kernel.measurable_kernel_prodMk_left hs), withDensity_apply _ hs, ← lintegral_indicator hs,
    Measure.lintegral_compProd (hm.indicator hs)]
  refine lintegral_congr fun a => ?_
  simp only [Pi.mul_apply]
  have : ∀ b, s.indicator (fun x : U × S => f x.1) (a, b) =
      (Prod.mk a ⁻¹' s).indicator (fun _ => f a) b := fun b => rfl
  simp only [this]
  rw [lintegral_indicator (measurable_prodMk_left hs), setLIntegral_const]

/-- C23 (what the predictive law is for): if `q` is the Bayes posterior of the states at the
conditioning times for some likelihood, then `q(u) p(s | u)` is the Bayes posterior of all the states
for that likelihood. -/
theorem C23_bayes {U S : Type*} [MeasurableSpace U] [MeasurableSpace S] {prior : Measure (U × S)}
    [IsProbabilityMeasure prior] {q : Measure U} {ν : Measure (U × S)} {ℓ : U → ℝ} (hℓ : Measurable ℓ)
    (hq : IsBayesPosterior (prior.map Prod.fst) ℓ q) (hν : IsPredictive prior q ν) :
    IsBayesPosterior prior (fun x => ℓ x.1) ν := by
  obtain ⟨κ, hκ, hp, rfl⟩ := hν
  obtain ⟨hz, ht, rfl⟩ := hq
  have hf : Measurable fun x => ENNReal.ofReal (Real.exp (ℓ x)) := by fun_prop
  have he : evidence prior (fun x => ℓ x.1) = evidence (prior.map Prod.fst) ℓ := by
    unfold evidence
    rw [lintegral_map hf measurable_fst]
  have hprob : IsProbabilityMeasure (prior.map Prod.fst) :=
    Measure.isProbabilityMeasure_map measurable_fst.aemeasurable
  refine ⟨he ▸ hz, he ▸ ht, ?_⟩
  rw [he, Measure.compProd_smul_left, compProd_withDensity_left _ _ hf, ← hp]

/-- C23, the prior itself: predicting from the prior's own chain gives back the prior marginals. -/
theorem C23_prior {c : CondProcess n o d} {k} (hK : Builds c.kernel k) (hj : c.kernel.jitter = 0)
    (hs : c.kernel.stateSpaceModel c.times = .ok c.q)
    (hq : c.q.Nondegenerate) (hn : 0 < n) (hts : Monotone c.times)
    (ht0 : -10000000000 < c.times 0) (ht1 : c.times (Fin.last n) ≤ 10000000000) {new : Fin p → ℝ}
    (h0 : ∀ j, c.times 0 ≤ new j) (h1 : ∀ j, new j ≤ c.times (Fin.last n)) {r}
    (h : c.predictState new = .ok r) (j : Fin p) :
    gaussLaw (r j).1 (r j).2 = gaussLaw 0 c.kernel.initialCovariance := by
  obtain ⟨hc, hr, -⟩ := Builds.good hK
  obtain ⟨ν, ⟨κ, hκ, hp, hν⟩, hm⟩ := C23_interior hK hj hq hn hts ht0 ht1 h0 h1 h
  rw [(C23_prior_is_kernel hK hj hs new).1, ← hp] at hν
  rw [← hm j, hν, priorLaw, Measure.map_map (by fun_prop) measurable_atTimes]
  have e : ((fun x : (Fin (n + 1) × Fin d → ℝ) × (Fin p × Fin d → ℝ) => fun a : Fin d => x.2 (j, a)) ∘ atTimes) =
      fun x : (Fin (n + 1) ⊕ Fin p) × Fin d → ℝ => x ∘ fun a : Fin d => ((Sum.inr j : Fin (n + 1) ⊕ Fin p), a) := rfl
  rw [e]
  unfold gpLaw
  rw [gaussLaw_comp (hc.statProc.psd_any _)]
  congr 1
  rw [Stationary.initialCovariance, hj, jitterMatrix_zero, add_zero]
  ext a b
  exact congrFun (congrFun (hc.statProc.cov_self (new j)) a) b

/-! ## C24 -/

section sampling
variable {c : CondProcess n o d} {new : Fin p → ℝ}
  {X : (Ix (n + p) d → ℝ) → (Ix n d → ℝ) → (Fin p → Vec d) × (Fin (n + 1) → Vec d)}

/-- The law of (states at the conditioning times, states at the new times) returned by
`sample_state_trajectories` fed with iid standard normal noise. -/
noncomputable def sampledLaw
    (X : (Ix (n + p) d → ℝ) → (Ix n d → ℝ) → (Fin p → Vec d) × (Fin (n + 1) → Vec d)) :
    Measure ((Fin (n + 1) × Fin d → ℝ) × (Fin p × Fin d → ℝ)) :=
  ((stdNormal (Ix (n + p) d)).prod (stdNormal (Ix n d))).map fun e => (stk (X e.1 e.2).2, stk (X e.1 e.2).1)

theorem sampledLaw_eq {k} (hK : Builds c.kernel k) (hj : c.kernel.jitter = 0) (hn : 0 < n)
    (hX : ∀ e e', c.sampleStateTrajectories new (unstk e) (unstk e') = .ok (X e e')) :
    ∃ cs : Fin p → CondStats d, (∀ j, CodeStats approxInf c.times c.kernel.trans (new j) (cs j)) ∧
      sampledLaw X = ((priorLaw c.kernel c.times new).prod c.q.law).map (fun x => (x.2, x.1.2 -
        projMat (fun j => searchsortedLeft c.times (new j)) cs *ᵥ stk (padEnds (unstk (x.1.1 - x.2))))) := by
  obtain ⟨hc, hr, -⟩ := Builds.good hK
  obtain ⟨sP, cs, hsP, hcs, hval⟩ := sampleStateTrajectories_ok hn (hX 0 0)
  refine ⟨cs, hcs, ?_⟩
  have h1 := joint_prior_law hc hr hj hsP
  obtain ⟨h2, hm2⟩ := post_law c.q
  obtain ⟨-, hmP⟩ := post_law sP
  have hm1 : Measurable (fun e : Ix (n + p) d → ℝ => atTimes fun i : (Fin (n + 1) ⊕ Fin p) × Fin d =>
        simulate sP.mu0 sP.A sP.b (fun k => sP.concatChol k *ᵥ unstk e k)
          ((Tuple.sort (jointTimes c.times new)).symm (jointIdx i.1)) i.2) := by
    refine measurable_atTimes.comp (measurable_pi_lambda _ fun i => ?_)
    exact (measurable_pi_apply (((Tuple.sort (jointTimes c.times new)).symm (jointIdx i.1)), i.2)).comp hmP
  unfold sampledLaw
  rw [priorLaw, ← h1, ← h2, Measure.map_prod_map _ _ hm1 hm2, Measure.map_map _ (hm1.prodMap hm2)]
  · congr 1
    funext e
    have hXe : X e.1 e.2 = _ := Except.ok.inj ((hX e.1 e.2).symm.trans (hval _ _))
    rw [hXe]
    refine Prod.ext rfl ?_
    funext ⟨j, a⟩
    have hp := congrFun (projMat_mulVec (fun j => searchsortedLeft c.times (new j)) cs (stk (padEnds (unstk
      ((atTimes fun i : (Fin (n + 1) ⊕ Fin p) × Fin d =>
        simulate sP.mu0 sP.A sP.b (fun k => sP.concatChol k *ᵥ unstk e.1 k)
          ((Tuple.sort (jointTimes c.times new)).symm (jointIdx i.1)) i.2).1 -
      stk (simulate c.q.mu0 c.q.A c.q.b (fun k => c.q.concatChol k *ᵥ unstk e.2 k)))))) j) a
    simp only [Function.comp, Prod.map, Pi.sub_apply, hp]
    rfl
  · exact measurable_snd.prodMk ((measurable_snd.comp measurable_fst).sub
      (measurable_mulVec' _ (measurable_pad.comp ((measurable_fst.comp measurable_fst).sub measurable_snd))))

theorem measurable_sampled (hn : 0 < n)
    (hX : ∀ e e', c.sampleStateTrajectories new (unstk e) (unstk e') = .ok (X e e')) :
    Measurable fun e : (Ix (n + p) d → ℝ) × (Ix n d → ℝ) => (stk (X e.1 e.2).2, stk (X e.1 e.2).1) := by
  obtain ⟨sP, cs, hsP, hcs, hval⟩ := sampleStateTrajectories_ok hn (hX 0 0)
  obtain ⟨-, hm2⟩ := post_law c.q
  obtain ⟨-, hmP⟩ := post_law sP
  have hm1 : Measurable (fun e : Ix (n + p) d → ℝ => atTimes fun i : (Fin (n + 1) ⊕ Fin p) × Fin d =>
        simulate sP.mu0 sP.A sP.b (fun k => sP.concatChol k *ᵥ unstk e k)
          ((Tuple.sort (jointTimes c.times new)).symm (jointIdx i.1)) i.2) := by
    refine measurable_atTimes.comp (measurable_pi_lambda _ fun i => ?_)
    exact (measurable_pi_apply (((Tuple.sort (jointTimes c.times new)).symm (jointIdx i.1)), i.2)).comp hmP
  have hA : Measurable fun x : ((Fin (n + 1) × Fin d → ℝ) × (Fin p × Fin d → ℝ)) × (Ix n d → ℝ) => (x.2, x.1.2 -
        projMat (fun j => searchsortedLeft c.times (new j)) cs *ᵥ stk (padEnds (unstk (x.1.1 - x.2)))) :=
    measurable_snd.prodMk ((measurable_snd.comp measurable_fst).sub
      (measurable_mulVec' _ (measurable_pad.comp ((measurable_fst.comp measurable_fst).sub measurable_snd))))
  convert hA.comp (hm1.prodMap hm2) using 1
  funext e
  have hXe : X e.1 e.2 = _ := Except.ok.inj ((hX e.1 e.2).symm.trans (hval _ _))
  rw [hXe]
  refine Prod.ext rfl ?_
  funext ⟨j, a⟩
  have hp := congrFun (projMat_mulVec (fun j => searchsortedLeft c.times (new j)) cs (stk (padEnds (unstk
      ((atTimes fun i : (Fin (n + 1) ⊕ Fin p) × Fin d =>
        simulate sP.mu0 sP.A sP.b (fun k => sP.concatChol k *ᵥ unstk e.1 k)
          ((Tuple.sort (jointTimes c.times new)).symm (jointIdx i.1)) i.2).1 -
      stk (simulate c.q.mu0 c.q.A c.q.b (fun k => c.q.concatChol k *ᵥ unstk e.2 k)))))) j) a
  simp only [Function.comp, Prod.map, Pi.sub_apply, hp]
  rfl

theorem sampledLaw_interior {k} (hK : Builds c.kernel k) (hj : c.kernel.jitter = 0) (hn : 0 < n)
    (hts : Monotone c.times) (ht0 : -10000000000 < c.times 0) (ht1 : c.times (Fin.last n) ≤ 10000000000)
    (h0 : ∀ j, c.times 0 ≤ new j) (h1 : ∀ j, new j ≤ c.times (Fin.last n))
    (hX : ∀ e e', c.sampleStateTrajectories new (unstk e) (unstk e') = .ok (X e e')) :
    ∃ (cs cs' : Fin p → CondStats d) (kk : Fin p → Fin n),
      (∀ j, CodeStats approxInf c.times c.kernel.trans (new j) (cs j)) ∧
      Bridges (c.kernel.stateTransitions 0) c.kernel.Pinf c.times new kk cs' ∧
      (∀ j, (searchsortedLeft c.times (new j) = (kk j).castSucc.succ ∧ cs' j = cs j) ∨ new j = c.times 0) ∧
      sampledLaw X = predLaw (c.kernel.stateTransitions 0) c.kernel.Pinf c.times new kk cs' c.q.law := by
  obtain ⟨hc, hr, -⟩ := Builds.good hK
  obtain ⟨cs, hcs, hlaw⟩ := sampledLaw_eq hK hj hn hX
  obtain ⟨kk, cs', hb, hk⟩ := interior_stats hc hr hj hn hts ht0 ht1 h0 h1 hcs
  have hp : IsProbabilityMeasure c.q.law := by rw [SSM.law_eq_gauss]; infer_instance
  refine ⟨cs, cs', kk, hcs, hb, fun j => (hk j).imp_right And.left, ?_⟩
  rw [hlaw, ← sample_law_int hc.statProc hts hb c.q.law]
  congr 1
  funext x
  refine Prod.ext rfl ?_
  show x.1.2 - _ = x.1.2 - _
  congr 1
  funext ⟨j, a⟩
  have e1 := congrFun (projMat_mulVec (fun j => searchsortedLeft c.times (new j)) cs
    (stk (padEnds (unstk (x.1.1 - x.2)))) j) a
  have e2 := congrFun (projMat_mulVec kk cs' (x.1.1 - x.2) j) a
  refine e1.trans (Eq.trans ?_ e2.symm)
  rcases hk j with ⟨hk, hc⟩ | ⟨-, hs, hk, hc, hc'⟩
  · have g1 : unstk (stk (padEnds (unstk (x.1.1 - x.2)))) (searchsortedLeft c.times (new j)).castSucc =
        unstk (x.1.1 - x.2) (kk j).castSucc := by
      rw [hk]
      show padEnds _ (kk j).castSucc.castSucc.succ = _
      unfold padEnds
      rw [Fin.cons_succ, Fin.snoc_castSucc]
    have g2 : unstk (stk (padEnds (unstk (x.1.1 - x.2)))) (searchsortedLeft c.times (new j)).succ =
        unstk (x.1.1 - x.2) (kk j).succ := by
      rw [hk]
      show padEnds _ (kk j).succ.castSucc.succ = _
      unfold padEnds
      rw [Fin.cons_succ, Fin.snoc_castSucc]
    rw [g1, g2, hc]
  · have g2 : unstk (stk (padEnds (unstk (x.1.1 - x.2)))) (searchsortedLeft c.times (new j)).succ =
        unstk (x.1.1 - x.2) (kk j).castSucc := by
      rw [hs, hk]
      have e2 : (Fin.succ 0 : Fin (n + 3)) = (Fin.castSucc 0 : Fin (n + 2)).succ := rfl
      rw [e2]
      show padEnds (unstk (x.1.1 - x.2)) (Fin.castSucc 0 : Fin (n + 2)).succ = _
      unfold padEnds
      rw [Fin.cons_succ, Fin.snoc_castSucc]
    rw [g2, hc, hc', zero_mulVec, zero_mulVec, zero_add, add_zero]

/-- C24: samples at new times from the first to the last conditioning time (both included): jointly, the states
returned at the conditioning and new times follow `q(u) p(s | u)`. -/
theorem C24_interior {k} (hK : Builds c.kernel k) (hj : c.kernel.jitter = 0) (hn : 0 < n)
    (hts : Monotone c.times) (ht0 : -10000000000 < c.times 0) (ht1 : c.times (Fin.last n) ≤ 10000000000)
    (h0 : ∀ j, c.times 0 ≤ new j) (h1 : ∀ j, new j ≤ c.times (Fin.last n))
    (hX : ∀ e e', c.sampleStateTrajectories new (unstk e) (unstk e') = .ok (X e e')) :
    IsPredictive (priorLaw c.kernel c.times new) c.q.law (sampledLaw X) := by
  obtain ⟨hc, hr, -⟩ := Builds.good hK
  obtain ⟨cs, cs', kk, -, hb, -, key⟩ := sampledLaw_interior hK hj hn hts ht0 ht1 h0 h1 hX
  have hp : IsProbabilityMeasure c.q.law := by rw [SSM.law_eq_gauss]; infer_instance
  rw [key]
  exact hb.predictive hc.statProc hts c.q.law

/-- C24, all new times within `±1e10`: the states at the conditioning and new times under the
predictive law with independent prior states at the times `∓1e10` (the law of `C23_with_ends`). -/
theorem C24_with_ends {k} (hK : Builds c.kernel k) (hj : c.kernel.jitter = 0) (hn : 0 < n)
    (hts : Monotone c.times) (ht0 : -10000000000 ≤ c.times 0) (ht1 : c.times (Fin.last n) ≤ 10000000000)
    (h0 : ∀ j, -10000000000 < new j) (h1 : ∀ j, new j ≤ 10000000000)
    (hX : ∀ e e', c.sampleStateTrajectories new (unstk e) (unstk e') = .ok (X e e')) :
    ∃ ν, IsPredictive
        (priorLaw c.kernel (Fin.cons (-10000000000) (Fin.snoc (α := fun _ => ℝ) c.times 10000000000)) new)
        (withEnds (gpLaw (fun _ => 0) (stateCov (c.kernel.stateTransitions 0) c.kernel.Pinf)
          ![-10000000000, 10000000000]) c.q.law) ν ∧
      sampledLaw X = ν.map (Prod.map dropEnds id) := by
  obtain ⟨hc, hr, -⟩ := Builds.good hK
  obtain ⟨cs, hcs, hlaw⟩ := sampledLaw_eq hK hj hn hX
  have hb := codeStats_bridges hc hr hj hts h0 h1 hcs
  have hp : IsProbabilityMeasure c.q.law := by rw [SSM.law_eq_gauss]; infer_instance
  have hg := gpLaw_isProb (fun _ => (0 : Vec d)) (stateCov (c.kernel.stateTransitions 0) c.kernel.Pinf)
    ![(-10000000000 : ℝ), 10000000000]
  have hw : IsProbabilityMeasure (withEnds (gpLaw (fun _ => 0) (stateCov (c.kernel.stateTransitions 0)
      c.kernel.Pinf) ![-10000000000, 10000000000]) c.q.law) :=
    Measure.isProbabilityMeasure_map measurable_asm.aemeasurable
  refine ⟨_, hb.predictive hc.statProc (augmentedTimes_mono hts ht0 ht1) _, ?_⟩
  rw [hlaw]
  exact sample_law_aug hc.statProc (augmentedTimes_mono hts ht0 ht1) hb c.q.law

/-- C24: the states at the conditioning times are a draw from `q`. -/
theorem C24_conditioning_law {k} (hK : Builds c.kernel k) (hj : c.kernel.jitter = 0) (hn : 0 < n)
    (hX : ∀ e e', c.sampleStateTrajectories new (unstk e) (unstk e') = .ok (X e e')) :
    (sampledLaw X).map Prod.fst = c.q.law := by
  obtain ⟨hc, hr, -⟩ := Builds.good hK
  obtain ⟨cs, hcs, hlaw⟩ := sampledLaw_eq hK hj hn hX
  have hg := gpLaw_isProb (fun _ => (0 : Vec d)) (stateCov (c.kernel.stateTransitions 0) c.kernel.Pinf)
    (Sum.elim c.times new)
  have hp : IsProbabilityMeasure (priorLaw c.kernel c.times new) :=
    Measure.isProbabilityMeasure_map measurable_atTimes.aemeasurable
  have hp : IsProbabilityMeasure c.q.law := by rw [SSM.law_eq_gauss]; infer_instance
  rw [hlaw, Measure.map_map measurable_fst]
  · exact measurePreserving_snd.map_eq
  · exact measurable_snd.prodMk ((measurable_snd.comp measurable_fst).sub
      (measurable_mulVec' _ (measurable_pad.comp ((measurable_fst.comp measurable_fst).sub measurable_snd))))

/-- C24, one new time, as stated: given the conditioning states, the sample at the new time `t`
(`t_k < t ≤ t_{k+1}`) is Gaussian with mean `D x_k + E x_{k+1}` and covariance `T`, independently of
everything else, where `[D, E]` and `T` are what `conditional_statistics` returns. -/
theorem C24_given_conditioning {k} (hK : Builds c.kernel k) (hj : c.kernel.jitter = 0) (hn : 0 < n)
    (hts : Monotone c.times) (ht0 : -10000000000 < c.times 0) (ht1 : c.times (Fin.last n) ≤ 10000000000)
    (h0 : ∀ j, c.times 0 ≤ new j) (h1 : ∀ j, new j ≤ c.times (Fin.last n))
    (hX : ∀ e e', c.sampleStateTrajectories new (unstk e) (unstk e') = .ok (X e e'))
    {P T} (hPT : conditionalStatistics approxInf new c.times c.kernel.trans = .ok (P, T))
    (j : Fin p) (i : Fin n) (hi0 : c.times i.castSucc < new j) (hi1 : new j ≤ c.times i.succ) :
    (sampledLaw X).map (fun x => (x.1, fun a : Fin d => x.2 (j, a))) =
      (c.q.law.prod (gaussLaw 0 (T j))).map fun x =>
        (x.1, P j *ᵥ Sum.elim (unstk x.1 i.castSucc) (unstk x.1 i.succ) + x.2) := by
  obtain ⟨hc, hr, -⟩ := Builds.good hK
  obtain ⟨cs, cs', kk, hcs, hb, hk, key⟩ := sampledLaw_interior hK hj hn hts ht0 ht1 h0 h1 hX
  obtain ⟨hk, hcj⟩ : searchsortedLeft c.times (new j) = (kk j).castSucc.succ ∧ cs' j = cs j :=
    (hk j).resolve_right fun e => absurd (hts (Fin.zero_le i.castSucc)) (not_le.2 (e ▸ hi0))
  have hst : P j = fromCols (cs' j).D (cs' j).E ∧ T j = (cs' j).T := by
    unfold conditionalStatistics at hPT
    rw [conditionalStatisticsAux_of hcs] at hPT
    simp only [bind, Except.bind, pure, Except.pure] at hPT
    cases hPT
    rw [hcj]
    exact ⟨rfl, rfl⟩
  have hkj : kk j = i := by
    have hlt := lt_searchsortedLeft hts (new j)
    rw [hk] at hlt
    have a1 := (hlt i.castSucc).2 hi0
    have a2 := mt (hlt i.succ).1 (not_lt.2 hi1)
    simp only [Fin.val_castSucc, Fin.val_succ] at a1 a2
    exact Fin.ext (by omega)
  have hp : IsProbabilityMeasure c.q.law := by rw [SSM.law_eq_gauss]; infer_instance
  rw [key, predLaw, Measure.map_map (by fun_prop) (measurable_predLaw kk cs')]
  have hR : (gaussLaw (0 : Fin p × Fin d → ℝ) (residCov (c.kernel.stateTransitions 0) c.kernel.Pinf c.times
      new kk cs')).map (fun w => w ∘ fun a : Fin d => (j, a)) = gaussLaw 0 (T j) := by
    rw [gaussLaw_comp (hb.resid_psd hc.statProc hts), hb.resid hc.statProc hts, hst.2]
    rfl
  rw [← hR]
  conv_rhs => rw [← Measure.map_id (μ := c.q.law)]
  rw [Measure.map_prod_map _ _ measurable_id (measurable_comp_idx _), Measure.map_map]
  · congr 1
    funext x
    refine Prod.ext rfl ?_
    funext a
    have e2 := congrFun (projMat_mulVec kk cs' x.1 j) a
    show (projMat kk cs' *ᵥ x.1) (j, a) + x.2 (j, a) =
      (P j *ᵥ Sum.elim (unstk x.1 i.castSucc) (unstk x.1 i.succ)) a + x.2 (j, a)
    rw [hst.1, fromCols_mulVec, Sum.elim_comp_inl, Sum.elim_comp_inr, ← hkj]
    exact congrArg (· + x.2 (j, a)) e2
  · refine measurable_fst.prodMk (Measurable.add (measurable_mulVec' _ ?_) measurable_snd)
    refine measurable_pi_lambda _ fun i => ?_
    cases i <;> simp only [Sum.elim_inl, Sum.elim_inr, unstk] <;> fun_prop
  · exact measurable_id.prodMap (measurable_comp_idx _)

/-- C24: for kernel expressions with noise throughout, sampling returns for all sorted conditioning
times and all new times, in any order and possibly repeated or equal to conditioning times. -/
theorem C24_succeeds {k} (hK : Builds c.kernel k) (hN : NoiseTag c.kernel true) (hj : c.kernel.jitter = 0)
    (hn : 0 < n) (hts : Monotone c.times) (h0 : ∀ j, -10000000000 < new j) (h1 : ∀ j, new j ≤ 10000000000) :
    ∃ X : (Ix (n + p) d → ℝ) → (Ix n d → ℝ) → (Fin p → Vec d) × (Fin (n + 1) → Vec d),
      ∀ e e', c.sampleStateTrajectories new (unstk e) (unstk e') = .ok (X e e') := by
  obtain ⟨hc, hr, -⟩ := Builds.good hK
  have hcs : ∀ j, ∃ cs, CodeStats approxInf c.times c.kernel.trans (new j) cs := by
    intro j
    obtain ⟨hl, hr⟩ := augmented_between hts (h0 j) (h1 j)
    have hp := (C27_process_covariance_pd hK hN (augmentedTimes approxInf c.times
      (searchsortedLeft c.times (new j)).castSucc) (sub_pos.2 hl)).2
    have hs := (C27_process_covariance_psd hK (new j) (sub_nonneg.2 hr)).2.1
    refine (C21_succeeds hp.posSemidef hs).1.2 ?_
    have hu : IsUnit (c.kernel.stateTransitions (new j) (augmentedTimes approxInf c.times
      (searchsortedLeft c.times (new j)).succ - new j)) := by rw [hc.time]; exact hc.isUnit _
    have := (Matrix.IsUnit.posDef_star_right_conjugate_iff hu).2 hp
    rw [star_eq_conjTranspose, conjTranspose_eq_transpose_of_trivial] at this
    exact PosDef.posSemidef_add hs this
  choose cs hcs using hcs
  have hmono : Monotone (jointTimes c.times new ∘ Tuple.sort (jointTimes c.times new)) := Tuple.monotone_sort _
  have hsP : ∃ sP, c.kernel.stateSpaceModel (jointTimes c.times new ∘ Tuple.sort (jointTimes c.times new)) =
      .ok sP := by
    have hN' := (NoiseTag.noisy hN).2
    refine stateSpaceModel_ok hc.pos (by omega) hmono (Or.inr ?_) fun k => ?_
    · rw [Stationary.initialCovariance, hj, jitterMatrix_zero, add_zero]; exact hN'.pd
    · rcases (sub_nonneg.2 (hmono (Fin.castSucc_lt_succ (i := k)).le)).lt_or_eq with h | h
      · exact Or.inr (C27_process_covariance_pd hK hN _ h).2
      · rw [← h]; exact Or.inl (C27_stationary hK hj _ le_rfl le_rfl).2.2.2.1
  obtain ⟨sP, hsP⟩ := hsP
  have : ∀ e e', ∃ r, c.sampleStateTrajectories new e e' = .ok r := by
    intro e e'
    unfold CondProcess.sampleStateTrajectories
    have hsP' : c.kernel.stateSpaceModel ((fun i => Fin.append c.times new (i.cast (by omega))) ∘
      Tuple.sort fun i : Fin (n + p + 1) => Fin.append c.times new (i.cast (by omega))) = .ok sP := hsP
    simp only [hsP', bind, Except.bind, SSM.sample_simulate (s := sP) (by omega : 0 < n + p),
      SSM.sample_simulate hn, conditionalStatistics, conditionalStatisticsAux_of hcs, pure, Except.pure]
    exact ⟨_, rfl⟩
  choose X hX using this
  exact ⟨fun e e' => X (unstk e) (unstk e'), fun e e' => hX _ _⟩

/-- C24: `sample_f` is the emission of the state samples plus the mean function. -/
theorem C24_sample_f {e e' r} (h : c.sampleStateTrajectories new e e' = .ok r) :
    c.sampleF new e e' = .ok fun j =>
      c.kernel.emission (new j) *ᵥ r.1 j + c.meanFunction (new j) := by
  unfold CondProcess.sampleF
  rw [h]
  simp only [bind, Except.bind, pure, Except.pure]
  congr 1
  funext j
  rw [add_comm]
  rfl

end sampling

/-! ## C45 -/

theorem combines_psd {K : Stationary o d} {k} (hK : Builds K k) {tm t tp : ℝ} (h1 : tm ≤ t) (h2 : t ≤ tp)
    {mm mp : Vec d} {Cm X Cp : Mat d d} (hS : (fromBlocks Cm Xᵀ X Cp).PosSemidef) {r}
    (h : CombinesBridge K tm t tp mm mp Cm X Cp r) : r.2.PosSemidef := by
  obtain ⟨c, hc, -, hr⟩ := h
  have hT := (C21_bridge (C27_process_covariance_psd hK _ (sub_nonneg.2 h1)).2.1
    (C27_process_covariance_psd hK _ (sub_nonneg.2 h2)).2.1 hc).1
  rw [hr, ← fromCols_fromBlocks]
  refine hT.add ?_
  have := hS.mul_mul_conjTranspose_same (fromCols c.D c.E)
  rwa [conjTranspose_eq_transpose_of_trivial] at this

/-- Predicted state covariances are positive semi-definite (any jitter). -/
theorem C45_state_psd {c : CondProcess n o d} {k} (hK : Builds c.kernel k) (hq : c.q.Nondegenerate)
    (hn : 0 < n) (hts : Monotone c.times) {new : Fin p → ℝ} (h0 : ∀ j, -10000000000 < new j)
    (h1 : ∀ j, new j ≤ 10000000000) {r} (h : c.predictState new = .ok r) (j : Fin p) :
    ((r j).2).PosSemidef := by
  have hd := (Builds.good hK).1.pos
  have hi := (C27_process_covariance_psd hK 0 (le_refl (0 : ℝ))).2.2
  have hsym : (c.q.Kd)ᵀ = c.q.Kd := isSymm_of_psd c.q.Kd_posSemidef
  obtain ⟨hint, hleft, hright⟩ := C22_predict_state hq hn hd hts h c.q.mus_isMeans c.q.Kd_isJointCov j
  have hdiag : ∀ i, (blk c.q.Kd i i).PosSemidef := fun i =>
    c.q.Kd_posSemidef.submatrix (fun a : Fin d => (i, a))
  rcases le_or_gt (new j) (c.times 0) with hl | hl
  · refine combines_psd hK (h0 j).le hl ?_ (hleft hl)
    rw [transpose_zero]
    exact posSemidef_blockdiag hi (hdiag 0)
  rcases le_or_gt (new j) (c.times (Fin.last n)) with hr | hr
  · obtain ⟨k, -, ha, hb⟩ := exists_interval hts hl hr
    refine combines_psd hK ha.le hb ?_ (hint k ha hb)
    have := c.q.Kd_posSemidef.submatrix (Sum.elim (fun a : Fin d => (k.castSucc, a)) fun a => (k.succ, a))
    convert this using 1
    ext i j
    cases i <;> cases j
    · rfl
    · exact congrFun (congrFun (blk_transpose_symm hsym k.succ k.castSucc) _) _
    · rfl
    · rfl
  · refine combines_psd hK hr.le (h1 j) ?_ (hright hr)
    rw [transpose_zero]
    exact posSemidef_blockdiag (hdiag _) hi

/-- C45: `predict_f` has mean `H μ + m(t)` and covariance `H S Hᵀ` (its diagonal without
`full_output_cov`), where `μ, S` is the predicted state; a Gaussian likelihood adds its variance to the
variance of `predict_f`, once, and leaves the mean. -/
theorem C45_formulas {c : CondProcess n o d} {new : Fin p → ℝ} {s} (h : c.predictState new = .ok s)
    (noise : ℝ) :
    (∃ f, c.predictF new = .ok f ∧ ∀ j,
      (f j).1 = c.kernel.emission (new j) *ᵥ (s j).1 + c.meanFunction (new j) ∧
      (f j).2 = c.kernel.emission (new j) * (s j).2 * (c.kernel.emission (new j))ᵀ) ∧
    (∃ f y, c.predictFDiag new = .ok f ∧ c.predictYGaussian noise new = .ok y ∧ ∀ j,
      (f j).1 = c.kernel.emission (new j) *ᵥ (s j).1 + c.meanFunction (new j) ∧
      (∀ i, (f j).2 i = (c.kernel.emission (new j) * (s j).2 * (c.kernel.emission (new j))ᵀ) i i) ∧
      (y j).1 = (f j).1 ∧ ∀ i, (y j).2 i = (f j).2 i + noise) := by
  have hp := fun j => C25_projection (fun j => c.kernel.emission (new j)) (fun q => (s q).1)
    (fun q => (s q).2) j
  constructor
  · refine ⟨_, by unfold CondProcess.predictF; rw [h]; rfl, fun j => ⟨?_, ?_⟩⟩
    · exact congrArg (· + c.meanFunction (new j)) (hp j).1
    · exact (hp j).2.1
  · have hf : ∃ f, c.predictFDiag new = .ok f ∧ f = fun j =>
        (projectStateToF (fun j => c.kernel.emission (new j)) (fun q => (s q).1) j + c.meanFunction (new j),
          projectStateCovarianceToFDiag (fun j => c.kernel.emission (new j)) (fun q => (s q).2) j) :=
      ⟨_, by unfold CondProcess.predictFDiag; rw [h]; rfl, rfl⟩
    obtain ⟨f, hf, hfe⟩ := hf
    have hy : ∃ y, c.predictYGaussian noise new = .ok y ∧ y = fun j => ((f j).1, fun i => (f j).2 i + noise) :=
      ⟨_, by unfold CondProcess.predictYGaussian; rw [hf]; rfl, rfl⟩
    obtain ⟨y, hy, hye⟩ := hy
    refine ⟨f, y, hf, hy, fun j => ⟨?_, fun i => ?_, by rw [hye], fun i => by rw [hye]⟩⟩
    · rw [hfe]; exact congrArg (· + c.meanFunction (new j)) (hp j).1
    · rw [hfe]; exact congrFun (hp j).2.2 i

/-- C45 in law: if the state at `t` follows the predicted law then `f = H x + m(t)` follows the law
`predict_f` returns, and adding independent observation noise gives the law `predict_y` returns. -/
theorem C45_laws {c : CondProcess n o d} {k} (hK : Builds c.kernel k) (hq : c.q.Nondegenerate)
    (hn : 0 < n) (hts : Monotone c.times) {new : Fin p → ℝ} (h0 : ∀ j, -10000000000 < new j)
    (h1 : ∀ j, new j ≤ 10000000000) {s} (h : c.predictState new = .ok s) {noise : ℝ} (hnoise : 0 ≤ noise) :
    ∃ f y, c.predictF new = .ok f ∧ c.predictYGaussian noise new = .ok y ∧ ∀ j,
      (gaussLaw (s j).1 (s j).2).map (fun x => c.kernel.emission (new j) *ᵥ x + c.meanFunction (new j)) =
        gaussLaw (f j).1 (f j).2 ∧
      ∀ i : Fin o, ((gaussLaw (f j).1 (f j).2).prod (gaussianReal 0 noise.toNNReal)).map
          (fun x => x.1 i + x.2) = gaussianReal ((y j).1 i) ((y j).2 i).toNNReal := by
  obtain ⟨⟨f, hf, hfv⟩, ⟨f', y, hf', hy, hyv⟩⟩ := C45_formulas h noise
  refine ⟨f, y, hf, hy, fun j => ?_⟩
  have hps := C45_state_psd hK hq hn hts h0 h1 h j
  have hfp : ((f j).2).PosSemidef := by
    rw [(hfv j).2]
    have := hps.mul_mul_conjTranspose_same (c.kernel.emission (new j))
    rwa [conjTranspose_eq_transpose_of_trivial] at this
  refine ⟨?_, fun i => ?_⟩
  · have := gaussLaw_map_affine hps (s j).1 (c.meanFunction (new j)) (c.kernel.emission (new j))
    rw [(hfv j).1, (hfv j).2, add_comm _ (c.meanFunction (new j)), ← this]
    congr 1
    funext x
    rw [add_comm]
  · have e1 : (gaussLaw (f j).1 (f j).2).map (fun x => x i) = gaussianReal ((f j).1 i) ((f j).2 i i).toNNReal :=
      gaussLaw_eval hfp _ i
    have e2 : ((gaussLaw (f j).1 (f j).2).prod (gaussianReal 0 noise.toNNReal)).map (fun x => x.1 i + x.2) =
        (gaussianReal ((f j).1 i) ((f j).2 i i).toNNReal).conv (gaussianReal 0 noise.toNNReal) := by
      rw [← e1, Measure.conv]
      conv_rhs => rw [← Measure.map_id (μ := gaussianReal 0 noise.toNNReal)]
      rw [Measure.map_prod_map _ _ (by fun_prop) measurable_id, Measure.map_map (by fun_prop) (by fun_prop)]
      rfl
    rw [e2, gaussianReal_conv_gaussianReal, add_zero]
    have e3 : (y j).1 i = (f j).1 i := by rw [(hyv j).2.2.1, (hyv j).1, (hfv j).1]
    have e4 : (y j).2 i = (f j).2 i i + noise := by rw [(hyv j).2.2.2, (hyv j).2.1, (hfv j).2]
    rw [e3, e4]
    congr 1
    rw [Real.toNNReal_add hfp.diag_nonneg hnoise]

/-! ## Findings -/

/-- Finding: for a `Constant` kernel with positive jitter, the prediction beyond the last conditioning
point is *half* the posterior mean there, however close the query is (the prior state at `1e10` counts as
much as the posterior state at the last point). -/
theorem C22_constant_extrapolation_halves {c : CondProcess n o 1} {v ε : ℝ}
    (hK : constant o v ε = .ok c.kernel) (hε : 0 < ε) (hq : c.q.Nondegenerate) (hn : 0 < n)
    (hts : Monotone c.times) {new : Fin p → ℝ} {r μ} (h : c.predictState new = .ok r)
    (hμ : c.q.marginalMeans = .ok μ) (j : Fin p) (hj : c.times (Fin.last n) < new j) :
    (r j).1 = (1 / 2 : ℝ) • μ (Fin.last n) := by
  rw [SSM.marginalMeans_eq hn] at hμ
  cases hμ
  obtain ⟨-, -, hright⟩ := C22_predict_state hq hn one_pos hts h c.q.mus_isMeans c.q.Kd_isJointCov j
  obtain ⟨cs, hcs, h1, -⟩ := hright hj
  obtain ⟨-, -, hke⟩ := kernelInit_ok hK
  have hA : ∀ t δ, c.kernel.stateTransitions t δ = 1 := by
    intro t δ; rw [hke]
    ext a b; fin_cases a; fin_cases b; rfl
  have hQ : ∀ t δ, c.kernel.transitionNoise t δ = ε • (1 : Mat 1 1) := by
    intro t δ; rw [hke]
    show 0 + jitterMatrix 1 ε = _
    rw [zero_add, jitterMatrix_eq]
  have hm : c.kernel.initialMean = 0 := by rw [hke]; rfl
  simp only [hA, hQ] at hcs
  have hsym : (ε • (1 : Mat 1 1))ᵀ = ε • (1 : Mat 1 1) := by rw [transpose_smul, transpose_one]
  obtain ⟨hS, hE, hD, -⟩ := condStats_ok hsym hsym hcs
  simp only [Matrix.one_mul, transpose_one, Matrix.mul_one] at hE hD hS
  have e2 : cs.E * (ε • (1 : Mat 1 1) + ε • 1) = ε • 1 := by
    rw [hE, Matrix.mul_assoc, nonsing_inv_mul _ ((isUnit_iff_isUnit_det _).1 hS.isUnit), Matrix.mul_one]
  have e3 : cs.E = (1 / 2 : ℝ) • 1 := by
    rw [← add_smul, Matrix.mul_smul, Matrix.mul_one] at e2
    have := congrArg ((ε + ε)⁻¹ • ·) e2
    simp only [smul_smul] at this
    rw [inv_mul_cancel₀ (by positivity), one_smul] at this
    rw [this]
    congr 1
    field_simp
    norm_num
  have e4 : cs.D = (1 / 2 : ℝ) • 1 := by
    rw [hD, e3, ← one_smul ℝ (1 : Mat 1 1), smul_smul, ← sub_smul]; norm_num
  rw [h1, hm, mulVec_zero, add_zero, e4, smul_mulVec, one_mulVec]

/-- Finding: with jitter zero the same prediction raises (the innovation covariance is zero). -/
theorem C22_constant_no_jitter_raises {c : CondProcess n o 1} {v : ℝ} (hK : constant o v 0 = .ok c.kernel)
    (hq : c.q.Nondegenerate) (hn : 0 < n) (hts : Monotone c.times) {new : Fin (p + 1) → ℝ} :
    ∀ r, c.predictState new ≠ .ok r := by
  intro r h
  obtain ⟨cs, hcs, -⟩ := predictState_ok hq hn one_pos h
  obtain ⟨-, -, hke⟩ := kernelInit_ok hK
  have hQ : ∀ t δ, c.kernel.transitionNoise t δ = 0 := by
    intro t δ; rw [hke]
    show 0 + jitterMatrix 1 0 = _
    rw [zero_add, jitterMatrix_zero]
  have h0 := hcs 0
  unfold CodeStats Stationary.trans at h0
  simp only [hQ] at h0
  obtain ⟨hS, -⟩ := condStats_ok transpose_zero transpose_zero h0
  simp only [Matrix.mul_zero, Matrix.zero_mul, add_zero] at hS
  have := hS.diag_pos (i := (0 : Fin 1))
  simp at this

/-- Finding: a kernel's `state_mean` is dropped between the conditioning points. For an exponential
(`Matern12`) kernel with state mean `m ≠ 0` and a posterior whose means are all `m` (e.g. the prior
itself), the prediction half way between two conditioning points is `2A/(1+A²) m` with
`A = exp(-δ/ℓ) < 1`, not `m`. -/
theorem C22_state_mean_dropped {c : CondProcess n o 1} {l v : ℝ} {K : Stationary o 1} {m : Vec 1}
    (hl : 0 < l) (hv : 0 < v) (hK : matern12 o l v 0 = .ok K) (hc : c.kernel = K.setStateMean m) (hm : m ≠ 0)
    (hq : c.q.Nondegenerate) (hn : 0 < n) (hts : StrictMono c.times) {new : Fin p → ℝ} {r μ}
    (h : c.predictState new = .ok r) (hμ : c.q.marginalMeans = .ok μ) (hprior : ∀ i, μ i = m)
    (j : Fin p) (i : Fin n) (hmid : new j = (c.times i.castSucc + c.times i.succ) / 2) :
    (r j).1 ≠ m := by
  rw [SSM.marginalMeans_eq hn] at hμ
  cases hμ
  have hlt : c.times i.castSucc < c.times i.succ := hts Fin.castSucc_lt_succ
  obtain ⟨hint, -⟩ := C22_predict_state hq hn one_pos hts.monotone h c.q.mus_isMeans c.q.Kd_isJointCov j
  obtain ⟨cs, hcs, h1, -⟩ := hint i (by rw [hmid]; linarith) (by rw [hmid]; linarith)
  obtain ⟨-, -, hke⟩ := kernelInit_ok hK
  set δ := (c.times i.succ - c.times i.castSucc) / 2 with hδ
  have hδp : 0 < δ := by rw [hδ]; linarith
  have d1 : new j - c.times i.castSucc = δ := by rw [hmid, hδ]; ring
  have d2 : c.times i.succ - new j = δ := by rw [hmid, hδ]; ring
  set a := Real.exp (-δ / l) with ha
  have ha0 : 0 < a := Real.exp_pos _
  have ha1 : a < 1 := by
    rw [ha, Real.exp_lt_one_iff]
    exact div_neg_of_neg_of_pos (by linarith) hl
  have hA : ∀ t, c.kernel.stateTransitions t δ = a • (1 : Mat 1 1) := by
    intro t; rw [hc, hke]
    show !![Real.exp (-δ / l)] = _
    rw [← ha]
    ext x y; fin_cases x; fin_cases y; simp
  have hQ : ∀ t, c.kernel.transitionNoise t δ = (v * (1 - a ^ 2)) • (1 : Mat 1 1) := by
    intro t; rw [hc, hke]
    show statTransitionNoise (fun _ δ => !![Real.exp (-δ / l)]) !![v] 0 t δ = _
    unfold statTransitionNoise
    simp only [← ha, jitterMatrix_zero, add_zero]
    clear_value a
    ext x y; fin_cases x; fin_cases y
    simp [Matrix.mul_apply, Matrix.vecMul, Matrix.vecHead]
    ring
  rw [d1, d2, hA, hA, hQ, hQ] at hcs
  have hsym : ∀ x : ℝ, (x • (1 : Mat 1 1))ᵀ = x • (1 : Mat 1 1) := fun x => by
    rw [transpose_smul, transpose_one]
  obtain ⟨hS, hE, hD, -⟩ := condStats_ok (hsym _) (hsym _) hcs
  have g := gain_mul hS hE
  have hb : 1 - a ^ 2 ≠ 0 := by nlinarith
  simp only [hsym, Matrix.smul_mul, Matrix.mul_smul, Matrix.one_mul, Matrix.mul_one, smul_smul, ← add_smul] at g hD
  have e00 := congrFun (congrFun g 0) 0
  simp only [Matrix.smul_apply, Matrix.one_apply_eq, smul_eq_mul, mul_one] at e00
  have hE0 : cs.E 0 0 * (1 + a ^ 2) = a := by
    have : (v * (1 - a ^ 2)) * (cs.E 0 0 * (1 + a ^ 2)) = (v * (1 - a ^ 2)) * a := by linear_combination e00
    exact mul_left_cancel₀ (mul_ne_zero hv.ne' hb) this
  have hD0 : cs.D 0 0 = a - a * a * cs.E 0 0 := by
    have := congrFun (congrFun hD 0) 0
    simp only [Matrix.sub_apply, Matrix.smul_apply, Matrix.one_apply_eq, smul_eq_mul, mul_one] at this
    rw [this]
  intro hbad
  have hm0 : m 0 ≠ 0 := by
    intro h0; apply hm; funext x; fin_cases x; exact h0
  have hv1 := congrFun h1 0
  rw [hbad, hprior, hprior] at hv1
  simp only [Pi.add_apply, mulVec, dotProduct, Finset.univ_unique, Fin.default_eq_zero, Finset.sum_singleton] at hv1
  have hsum : (cs.D 0 0 + cs.E 0 0 - 1) * m 0 = 0 := by
    have : m 0 = cs.D 0 0 * m 0 + cs.E 0 0 * m 0 := hv1
    linear_combination -this
  rcases mul_eq_zero.1 hsum with h0 | h0
  · rw [hD0] at h0
    have : (a - 1) ^ 2 = 0 := by linear_combination (-(1 + a ^ 2)) * h0 + (1 - a ^ 2) * hE0
    have : a = 1 := by nlinarith [pow_eq_zero_iff (two_ne_zero) |>.1 this]
    linarith
  · exact hm0 h0

/-! ## Non-vacuity -/

/-- A two-dimensional posterior chain over `Matern32`, three conditioning times, four queries (one of
them a conditioning time, two outside the range): prediction and sampling succeed, and the hypotheses of
the theorems above hold. -/
example : ∃ (c : CondProcess 2 1 2) (k : ℝ → ℝ → Mat 1 1), Builds c.kernel k ∧ NoiseTag c.kernel true ∧
    c.kernel.jitter = 0 ∧ c.q.Nondegenerate ∧ Monotone c.times ∧ c.times 0 = 0 ∧ c.times 2 = 3 ∧
    (∃ r, c.predictState ![-1, 1, 2, 7] = .ok r) ∧
    ∃ X : (Ix (2 + 4) 2 → ℝ) → (Ix 2 2 → ℝ) → (Fin 4 → Vec 2) × (Fin 3 → Vec 2),
      ∀ e e', c.sampleStateTrajectories ![7, 2, 1, -1] (unstk e) (unstk e') = .ok (X e e') := by
  obtain ⟨K, hK⟩ := (C28_constructors (o := 1) 2 3 1 1 1 0).2.1.2 (by norm_num)
  have hb : Builds K _ := .leaf (.matern32 hK)
  have hN : NoiseTag K true := .matern32 hK
  have hj : K.jitter = 0 := by rw [(kernelInit_ok hK).2.2]; rfl
  have hmono : Monotone (![0, 1, 3] : Fin 3 → ℝ) := by
    refine Fin.monotone_iff_le_succ.2 fun i => ?_
    fin_cases i <;> simp
  let c : CondProcess 2 1 2 := ⟨exSSM, K, ![0, 1, 3], fun t => ![t]⟩
  refine ⟨c, _, hb, hN, hj, exSSM_nondegenerate, hmono, rfl, rfl, ?_, ?_⟩
  · refine C22_succeeds (c := c) hb hN exSSM_nondegenerate (by norm_num) hmono ?_ ?_ <;>
      intro j <;> fin_cases j <;> norm_num
  · refine C24_succeeds (c := c) hb hN hj (by norm_num) hmono ?_ ?_ <;>
      intro j <;> fin_cases j <;> norm_num

/-- The constant-kernel finding is not vacuous. -/
example : ∃ (c : CondProcess 1 1 1) (ε : ℝ), constant 1 2 ε = .ok c.kernel ∧ 0 < ε ∧
    c.q.Nondegenerate ∧ Monotone c.times ∧ c.times (Fin.last 1) < 2 := by
  refine ⟨⟨⟨0, 1, fun _ => 1, 0, fun _ => 1⟩, _, ![0, 1], 0⟩, 1, by
    unfold constant kernelInit; rw [if_neg (by simp), if_neg (by simp)], one_pos, ?_, ?_, ?_⟩
  · intro b
    refine Fin.cases ⟨?_, ?_⟩ (fun k => ⟨?_, ?_⟩) b
    · intro i j h; exact absurd h (by fin_cases i; fin_cases j; simp)
    · intro i; simp [SSM.concatChol]
    · intro i j h; exact absurd h (by fin_cases i; fin_cases j; simp)
    · intro i; simp [SSM.concatChol]
  · refine Fin.monotone_iff_le_succ.2 fun i => ?_
    fin_cases i; simp
  · show (1 : ℝ) < 2
    norm_num

end MF
