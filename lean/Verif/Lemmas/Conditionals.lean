import Verif.Model.Posterior
import Verif.Lemmas.GPBridge
import Verif.Lemmas.KernelTree
import Verif.Lemmas.Transformations

/-! # From the code of `conditionals.py` / `posterior.py` to bridges on a grid -/

namespace MF
open Matrix Spec MeasureTheory ProbabilityTheory
variable {n d o p : ℕ}

theorem lt_searchsortedLeft {ts : Fin n → ℝ} (hts : Monotone ts) (v : ℝ) (j : Fin n) :
    (j : ℕ) < (searchsortedLeft ts v : ℕ) ↔ ts j < v := by
  classical
  show (j : ℕ) < (Finset.univ.filter fun j => ts j < v).card ↔ _
  constructor
  · intro h
    by_contra hc
    have hsub : (Finset.univ.filter fun j => ts j < v) ⊆ Finset.Iio j := by
      intro i hi
      simp only [Finset.mem_filter, Finset.mem_univ, true_and] at hi
      rw [Finset.mem_Iio]
      by_contra hij
      exact hc (lt_of_le_of_lt (hts (not_lt.1 hij)) hi)
    have := Finset.card_le_card hsub
    rw [Fin.card_Iio] at this
    convert absurd h (not_lt.2 this) using 1
  · intro h
    have hsub : Finset.Iic j ⊆ (Finset.univ.filter fun j => ts j < v) := by
      intro i hi
      simp only [Finset.mem_filter, Finset.mem_univ, true_and]
      exact lt_of_le_of_lt (hts (Finset.mem_Iic.1 hi)) h
    have := Finset.card_le_card hsub
    rw [Fin.card_Iic] at this
    convert Nat.lt_of_succ_le this using 1

theorem augmentedTimes_zero (inf : ℝ) (ts : Fin (n + 1) → ℝ) : augmentedTimes inf ts 0 = -inf := rfl

theorem augmentedTimes_mid (inf : ℝ) (ts : Fin (n + 1) → ℝ) (k : Fin (n + 1)) :
    augmentedTimes inf ts k.castSucc.succ = ts k := by
  simp [augmentedTimes]

theorem augmentedTimes_last (inf : ℝ) (ts : Fin (n + 1) → ℝ) :
    augmentedTimes inf ts (Fin.last (n + 2)) = inf := by
  rw [← Fin.succ_last]
  simp [augmentedTimes]

theorem augmentedTimes_mono {inf : ℝ} {ts : Fin (n + 1) → ℝ} (hts : Monotone ts) (h0 : -inf ≤ ts 0)
    (h1 : ts (Fin.last n) ≤ inf) : Monotone (augmentedTimes inf ts) := by
  refine Fin.monotone_iff_le_succ.2 fun k => ?_
  refine Fin.cases ?_ (fun k => ?_) k
  · have := augmentedTimes_mid inf ts 0
    rw [Fin.castSucc_zero, augmentedTimes_zero]
    rw [Fin.castSucc_zero] at this
    rw [this]; exact h0
  · refine Fin.lastCases ?_ (fun k => ?_) k
    · have h2 := augmentedTimes_mid inf ts (Fin.last n)
      have h3 := augmentedTimes_last inf ts
      have e1 : (Fin.last n).succ.castSucc = (Fin.last n).castSucc.succ := rfl
      have e2 : (Fin.last n).succ.succ = Fin.last (n + 2) := rfl
      rw [e1, e2, h3, h2]
      exact h1
    · rw [← Fin.succ_castSucc, augmentedTimes_mid, Fin.succ_castSucc, augmentedTimes_mid]
      exact hts Fin.castSucc_lt_succ.le

/-- The two neighbours used by the code surround the query. -/
theorem augmented_between {inf : ℝ} {ts : Fin (n + 1) → ℝ} (hts : Monotone ts) {t : ℝ}
    (h0 : -inf < t) (h1 : t ≤ inf) :
    augmentedTimes inf ts (searchsortedLeft ts t).castSucc < t ∧
      t ≤ augmentedTimes inf ts (searchsortedLeft ts t).succ := by
  have hlt := lt_searchsortedLeft hts t
  generalize searchsortedLeft ts t = i at hlt
  constructor
  · refine Fin.cases ?_ (fun i => ?_) i (motive := fun i => (∀ j : Fin (n + 1), (j : ℕ) < (i : ℕ) ↔ ts j < t) → augmentedTimes inf ts i.castSucc < t) hlt
    · intro _; exact h0
    · intro hlt
      rw [← Fin.succ_castSucc, augmentedTimes_mid]
      exact (hlt i).1 (by simp)
  · refine Fin.lastCases ?_ (fun i => ?_) i (motive := fun i => (∀ j : Fin (n + 1), (j : ℕ) < (i : ℕ) ↔ ts j < t) → t ≤ augmentedTimes inf ts i.succ) hlt
    · intro _; rw [Fin.succ_last, augmentedTimes_last]; exact h1
    · intro hlt
      rw [augmentedTimes_mid]
      exact not_lt.1 fun hc => absurd ((hlt i).2 hc) (by simp)

/-- The bridge statistics the code computes at one query. -/
def CodeStats (inf : ℝ) (ts : Fin (n + 1) → ℝ) (kernel : TransFn d) (t : ℝ) (c : CondStats d) : Prop :=
  condStatsFromTransitions
    (kernel (augmentedTimes inf ts (searchsortedLeft ts t).castSucc)
      (t - augmentedTimes inf ts (searchsortedLeft ts t).castSucc)).1
    (kernel (augmentedTimes inf ts (searchsortedLeft ts t).castSucc)
      (t - augmentedTimes inf ts (searchsortedLeft ts t).castSucc)).2
    (kernel t (augmentedTimes inf ts (searchsortedLeft ts t).succ - t)).1
    (kernel t (augmentedTimes inf ts (searchsortedLeft ts t).succ - t)).2 = .ok c

theorem conditionalStatisticsAux_ok {inf : ℝ} {new : Fin p → ℝ} {ts : Fin (n + 1) → ℝ}
    {kernel : TransFn d} {r} (h : conditionalStatisticsAux inf new ts kernel = .ok r) :
    ∃ c : Fin p → CondStats d, (∀ j, CodeStats inf ts kernel (new j) (c j)) ∧
      r = (fun j => fromCols (c j).D (c j).E, fun j => (c j).T, fun j => searchsortedLeft ts (new j)) := by
  unfold conditionalStatisticsAux at h
  simp only [bind, Except.bind, pure, Except.pure] at h
  split at h
  · cases h
  rename_i c hc
  cases h
  exact ⟨c, fun j => (seqFin_ok_iff.1 hc) j, rfl⟩

theorem conditionalStatisticsAux_of {inf : ℝ} {new : Fin p → ℝ} {ts : Fin (n + 1) → ℝ}
    {kernel : TransFn d} {c : Fin p → CondStats d} (h : ∀ j, CodeStats inf ts kernel (new j) (c j)) :
    conditionalStatisticsAux inf new ts kernel = .ok (fun j => fromCols (c j).D (c j).E,
      fun j => (c j).T, fun j => searchsortedLeft ts (new j)) := by
  unfold conditionalStatisticsAux
  simp only
  rw [seqFin_ok h]
  rfl

theorem pairwiseMarginals_eq {q : SSM n d} (hq : q.Nondegenerate) (hn : 0 < n) (hd : 0 < d)
    (m0 : Vec d) (P0 : Mat d d) : ∃ mu : Fin (n + 3) → Vec d, ∃ C : Fin (n + 3) → Mat d d,
      ∃ S : Fin (n + 2) → Mat d d,
      pairwiseMarginals q m0 P0 = .ok (fun k => Sum.elim (mu k.castSucc) (mu k.succ),
        fun k => fromBlocks (C k.castSucc) (S k)ᵀ (S k) (C k.succ)) ∧
      mu = Fin.cons m0 (Fin.snoc (α := fun _ => Vec d) q.mus m0) ∧
      C = Fin.cons P0 (Fin.snoc (α := fun _ => Mat d d) (fun k => blk q.Kd k k) P0) ∧
      S = Fin.cons 0 (Fin.snoc (α := fun _ => Mat d d)
        (fun k : Fin n => blk q.Kd k.succ k.castSucc) 0) := by
  refine ⟨_, _, _, ?_, rfl, rfl, rfl⟩
  unfold pairwiseMarginals SSM.marginals SSM.covarianceBlocks
  rw [SSM.marginalMeans_eq hn, SSM.marginalCovariances_eq hq hn hd]
  simp only [bind, Except.bind, pure, Except.pure]
  have : q.subsequentCovariances (fun b => blk q.Kd b b) = fun k : Fin n => blk q.Kd k.succ k.castSucc := by
    funext k
    rw [(SSM.Kd_isJointCov (s := q)).cross k _ le_rfl]
    rfl
  rw [this]

/-! ### the kernel's process -/

theorem Core.statProc {K : Stationary o d} (h : Core K) : StatProc (K.stateTransitions 0) K.Pinf where
  zero := h.zero
  add s t _ _ := h.add s t
  psd := h.psd
  contr := h.contr

theorem trans_eq {K : Stationary o d} (h : Core K) (hr : Regular K) (hj : K.jitter = 0) (t : ℝ) {δ : ℝ}
    (hδ : 0 ≤ δ) : K.trans t δ = (K.stateTransitions 0 δ,
      K.Pinf - K.stateTransitions 0 δ * K.Pinf * (K.stateTransitions 0 δ)ᵀ) := by
  unfold Stationary.trans
  rw [h.time, hr.noise t δ hδ, hj, jitterMatrix_zero, add_zero]

/-- What the code computes are the bridge statistics of the process on the augmented grid. -/
theorem codeStats_bridges {K : Stationary o d} (h : Core K) (hr : Regular K) (hj : K.jitter = 0)
    {inf : ℝ} {ts : Fin (n + 1) → ℝ} (hts : Monotone ts) {new : Fin p → ℝ}
    (h0 : ∀ j, -inf < new j) (h1 : ∀ j, new j ≤ inf) {c : Fin p → CondStats d}
    (hc : ∀ j, CodeStats inf ts K.trans (new j) (c j)) :
    Bridges (K.stateTransitions 0) K.Pinf (augmentedTimes inf ts) new
      (fun j => searchsortedLeft ts (new j)) c := by
  have hbt := fun j => augmented_between hts (h0 j) (h1 j)
  have hsym : ∀ δ, (K.Pinf - K.stateTransitions 0 δ * K.Pinf * (K.stateTransitions 0 δ)ᵀ)ᵀ =
      K.Pinf - K.stateTransitions 0 δ * K.Pinf * (K.stateTransitions 0 δ)ᵀ := fun δ => by
    rw [transpose_sub, transpose_mul, transpose_mul, transpose_transpose, h.statProc.symm,
      Matrix.mul_assoc]
  have hstats := fun j => by
    have := hc j
    unfold CodeStats at this
    rw [trans_eq h hr hj _ (sub_nonneg.2 (hbt j).1.le), trans_eq h hr hj _ (sub_nonneg.2 (hbt j).2)] at this
    exact condStats_ok (hsym _) (hsym _) this
  have hbr := fun j => innovation_law (h.contr _ (sub_nonneg.2 (hbt j).1.le))
    (h.contr _ (sub_nonneg.2 (hbt j).2)) (hstats j).1 (hstats j).2.1 (hstats j).2.2.2
  exact {
    left := fun j => (hbt j).1.le
    right := fun j => (hbt j).2
    symm := fun j => isSymm_of_psd (hbr j).1
    gain := fun j => gain_mul (hstats j).1 (hstats j).2.1
    D := fun j => (hstats j).2.2.1
    T := fun j => (hstats j).2.2.2 }

theorem codeStats_psd {K : Stationary o d} (h : Core K) (hr : Regular K) (hj : K.jitter = 0)
    {inf : ℝ} {ts : Fin (n + 1) → ℝ} (hts : Monotone ts) {new : Fin p → ℝ}
    (h0 : ∀ j, -inf < new j) (h1 : ∀ j, new j ≤ inf) {c : Fin p → CondStats d}
    (hc : ∀ j, CodeStats inf ts K.trans (new j) (c j)) (j : Fin p) : (c j).T.PosSemidef := by
  have hbt := augmented_between hts (h0 j) (h1 j)
  have hsym : ∀ δ, (K.Pinf - K.stateTransitions 0 δ * K.Pinf * (K.stateTransitions 0 δ)ᵀ)ᵀ =
      K.Pinf - K.stateTransitions 0 δ * K.Pinf * (K.stateTransitions 0 δ)ᵀ := fun δ => by
    rw [transpose_sub, transpose_mul, transpose_mul, transpose_transpose, h.statProc.symm,
      Matrix.mul_assoc]
  have hstats := hc j
  unfold CodeStats at hstats
  rw [trans_eq h hr hj _ (sub_nonneg.2 hbt.1.le), trans_eq h hr hj _ (sub_nonneg.2 hbt.2)] at hstats
  have hs := condStats_ok (hsym _) (hsym _) hstats
  exact (innovation_law (h.contr _ (sub_nonneg.2 hbt.1.le)) (h.contr _ (sub_nonneg.2 hbt.2)) hs.1 hs.2.1 hs.2.2.2).1

theorem gpLaw_comp {A : ℝ → Mat d d} {P : Mat d d} (h : StatProc A P) {T T' : Type} [Fintype T]
    [DecidableEq T] [Fintype T'] [DecidableEq T'] (ts : T → ℝ) (f : T' → T) :
    (gpLaw (fun _ => 0) (stateCov A P) ts).map (fun x => fun i : T' × Fin d => x (f i.1, i.2)) =
      gpLaw (fun _ => 0) (stateCov A P) (ts ∘ f) := by
  unfold gpLaw
  rw [show (fun x : T × Fin d → ℝ => fun i : T' × Fin d => x (f i.1, i.2)) =
    fun x => x ∘ fun i : T' × Fin d => (f i.1, i.2) from rfl, gaussLaw_comp (h.psd_any ts)]
  rfl

/-- The law of the trajectory of the kernel's state space model. -/
theorem kernel_ssm_law {K : Stationary o d} (h : Core K) (hr : Regular K) (hj : K.jitter = 0)
    {ts : Fin (n + 1) → ℝ} {s : SSM n d} (hs : K.stateSpaceModel ts = .ok s) :
    s.law = gpLaw (fun _ => 0) (stateCov (K.stateTransitions 0) K.Pinf) ts := by
  have hp := h.isProcess hr hj
  obtain ⟨hmono, -, hA, -, hP, hQ⟩ := hp.ssm hs
  rw [SSM.law_eq_gauss, hp.mus hs]
  unfold gpLaw
  congr 1
  ext i j
  exact congrFun (congrFun (h.statProc.ssm_blocks hmono hA hP hQ i.1 j.1) i.2) j.2

end MF
