import Verif.Model.MeanFunction
import Verif.Spec.MeanFunction
import Verif.Lemmas.KernelTree
import Verif.Lemmas.Conditionals
import Verif.Lemmas.Kalman
import Verif.Lemmas.Expm
import Mathlib.MeasureTheory.Integral.IntervalIntegral.FundThmCalculus
import Mathlib.MeasureTheory.Integral.IntervalIntegral.IntegrationByParts
import Mathlib.MeasureTheory.Integral.DivergenceTheorem

/-! # Mean functions -/

namespace MF
open Matrix Spec

variable {o d n N : ℕ}

theorem solve_bidiag (M : LowerBTD n d) (B : Fin n → Mat d d) (hD : M.diag = fun _ => 1)
    (hS : M.subD = fun k => -B k) (r : Fin (n + 1) → Vec d) :
    IsMeans (r 0) B (fun k => r k.succ) (M.solve r) := by
  let s : SSM n d := ⟨r 0, 1, B, fun k => r k.succ, fun _ => 1⟩
  have e : M.solve r = s.mus := by
    apply stk_injective
    rw [stk_solve, SSM.stk_mus]
    have h1 : tril (1 : Mat d d) = 1 := LowerTri.tril_eq fun i j h => one_apply_ne h.ne
    have h2 : s.concatOffsets = r := by
      funext b; exact Fin.cases rfl (fun k => rfl) b
    rw [h2, BTD.unflat_toDense_low, hD, hS]
    simp only [Bool.false_eq_true, if_false, h1]
    rfl
  rw [e]
  exact SSM.mus_isMeans (s := s)

theorem actionSolve_ok {K : Stationary o d} {A : ℝ → Mat d d} (hA : ∀ t δ, K.stateTransitions t δ = A δ)
    (h0 : A 0 = 1) (hadd : ∀ s t, A (s + t) = A s * A t) {ts : Fin (n + 1) → ℝ} (hts : Monotone ts)
    (r : Fin (n + 1) → Vec d) :
    actionSolve K ts r =
      .ok (Fin.cons 0 fun k => ∑ j, if j ≤ k then A (ts k - ts j) *ᵥ r j else 0) := by
  classical
  let B : Fin n → Mat d d := fun k => A (ts k.succ - ts k.castSucc)
  have hsol : ∀ M : LowerBTD n d, M.diag = (fun _ => 1) → M.subD = (fun k => -B k) →
      M.solve r = fun k => ∑ j, if j ≤ k then A (ts k - ts j) *ᵥ r j else 0 := by
    intro M h1 h2
    refine SSM.IsMeans.unique (solve_bidiag M B h1 h2 r) ⟨?_, fun k => ?_⟩
    · beta_reduce
      rw [Finset.sum_eq_single 0]
      · simp [h0]
      · intro j _ hj
        rw [if_neg]; simpa using hj
      · simp
    · beta_reduce
      rw [mulVec_sum]
      have hs : ∀ j : Fin (n + 1), (if j ≤ k.succ then A (ts k.succ - ts j) *ᵥ r j else 0) =
          (B k *ᵥ if j ≤ k.castSucc then A (ts k.castSucc - ts j) *ᵥ r j else 0) +
            if j = k.succ then r k.succ else 0 := by
        intro j
        by_cases hj : j ≤ k.castSucc
        · have hj2 : j ≤ k.succ := hj.trans k.castSucc_lt_succ.le
          have hj3 : j ≠ k.succ := (hj.trans_lt k.castSucc_lt_succ).ne
          rw [if_pos hj2, if_pos hj, if_neg hj3, add_zero, mulVec_mulVec, ← hadd]
          congr 2; ring
        · by_cases hj2 : j = k.succ
          · subst hj2
            rw [if_pos le_rfl, if_neg hj, if_pos rfl]
            simp [h0]
          · rw [if_neg, if_neg hj, if_neg hj2]
            · simp
            · intro hle
              rcases hle.lt_or_eq with h | h
              · exact hj (Fin.le_castSucc_iff.2 h)
              · exact hj2 h
      rw [Finset.sum_congr rfl fun j _ => hs j, Finset.sum_add_distrib,
        Finset.sum_ite_eq' Finset.univ k.succ, if_pos (Finset.mem_univ _)]
  unfold actionSolve
  rcases Nat.eq_zero_or_pos n with rfl | hn
  · simp only [zero_add, if_true, bind, Except.bind, pure, Except.pure, BTD.init,
      Option.isSome_none, Bool.false_eq_true, false_and, if_false]
    rw [hsol _ rfl (funext fun k => k.elim0)]
  · rw [toDeltaTime_of_mono hts]
    simp only [bind, Except.bind, pure, Except.pure, BTD.init, Option.isSome_some]
    rw [if_neg (by omega), if_neg (by omega)]
    simp only
    rw [hsol]
    · rfl
    · simp only [hA]; rfl

/-- Looking up the last action before `t` gives the superposition of the actions before `t`. -/
theorem lookup {A : ℝ → Mat d d} (hadd : ∀ s t, A (s + t) = A s * A t) {ts : Fin (n + 1) → ℝ}
    (hts : Monotone ts) (r : Fin (n + 1) → Vec d) (t c : ℝ) :
    A (t - (Fin.cons c ts : Fin (n + 2) → ℝ) (searchsortedLeft ts t)) *ᵥ
      (Fin.cons 0 fun k => ∑ j, if j ≤ k then A (ts k - ts j) *ᵥ r j else 0 : Fin (n + 2) → Vec d)
        (searchsortedLeft ts t) =
    open Classical in ∑ k, if ts k < t then A (t - ts k) *ᵥ r k else 0 := by
  classical
  have hlt := lt_searchsortedLeft hts t
  generalize searchsortedLeft ts t = i at hlt ⊢
  refine Fin.cases ?_ (fun k => ?_) i (motive := fun i => (∀ j : Fin (n + 1), (j : ℕ) < (i : ℕ) ↔ ts j < t) →
    A (t - (Fin.cons c ts : Fin (n + 2) → ℝ) i) *ᵥ
      (Fin.cons 0 fun k => ∑ j, if j ≤ k then A (ts k - ts j) *ᵥ r j else 0 : Fin (n + 2) → Vec d) i = _) hlt
  · intro h
    simp only [Fin.cons_zero, mulVec_zero]
    rw [Finset.sum_eq_zero]
    intro j _
    rw [if_neg]
    rw [← h]; simp
  · intro h
    simp only [Fin.cons_succ, mulVec_sum]
    refine Finset.sum_congr rfl fun j _ => ?_
    have h1 : j ≤ k ↔ ts j < t := by rw [← h, Fin.le_def, Fin.val_succ]; omega
    by_cases hj : j ≤ k
    · rw [if_pos hj, if_pos (h1.1 hj), mulVec_mulVec, ← hadd]
      congr 2; ring
    · rw [if_neg hj, if_neg (fun h => hj (h1.2 h)), mulVec_zero]

/-- The same look-up for a sequence of levels gives the value of the last action before `t`. -/
theorem lookup_level {ts : Fin (n + 1) → ℝ} (hts : Monotone ts) (v : Fin (n + 1) → Vec d) (t : ℝ) :
    (Fin.cons 0 v : Fin (n + 2) → Vec d) (searchsortedLeft ts t) = stepInput ts v t := by
  classical
  have hlt := lt_searchsortedLeft hts t
  unfold stepInput
  generalize searchsortedLeft ts t = i at hlt ⊢
  refine Fin.cases ?_ (fun k => ?_) i (motive := fun i => (∀ j : Fin (n + 1), (j : ℕ) < (i : ℕ) ↔ ts j < t) →
      (Fin.cons 0 v : Fin (n + 2) → Vec d) i = _) hlt
  · intro h
    rw [Finset.sum_eq_zero]; · rfl
    intro j _
    rw [if_neg]
    rintro ⟨h1, -⟩
    rw [← h] at h1; simp at h1
  · intro h
    rw [Finset.sum_eq_single k]
    · rw [if_pos]; · rfl
      refine ⟨(h k).1 (by simp), fun j hj => ?_⟩
      rw [← not_lt, ← h]
      rw [Fin.lt_def] at hj; simp; omega
    · intro j _ hj
      rw [if_neg]
      rintro ⟨h1, h2⟩
      rw [← h] at h1
      rcases lt_or_gt_of_ne hj with h3 | h3
      · exact absurd ((h k).1 (by simp)) (not_lt.2 (h2 k h3))
      · rw [Fin.lt_def] at h3; simp at h1; omega
    · simp

theorem telescope {V : Type*} [AddCommGroup V] {m : ℕ} (w : Fin (m + 1) → V) (i : Fin (m + 1)) :
    (∑ k : Fin m, if (k : ℕ) < (i : ℕ) then w k.succ - w k.castSucc else 0) = w i - w 0 := by
  induction i using Fin.induction with
  | zero => simp
  | succ i ih =>
    have : ∀ k : Fin m, (if (k : ℕ) < (i.succ : ℕ) then w k.succ - w k.castSucc else 0) =
        (if (k : ℕ) < (i.castSucc : ℕ) then w k.succ - w k.castSucc else 0) +
          if k = i then w i.succ - w i.castSucc else 0 := by
      intro k
      by_cases h : k = i
      · subst h; simp
      · have h2 : (k : ℕ) ≠ i := fun e => h (Fin.ext e)
        simp only [h, if_false, add_zero, Fin.val_succ, Fin.val_castSucc]
        by_cases h3 : (k : ℕ) < i
        · rw [if_pos (by omega), if_pos h3]
        · rw [if_neg (by omega), if_neg h3]
    rw [Finset.sum_congr rfl fun k _ => this k, Finset.sum_add_distrib, ih]
    simp

/-- Step inputs are superpositions of single steps by the increments. -/
theorem stepInput_eq_sum {ts : Fin (n + 1) → ℝ} (hts : Monotone ts) (v : Fin (n + 1) → Vec d) (t : ℝ) :
    stepInput ts v t = open Classical in ∑ k : Fin (n + 1), if ts k < t then
      (Fin.cons 0 v : Fin (n + 2) → Vec d) k.succ - (Fin.cons 0 v : Fin (n + 2) → Vec d) k.castSucc
      else 0 := by
  classical
  rw [← lookup_level hts]
  have hlt := lt_searchsortedLeft hts t
  generalize searchsortedLeft ts t = i at hlt ⊢
  have := telescope (Fin.cons 0 v : Fin (n + 2) → Vec d) i
  rw [Fin.cons_zero, sub_zero] at this
  rw [← this]
  refine Finset.sum_congr rfl fun k _ => ?_
  simp only [hlt]

/-- Response to a single step of height `v` at time `c`. -/
noncomputable def stepUnit (A : ℝ → Mat d d) (w : Vec d) (c t : ℝ) : Vec d := (A (max (t - c) 0) - 1) *ᵥ w

theorem stepUnit_eq {A : ℝ → Mat d d} (h0 : A 0 = 1) (w : Vec d) (c t : ℝ) :
    stepUnit A w c t = open Classical in if c < t then (A (t - c) - 1) *ᵥ w else 0 := by
  classical
  unfold stepUnit
  split
  · rename_i h; rw [max_eq_left (by linarith)]
  · rename_i h; rw [max_eq_right (by linarith), h0, sub_self, zero_mulVec]

theorem Spec.SolvesSDE.continuous {F : Mat d d} {A : ℝ → Mat d d} (h : SolvesSDE F A) : Continuous A :=
  continuous_matrix fun i j => continuous_iff_continuousAt.2 fun t => (h.deriv t i j).continuousAt

theorem stepUnit_continuous {F : Mat d d} {A : ℝ → Mat d d} (h : SolvesSDE F A) (w : Vec d) (c : ℝ) :
    Continuous (stepUnit A w c) := by
  unfold stepUnit
  refine Continuous.matrix_mulVec (Continuous.sub ?_ continuous_const) continuous_const
  exact h.continuous.comp (by fun_prop)

theorem stepUnit_deriv {F : Mat d d} {A : ℝ → Mat d d} (h : SolvesSDE F A) (w : Vec d) {c t : ℝ}
    (hc : t ≠ c) (i : Fin d) :
    HasDerivAt (fun s => stepUnit A w c s i)
      ((F *ᵥ stepUnit A w c t + open Classical in if c < t then F *ᵥ w else 0) i) t := by
  classical
  rw [stepUnit_eq h.zero]
  simp only [stepUnit_eq h.zero]
  rcases lt_or_gt_of_ne hc with hlt | hgt
  · rw [if_neg (not_lt.2 hlt.le), if_neg (not_lt.2 hlt.le)]
    simp only [mulVec_zero, add_zero, Pi.zero_apply]
    refine (hasDerivAt_const t (0 : ℝ)).congr_of_eventuallyEq ?_
    filter_upwards [Iio_mem_nhds hlt] with s hs
    rw [if_neg (not_lt.2 (le_of_lt hs))]; rfl
  · rw [if_pos hgt, if_pos hgt]
    have e : F *ᵥ (A (t - c) - 1) *ᵥ w + F *ᵥ w = (F * A (t - c)) *ᵥ w := by
      rw [mulVec_mulVec, ← add_mulVec, Matrix.mul_sub, Matrix.mul_one, sub_add_cancel]
    rw [e]
    have h1 : HasDerivAt (fun s => ∑ j, (A (s - c) i j - (1 : Mat d d) i j) * w j)
        (∑ j, (F * A (t - c)) i j * w j) t := by
      refine HasDerivAt.fun_sum fun j _ => HasDerivAt.mul_const ?_ _
      have := (h.deriv (t - c) i j).comp_sub_const t c
      exact this.sub_const _
    refine h1.congr_of_eventuallyEq ?_
    filter_upwards [Ioi_mem_nhds hgt] with s hs
    rw [if_pos (show c < s from hs)]; rfl

/-- The response of a system with invertible feedback matrix, as a superposition. -/
theorem isStepResponse_sum {F : Mat d d} {A : ℝ → Mat d d} (h : SolvesSDE F A) (hF : IsUnit F.det)
    {ts : Fin (n + 1) → ℝ} (hts : Monotone ts) (u : Fin (n + 1) → Vec d) :
    IsStepResponse F ts u fun t => ∑ k : Fin (n + 1), stepUnit A (F⁻¹ *ᵥ
      ((Fin.cons 0 u : Fin (n + 2) → Vec d) k.succ - (Fin.cons 0 u : Fin (n + 2) → Vec d) k.castSucc))
      (ts k) t where
  continuous := continuous_finset_sum _ fun k _ => stepUnit_continuous h _ _
  rest := ⟨ts 0, fun t ht => Finset.sum_eq_zero fun k _ => by
    rw [stepUnit_eq h.zero, if_neg]
    exact not_lt.2 (ht.trans (hts (Fin.zero_le k)))⟩
  deriv t ht i := by
    classical
    have e : F *ᵥ (∑ k : Fin (n + 1), stepUnit A (F⁻¹ *ᵥ
        ((Fin.cons 0 u : Fin (n + 2) → Vec d) k.succ - (Fin.cons 0 u : Fin (n + 2) → Vec d) k.castSucc))
        (ts k) t) + stepInput ts u t = ∑ k : Fin (n + 1), (F *ᵥ stepUnit A (F⁻¹ *ᵥ
        ((Fin.cons 0 u : Fin (n + 2) → Vec d) k.succ - (Fin.cons 0 u : Fin (n + 2) → Vec d) k.castSucc))
        (ts k) t + if ts k < t then F *ᵥ (F⁻¹ *ᵥ
        ((Fin.cons 0 u : Fin (n + 2) → Vec d) k.succ - (Fin.cons 0 u : Fin (n + 2) → Vec d) k.castSucc))
        else 0) := by
      rw [Finset.sum_add_distrib, mulVec_sum, stepInput_eq_sum hts]
      simp only [mulVec_mulVec, mul_nonsing_inv _ hF, one_mulVec]
    rw [e, Finset.sum_apply]
    simp only [Finset.sum_apply]
    exact HasDerivAt.fun_sum fun k _ => stepUnit_deriv h _ (ht k) i

/-- The step response is unique. -/
theorem Spec.IsStepResponse.unique {F : Mat d d} {ts : Fin n → ℝ} {u : Fin n → Vec d} {x y : ℝ → Vec d}
    (hx : IsStepResponse F ts u x) (hy : IsStepResponse F ts u y) : x = y := by
  obtain ⟨a, ha⟩ := hx.rest
  obtain ⟨b, hb⟩ := hy.rest
  have hE := solvesSDE_exp F
  generalize (fun t : ℝ => NormedSpace.exp (t • F)) = E at hE
  have hneg : ∀ s i j, HasDerivAt (fun r => E (-r) i j) (-(E (-s) * F) i j) s := by
    intro s i j
    have h1 := hE.deriv (-s) i j
    have h2 := HasDerivAt.scomp s h1 (hasDerivAt_neg s)
    rw [hE.comm_F] at h2
    simpa [Function.comp_def] using h2
  let z : ℝ → Vec d := fun t => E (-t) *ᵥ (x t - y t)
  have hzc : Continuous z :=
    Continuous.matrix_mulVec (hE.continuous.comp continuous_neg) (hx.continuous.sub hy.continuous)
  have hzd : ∀ i t, (∀ k, t ≠ ts k) → HasDerivAt (fun s => z s i) 0 t := by
    intro i t ht
    have h1 : HasDerivAt (fun s => ∑ j, E (-s) i j * (x s j - y s j))
        (∑ j, (-(E (-t) * F) i j * (x t j - y t j) + E (-t) i j * ((F *ᵥ x t + stepInput ts u t) j -
          (F *ᵥ y t + stepInput ts u t) j))) t := by
      refine HasDerivAt.fun_sum fun j _ => (hneg t i j).mul ?_
      exact (hx.deriv t ht j).sub (hy.deriv t ht j)
    refine h1.congr_deriv ?_
    have e : ∀ j, (F *ᵥ x t + stepInput ts u t) j - (F *ᵥ y t + stepInput ts u t) j =
        (F *ᵥ (x t - y t)) j := by
      intro j; rw [mulVec_sub]; simp
    simp only [e]
    rw [Finset.sum_add_distrib]
    have e2 : (∑ j, E (-t) i j * (F *ᵥ (x t - y t)) j) = ((E (-t) * F) *ᵥ (x t - y t)) i := by
      rw [← mulVec_mulVec]; rfl
    rw [e2]
    simp only [neg_mul, Finset.sum_neg_distrib]
    rw [neg_add_eq_zero]; rfl
  have hz0 : ∀ t ≤ min a b, z t = 0 := by
    intro t ht
    show E (-t) *ᵥ (x t - y t) = 0
    rw [ha t (ht.trans (min_le_left _ _)), hb t (ht.trans (min_le_right _ _)), sub_zero, mulVec_zero]
  have hz : ∀ t, z t = 0 := by
    intro t
    rcases le_total t (min a b) with h | h
    · exact hz0 t h
    · funext i
      have := MeasureTheory.integral_eq_of_hasDerivAt_off_countable_of_le (fun s => z s i) (fun _ => 0) h
        (s := Set.range ts) (Set.countable_range ts)
        ((continuous_apply i).comp hzc).continuousOn
        (fun s hs => hzd i s fun k hk => hs.2 ⟨k, hk.symm⟩)
        (by simp)
      simp only [intervalIntegral.integral_zero, hz0 _ le_rfl, Pi.zero_apply, sub_zero] at this
      exact this.symm
  funext t
  have h1 : E t *ᵥ z t = x t - y t := by
    show E t *ᵥ (E (-t) *ᵥ (x t - y t)) = _
    rw [mulVec_mulVec, ← hE.add, add_neg_cancel, hE.zero, one_mulVec]
  rw [hz, mulVec_zero] at h1
  exact (sub_eq_zero.1 h1.symm)

end MF
