import Verif.Lemmas.Decay
import Verif.Lemmas.LinPredict
import Verif.Lemmas.Predict

/-! # Extrapolation: the code's prediction against the exact predictive -/

namespace MF
open Matrix Spec MeasureTheory ProbabilityTheory Filter Asymptotics
variable {n d o p : ℕ}

theorem fromCols_fromBlocks' (D E A B C F : Mat d d) : fromCols D E * fromBlocks A B C F * (fromCols D E)ᵀ =
    D * A * Dᵀ + D * B * Eᵀ + E * C * Dᵀ + E * F * Eᵀ := by
  rw [fromCols_mul_fromBlocks, transpose_fromCols, fromCols_mul_fromRows]
  simp only [Matrix.add_mul]
  abel

namespace StatProc
variable {A : ℝ → Mat d d} {P : Mat d d}

/-- Collect finitely many `O`s into one constant. -/
theorem collect {κ : ℝ} {v : Cfg → Vec d} {M : Cfg → Mat d d}
    (hv : ∀ i, (fun x => v x i) =O[(⊤ : Filter Cfg)] fun x => Real.exp (-(κ * x.1.2)))
    (hM : EO (⊤ : Filter Cfg) M fun x => Real.exp (-(κ * x.1.2))) :
    ∃ B : ℝ, 0 ≤ B ∧ ∀ x : Cfg, (∀ i, |v x i| ≤ B * Real.exp (-(κ * x.1.2))) ∧
      ∀ i j, |M x i j| ≤ B * Real.exp (-(κ * x.1.2)) := by
  choose c hc using fun i => isBigO_top.1 (hv i)
  choose c' hc' using fun i j => isBigO_top.1 (hM i j)
  refine ⟨∑ i, |c i| + ∑ i, ∑ j, |c' i j|, by positivity, fun x => ⟨fun i => ?_, fun i j => ?_⟩⟩
  · have := hc i x
    rw [Real.norm_eq_abs, Real.norm_eq_abs, abs_of_pos (Real.exp_pos _)] at this
    refine this.trans (mul_le_mul_of_nonneg_right ?_ (Real.exp_pos _).le)
    have h1 := Finset.single_le_sum (f := fun i => |c i|) (fun i _ => abs_nonneg _) (Finset.mem_univ i)
    have h2 : 0 ≤ ∑ i, ∑ j, |c' i j| := by positivity
    have h3 := le_abs_self (c i)
    linarith
  · have := hc' i j x
    rw [Real.norm_eq_abs, Real.norm_eq_abs, abs_of_pos (Real.exp_pos _)] at this
    refine this.trans (mul_le_mul_of_nonneg_right ?_ (Real.exp_pos _).le)
    have h1 := Finset.single_le_sum (f := fun j => |c' i j|) (fun i _ => abs_nonneg _) (Finset.mem_univ j)
    have h1' := Finset.single_le_sum (f := fun i => ∑ j, |c' i j|) (fun i _ => by positivity) (Finset.mem_univ i)
    have h2 : 0 ≤ ∑ i, |c i| := by positivity
    have h3 := le_abs_self (c' i j)
    linarith

theorem right_final (h : StatProc A P) (hs : (P - A 1 * P * (A 1)ᵀ).PosDef) (μ : Vec d) (Sg : Mat d d) :
    ∃ κ : ℝ, 0 < κ ∧ ∃ B : ℝ, 0 ≤ B ∧ ∀ x : Cfg, ∀ D E T : Mat d d, E = gainE A P x.1.1 x.1.2 →
      D = A x.1.1 - E * A x.1.2 * A x.1.1 → T = Qn A P x.1.1 - E * A x.1.2 * Qn A P x.1.1 →
      (∀ a, |(D *ᵥ μ - A x.1.1 *ᵥ μ) a| ≤ B * Real.exp (-(κ * x.1.2))) ∧
      ∀ a b, |((T + (D * Sg * Dᵀ + E * P * Eᵀ)) - (Qn A P x.1.1 + A x.1.1 * Sg * (A x.1.1)ᵀ)) a b| ≤
        B * Real.exp (-(κ * x.1.2)) := by
  obtain ⟨κ, hκ, hE, hD, hT, hA⟩ := h.right_rates hs
  have hD1 : EO (⊤ : Filter Cfg) (fun x => A x.1.1 - gainE A P x.1.1 x.1.2 * A x.1.2 * A x.1.1) 1 :=
    ((EO_one_of hκ hD).add hA).congr fun x => by abel
  have hcov := hT.add (((((hD.mul_one (EO.const Sg)).mul_one hD1.transpose).add
    (((hA.mul_one (EO.const Sg)).one_mul hD.transpose)))).add
    ((hE.mul_one (EO.const P)).mul_one (EO_one_of hκ hE).transpose))
  obtain ⟨B, hB, hb⟩ := collect (fun i => hD.mulVec μ i) hcov
  refine ⟨κ, hκ, B, hB, fun x D E T e1 e2 e3 => ?_⟩
  subst e1
  obtain ⟨b1, b2⟩ := hb x
  simp only [← e2, ← e3] at b1 b2
  refine ⟨fun a => ?_, fun a b => ?_⟩
  · rw [← sub_mulVec]; exact b1 a
  · refine le_trans (le_of_eq ?_) (b2 a b)
    congr 1
    refine congrFun (congrFun ?_ a) b
    rw [transpose_sub]
    simp only [Matrix.sub_mul, Matrix.mul_sub]
    abel

theorem left_final (h : StatProc A P) (hs : (P - A 1 * P * (A 1)ᵀ).PosDef) (μ : Vec d) (Sg : Mat d d) :
    ∃ κ : ℝ, 0 < κ ∧ ∃ B : ℝ, 0 ≤ B ∧ ∀ x : Cfg, ∀ D E T : Mat d d, E = gainE A P x.1.2 x.1.1 →
      D = A x.1.2 - E * A x.1.1 * A x.1.2 → T = Qn A P x.1.2 - E * A x.1.1 * Qn A P x.1.2 →
      (∀ a, |(E *ᵥ μ - (P * (A x.1.1)ᵀ * P⁻¹) *ᵥ μ) a| ≤ B * Real.exp (-(κ * x.1.2))) ∧
      ∀ a b, |((T + (D * P * Dᵀ + E * Sg * Eᵀ)) - ((P - P * (A x.1.1)ᵀ * P⁻¹ * A x.1.1 * P) +
          (P * (A x.1.1)ᵀ * P⁻¹) * Sg * (P * (A x.1.1)ᵀ * P⁻¹)ᵀ)) a b| ≤
        B * Real.exp (-(κ * x.1.2)) := by
  obtain ⟨κ, hκ, hD, hE, hT, hE1⟩ := h.left_rates hs
  have hE2 : EO (⊤ : Filter Cfg) (fun x => gainE A P x.1.2 x.1.1) 1 :=
    ((EO_one_of hκ hE).add hE1).congr fun x => by abel
  have hcov := hT.add (((((hE.mul_one (EO.const Sg)).mul_one hE2.transpose).add
    (((hE1.mul_one (EO.const Sg)).one_mul hE.transpose)))).add
    ((hD.mul_one (EO.const P)).mul_one (EO_one_of hκ hD).transpose))
  obtain ⟨B, hB, hb⟩ := collect (fun i => hE.mulVec μ i) hcov
  refine ⟨κ, hκ, B, hB, fun x D E T e1 e2 e3 => ?_⟩
  subst e1
  obtain ⟨b1, b2⟩ := hb x
  simp only [← e2, ← e3] at b1 b2
  refine ⟨fun a => ?_, fun a b => ?_⟩
  · rw [← sub_mulVec]; exact b1 a
  · refine le_trans (le_of_eq ?_) (b2 a b)
    congr 1
    refine congrFun (congrFun ?_ a) b
    rw [transpose_sub]
    simp only [Matrix.sub_mul, Matrix.mul_sub]
    abel

end StatProc

/-- The code's statistics at any query time between the ends. -/
theorem codeStats_exists {K : Stationary o d} (h : Core K) (hr : Regular K) (hj : K.jitter = 0)
    (hs : ∀ δ, 0 < δ → (K.Pinf - K.stateTransitions 0 δ * K.Pinf * (K.stateTransitions 0 δ)ᵀ).PosDef)
    {inf : ℝ} {ts : Fin (n + 1) → ℝ} (hts : Monotone ts) {t : ℝ} (h0 : -inf < t) (h1 : t ≤ inf) :
    ∃ cs tm tp, CodeStats inf ts K.trans t cs ∧
      tm = augmentedTimes inf ts (searchsortedLeft ts t).castSucc ∧
      tp = augmentedTimes inf ts (searchsortedLeft ts t).succ ∧ tm < t ∧ t ≤ tp ∧
      cs.E = StatProc.gainE (K.stateTransitions 0) K.Pinf (t - tm) (tp - t) ∧
      cs.D = K.stateTransitions 0 (t - tm) - cs.E * K.stateTransitions 0 (tp - t) * K.stateTransitions 0 (t - tm) ∧
      cs.T = StatProc.Qn (K.stateTransitions 0) K.Pinf (t - tm) -
        cs.E * K.stateTransitions 0 (tp - t) * StatProc.Qn (K.stateTransitions 0) K.Pinf (t - tm) := by
  obtain ⟨hl, hu⟩ := augmented_between hts h0 h1
  set tm := augmentedTimes inf ts (searchsortedLeft ts t).castSucc with htm
  set tp := augmentedTimes inf ts (searchsortedLeft ts t).succ with htp
  have hsym : ∀ δ, (K.Pinf - K.stateTransitions 0 δ * K.Pinf * (K.stateTransitions 0 δ)ᵀ)ᵀ =
      K.Pinf - K.stateTransitions 0 δ * K.Pinf * (K.stateTransitions 0 δ)ᵀ := fun δ => by
    rw [transpose_sub, transpose_mul, transpose_mul, transpose_transpose, h.statProc.symm,
      Matrix.mul_assoc]
  have hS := h.statProc.innov (sub_nonneg.2 hl.le) (sub_nonneg.2 hu)
  have hSd := hs (tp - t + (t - tm)) (by linarith)
  rw [← hS] at hSd
  obtain ⟨cs, hcs⟩ := condStats_succeeds (A_mt := K.stateTransitions 0 (t - tm)) (hsym _) hSd
  have hok := condStats_ok (hsym _) (hsym _) hcs
  refine ⟨cs, tm, tp, ?_, rfl, rfl, hl, hu, hok.2.1, hok.2.2.1, hok.2.2.2⟩
  unfold CodeStats
  rw [← htm, ← htp, trans_eq h hr hj _ (sub_nonneg.2 hl.le), trans_eq h hr hj _ (sub_nonneg.2 hu)]
  exact hcs

end MF
