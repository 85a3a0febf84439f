import Verif.Lemmas.KernelLaw

/-! # C44: time differences are checked -/

namespace MF

/-- C44: `to_delta_time` succeeds exactly for non-decreasing times and then returns the consecutive
differences, which sum to last minus first; otherwise it raises. (Equal times are accepted, although the
documentation says "strictly increasing".) -/
theorem C44_to_delta_time {n : ℕ} (ts : Fin (n + 1) → ℝ) :
    ((∃ δ, toDeltaTime ts = .ok δ) ↔ ∀ i j, i ≤ j → ts i ≤ ts j) ∧
    (∀ δ, toDeltaTime ts = .ok δ →
      (∀ k : Fin n, δ k = ts k.succ - ts k.castSucc) ∧ (∀ k, 0 ≤ δ k) ∧
      ∑ k, δ k = ts (Fin.last n) - ts 0) ∧
    ((∃ i j, i ≤ j ∧ ts j < ts i) → toDeltaTime ts = .error .invalidArgument) := by
  have hiff : (∃ δ, toDeltaTime ts = .ok δ) ↔ Monotone ts := by
    constructor
    · rintro ⟨δ, h⟩
      obtain ⟨rfl, h0⟩ := toDeltaTime_ok h
      exact Fin.monotone_iff_le_succ.2 fun k => sub_nonneg.1 (h0 k)
    · intro h; exact ⟨_, toDeltaTime_of_mono h⟩
  refine ⟨hiff.trans ⟨fun h i j hij => h hij, fun h i j hij => h i j hij⟩, fun δ h => ?_, ?_⟩
  · obtain ⟨rfl, h0⟩ := toDeltaTime_ok h
    refine ⟨fun _ => rfl, h0, ?_⟩
    clear h h0 hiff
    induction n with
    | zero => simp
    | succ n ih =>
      rw [Fin.sum_univ_succ]
      have := ih (fun k => ts k.succ)
      simp only [Fin.succ_castSucc, Fin.succ_last] at this ⊢
      rw [this]; simp
  · rintro ⟨i, j, hij, hlt⟩
    cases h : toDeltaTime ts with
    | ok δ => exact absurd (hiff.1 ⟨δ, h⟩ hij) (not_le.2 hlt)
    | error e =>
      unfold toDeltaTime at h
      simp only at h
      split_ifs at h
      cases h; rfl

/-- Non-vacuity: accepted and rejected inputs exist, with repeated times accepted. -/
example : (∃ δ, toDeltaTime (n := 2) ![0, 1, 1] = .ok δ) ∧
    toDeltaTime (n := 2) ![0, 2, 1] = .error .invalidArgument := by
  constructor
  · refine (C44_to_delta_time (n := 2) ![0, 1, 1]).1.2 fun i j h => ?_
    fin_cases i <;> fin_cases j <;> simp at h ⊢
  · exact (C44_to_delta_time (n := 2) ![0, 2, 1]).2.2 ⟨1, 2, by decide, by simp⟩

end MF
