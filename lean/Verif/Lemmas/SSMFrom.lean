import Verif.Model.StateSpaceModel
import Verif.Lemmas.Cholesky

/-! # `cholesky_or_zero` -/

namespace MF
open Matrix
variable {n d : ℕ}

theorem forall_zero_iff (c : Mat d d) : (∀ i j, c i j = 0) ↔ c = 0 := by
  constructor
  · intro h; ext i j; exact h i j
  · rintro rfl i j; rfl

theorem choleskyOrZero_eq_ne {c : Mat d d} (hc : c ≠ 0) : choleskyOrZero c = tfCholesky c := by
  have h : ¬ ∀ i j, c i j = 0 := (forall_zero_iff c).not.2 hc
  simp only [choleskyOrZero, h, if_false, add_zero]
  cases tfCholesky c <;> rfl

theorem choleskyOrZero_eq_zero : choleskyOrZero (0 : Mat d d) = .ok 0 := by
  have h : ∀ i j, (0 : Mat d d) i j = 0 := fun _ _ => rfl
  obtain ⟨L, hL, -⟩ := tfCholesky_posDef (S := (1 : Mat d d)) PosDef.one
  simp only [choleskyOrZero, h, implies_true, if_true, zero_add, hL]
  rfl

theorem choleskyOrZero_ok (hd : 0 < d) {c : Mat d d} (h : c = 0 ∨ c.PosDef) :
    ∃ L, choleskyOrZero c = .ok L ∧ ((c = 0 ∧ L = 0) ∨ (c.PosDef ∧ IsCholesky c L)) := by
  rcases h with rfl | h
  · exact ⟨0, choleskyOrZero_eq_zero, Or.inl ⟨rfl, rfl⟩⟩
  · have hne : c ≠ 0 := by
      rintro rfl
      exact lt_irrefl _ (h.diag_pos (i := (⟨0, hd⟩ : Fin d)))
    obtain ⟨L, hL, hL2⟩ := tfCholesky_posDef h
    exact ⟨L, by rw [choleskyOrZero_eq_ne hne, hL], Or.inr ⟨h, hL2⟩⟩

theorem choleskyOrZero_error {c : Mat d d} (hc : cᵀ = c) (h : ¬ (c = 0 ∨ c.PosDef)) :
    choleskyOrZero c = .error .invalidArgument := by
  rw [not_or] at h
  rw [choleskyOrZero_eq_ne h.1, tfCholesky_error_iff, symLower_eq hc]
  exact h.2

theorem choleskyOrZeros_ok (hd : 0 < d) {q : Fin n → Mat d d} (h : ∀ k, q k = 0 ∨ (q k).PosDef) :
    ∃ L, choleskyOrZeros q = .ok L ∧
      ∀ k, ((q k = 0 ∧ L k = 0) ∨ ((q k).PosDef ∧ IsCholesky (q k) (L k))) := by
  induction n with
  | zero => exact ⟨Fin.elim0, rfl, fun k => k.elim0⟩
  | succ n ih =>
    obtain ⟨c, hc, hc'⟩ := choleskyOrZero_ok hd (h 0)
    obtain ⟨cs, hcs, hcs'⟩ := ih (q := Fin.tail q) fun k => h k.succ
    refine ⟨Fin.cons c cs, ?_, fun k => ?_⟩
    · rw [choleskyOrZeros, hc, hcs]; rfl
    · refine Fin.cases ?_ (fun k => ?_) k
      · exact hc'
      · exact hcs' k

theorem choleskyOrZeros_error (hd : 0 < d) {q : Fin n → Mat d d} (hq : ∀ k, (q k)ᵀ = q k)
    (h : ∃ k, ¬ (q k = 0 ∨ (q k).PosDef)) : choleskyOrZeros q = .error .invalidArgument := by
  induction n with
  | zero => obtain ⟨k, -⟩ := h; exact k.elim0
  | succ n ih =>
    by_cases h0 : q 0 = 0 ∨ (q 0).PosDef
    · obtain ⟨c, hc, -⟩ := choleskyOrZero_ok hd h0
      have : choleskyOrZeros (Fin.tail q) = .error .invalidArgument := by
        refine ih (fun k => hq k.succ) ?_
        obtain ⟨k, hk⟩ := h
        revert hk
        refine Fin.cases (fun hk => absurd h0 hk) (fun k hk => ⟨k, hk⟩) k
      rw [choleskyOrZeros, hc, this]; rfl
    · rw [choleskyOrZeros, choleskyOrZero_error (hq 0) h0]; rfl

end MF
