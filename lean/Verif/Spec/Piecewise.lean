import Verif.Model.TF
import Mathlib.Data.Fintype.Card

/-! # Specification: intervals between change points -/

namespace MF.Spec

/-- The interval (0 before the first change point, `m` after the last) in which `t` falls: the number
of change points not after `t`. -/
noncomputable def segment {m : ℕ} (cp : Fin m → ℝ) (t : ℝ) : Fin (m + 1) :=
  open Classical in
  ⟨(Finset.univ.filter fun j => cp j ≤ t).card,
    Nat.lt_succ_of_le ((Finset.card_filter_le _ _).trans (by simp))⟩

end MF.Spec
