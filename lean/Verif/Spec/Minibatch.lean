import Mathlib.GroupTheory.Perm.Basic
import Mathlib.Data.Fintype.Perm
import Mathlib.Data.Fintype.Pi
import Mathlib.Algebra.BigOperators.Group.Finset.Basic
import Mathlib.Data.Real.Basic

/-!
# Unbiased minibatch objectives
-/

namespace MF.Spec

/-- `obj p f` is the value computed from the `p` data with indices `f` out of `N`; it is an unbiased estimate of `E`: it averages to
`E` over every partition into minibatches (weighted by their sizes), over all minibatches drawn with replacement, and over all
shuffles of the data (the first `p` forming the minibatch). -/
structure UnbiasedObjective {ε : Type} (N : ℕ) (obj : (p : ℕ) → (Fin p → Fin N) → Except ε ℝ) (E : ℝ) : Prop where
  partition : ∀ (B : ℕ) (size : Fin B → ℕ), (∀ b, 0 < size b) → ∀ e : (Σ b, Fin (size b)) ≃ Fin N,
    ∃ v : Fin B → ℝ, (∀ b, obj (size b) (fun i => e ⟨b, i⟩) = .ok (v b)) ∧ ∑ b, (size b / N : ℝ) * v b = E
  withReplacement : ∀ p, 0 < p → ∃ v : (Fin p → Fin N) → ℝ, (∀ f, obj p f = .ok (v f)) ∧ (∑ f, v f) / (N : ℝ) ^ p = E
  withoutReplacement : ∀ p, 0 < p → ∀ h : p ≤ N, ∃ v : Equiv.Perm (Fin N) → ℝ,
    (∀ σ : Equiv.Perm (Fin N), obj p (fun i => σ (i.castLE h)) = .ok (v σ)) ∧ (∑ σ, v σ) / (N.factorial : ℝ) = E

end MF.Spec
