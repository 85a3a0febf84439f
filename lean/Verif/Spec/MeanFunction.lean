import Verif.Spec.Kernel
import Mathlib.Analysis.Normed.Algebra.MatrixExponential

/-!
# Specification: the response of `dx/dt = F x + u(t)` to actions at times `ts k`
-/

namespace MF.Spec
open Matrix

variable {d n : ℕ}

/-- Superposition of the impulse responses of all actions strictly before `t`. -/
noncomputable def impulseResponse (F : Mat d d) (ts : Fin n → ℝ) (u : Fin n → Vec d) (t : ℝ) : Vec d :=
  open Classical in
  ∑ k, if ts k < t then NormedSpace.exp ((t - ts k) • F) *ᵥ u k else 0

/-- The piecewise constant input: at time `t`, the value of the last action strictly before `t`
(nothing before the first action). -/
noncomputable def stepInput (ts : Fin n → ℝ) (u : Fin n → Vec d) (t : ℝ) : Vec d :=
  open Classical in
  ∑ k, if ts k < t ∧ ∀ j, k < j → t ≤ ts j then u k else 0

/-- `x` is the response of the system at rest to the input `stepInput`: it is continuous, zero up to
some time, and `dx/dt = F x + u` at every time other than the action times. -/
structure IsStepResponse (F : Mat d d) (ts : Fin n → ℝ) (u : Fin n → Vec d) (x : ℝ → Vec d) : Prop where
  continuous : Continuous x
  rest : ∃ t₀, ∀ t ≤ t₀, x t = 0
  deriv : ∀ t, (∀ k, t ≠ ts k) → ∀ i,
    HasDerivAt (fun s => x s i) ((F *ᵥ x t + stepInput ts u t) i) t

end MF.Spec
