import Verif.Spec.Piecewise
import Verif.Spec.Bridge
import Mathlib.MeasureTheory.Measure.Lebesgue.Basic

/-!
# Specification: the process described by a piecewise kernel

On each of the intervals between the change points the state relaxes, with the dynamics of that interval's
kernel, towards that kernel's stationary law.
-/

namespace MF.Spec
open Matrix MeasureTheory
variable {d m : ℕ}

/-- A linear Gaussian transition: `x ↦ A x + b + w`, `w ~ N(0, Q)` independent of `x`. -/
@[ext] structure Channel (d : ℕ) where
  A : Mat d d
  b : Vec d
  Q : Mat d d

namespace Channel

/-- Nothing happens. -/
def stay : Channel d := ⟨1, 0, 0⟩

/-- First `c`, then `c'`, with independent noise. -/
def andThen (c c' : Channel d) : Channel d :=
  ⟨c'.A * c.A, c'.A *ᵥ c.b + c'.b, c'.A * c.Q * c'.Aᵀ + c'.Q⟩

/-- A stationary process with transitions `A`, stationary mean `μ` and covariance `P`, over a time `δ`. -/
def relax (A : ℝ → Mat d d) (μ : Vec d) (P : Mat d d) (δ : ℝ) : Channel d :=
  ⟨A δ, μ - A δ *ᵥ μ, P - A δ * P * (A δ)ᵀ⟩

end Channel

/-- The time spent in interval `i` (see `segment`) between `s` and `t`. -/
noncomputable def timeIn (cp : Fin m → ℝ) (i : Fin (m + 1)) (s t : ℝ) : ℝ :=
  (volume {u | s < u ∧ u ≤ t ∧ segment cp u = i}).toReal

/-- What happens to the state between `s` and `t`: it relaxes with kernel `0` for the time spent in the first
interval, then with kernel `1` for the time spent in the second one, and so on. -/
noncomputable def pieces (A : Fin (m + 1) → ℝ → Mat d d) (μ : Fin (m + 1) → Vec d) (P : Fin (m + 1) → Mat d d)
    (cp : Fin m → ℝ) (s t : ℝ) : Channel d :=
  (List.ofFn fun i => Channel.relax (A i) (μ i) (P i) (timeIn cp i s t)).foldl Channel.andThen Channel.stay

/-- Covariance function of a Markov process with transition matrices `Φ t s` and marginal covariances `P t`. -/
noncomputable def markovCov (Φ : ℝ → ℝ → Mat d d) (P : ℝ → Mat d d) (t t' : ℝ) : Mat d d :=
  if t' ≤ t then Φ t t' * P t' else (Φ t' t * P t)ᵀ

/-- Mean of the piecewise process that starts at time `t₀` with mean zero. -/
noncomputable def pieceMean (A : Fin (m + 1) → ℝ → Mat d d) (μ : Fin (m + 1) → Vec d) (P : Fin (m + 1) → Mat d d)
    (cp : Fin m → ℝ) (t₀ t : ℝ) : Vec d :=
  (pieces A μ P cp t₀ t).b

/-- Covariance function of the piecewise process that starts at time `t₀` with the stationary covariance of the kernel
active at `t₀`. -/
noncomputable def pieceCov (A : Fin (m + 1) → ℝ → Mat d d) (μ : Fin (m + 1) → Vec d) (P : Fin (m + 1) → Mat d d)
    (cp : Fin m → ℝ) (t₀ : ℝ) : ℝ → ℝ → Mat d d :=
  markovCov (fun t s => (pieces A μ P cp s t).A) fun t =>
    (pieces A μ P cp t₀ t).A * P (segment cp t₀) * (pieces A μ P cp t₀ t).Aᵀ + (pieces A μ P cp t₀ t).Q

/-- No change point lies strictly between `s` and `t`. -/
def NoChange (cp : Fin m → ℝ) (s t : ℝ) : Prop := ∀ i, ¬ (s < cp i ∧ cp i < t)

end MF.Spec
