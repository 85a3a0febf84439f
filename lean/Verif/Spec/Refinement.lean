import Verif.Spec.Kernel
import Mathlib.Topology.ContinuousMap.Bounded.Basic

/-! # Specification: refining a simulation -/

namespace MF.Spec
open Matrix MeasureTheory Filter Topology
open scoped BoundedContinuousFunction

/-- Convergence in law: expectations of bounded continuous functions converge. -/
def ConvergesInLaw {ι : Type*} (μ : ℕ → Measure (ι → ℝ)) (ν : Measure (ι → ℝ)) : Prop :=
  ∀ f : (ι → ℝ) →ᵇ ℝ, Tendsto (fun N => ∫ x, f x ∂μ N) atTop (𝓝 (∫ x, f x ∂ν))

/-- Ever finer homogeneous grids: simulation `N` has step `h N` and `M N` steps after time zero; the time `ts i` is read off at grid
point `idx N i`, whose time `h N * idx N i` tends to `ts i`. -/
structure Refining {n : ℕ} (ts : Fin (n + 1) → ℝ) (M : ℕ → ℕ) (h : ℕ → ℝ) (idx : ∀ N, Fin (n + 1) → Fin (M N + 1)) : Prop where
  pos : ∀ N, 0 < h N
  step : Tendsto h atTop (𝓝 0)
  mono : ∀ N, Monotone (idx N)
  times : ∀ i, Tendsto (fun N => h N * (idx N i : ℕ)) atTop (𝓝 (ts i))

/-- The homogeneous grid `h, 2h, …, (M + 1)h`. -/
def stepGrid (M : ℕ) (h : ℝ) : Fin (M + 1) → ℝ := fun k => ((k : ℕ) + 1) * h

/-- `L` is a noise factor of the stationary SDE `dx = F x dt + L dB` with stationary covariance `P`: `F P + P Fᵀ + L Lᵀ = 0`. -/
def IsNoiseFactor {d : ℕ} (F P L : Mat d d) : Prop := F * P + P * Fᵀ + L * Lᵀ = 0

end MF.Spec
