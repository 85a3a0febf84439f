import Verif.Spec.BlockTriDiag
import Mathlib.Analysis.SpecialFunctions.Log.Basic
import Mathlib.Analysis.SpecialFunctions.Trigonometric.Basic
import Mathlib.LinearAlgebra.Matrix.Trace

/-!
# Specification: linear Gauss–Markov chains

`x₀ = m₀ + noise₀`, `x_{k+1} = A_k x_k + b_k + noise_{k+1}`, noise covariances `P₀`, `Q_k`.
-/

namespace MF.Spec
open Matrix

variable {n d : ℕ}

/-- `x` is the trajectory driven by `noise` (`noise 0` enters the initial state). -/
structure IsTrajectory (m0 : Vec d) (A : Fin n → Mat d d) (b : Fin n → Vec d)
    (noise x : Fin (n + 1) → Vec d) : Prop where
  zero : x 0 = m0 + noise 0
  succ : ∀ k : Fin n, x k.succ = A k *ᵥ x k.castSucc + b k + noise k.succ

/-- `μ` is the sequence of marginal means: the noiseless trajectory. -/
structure IsMeans (m0 : Vec d) (A : Fin n → Mat d d) (b : Fin n → Vec d)
    (μ : Fin (n + 1) → Vec d) : Prop where
  zero : μ 0 = m0
  succ : ∀ k : Fin n, μ k.succ = A k *ᵥ μ k.castSucc + b k

/-- `Σ` is the sequence of marginal covariances. -/
structure IsCovs (P0 : Mat d d) (A : Fin n → Mat d d) (Q : Fin n → Mat d d)
    (S : Fin (n + 1) → Mat d d) : Prop where
  zero : S 0 = P0
  succ : ∀ k : Fin n, S k.succ = A k * S k.castSucc * (A k)ᵀ + Q k

/-- `K` is the joint covariance matrix of the trajectory. -/
structure IsJointCov (P0 : Mat d d) (A : Fin n → Mat d d) (Q : Fin n → Mat d d)
    (K : Matrix (Ix n d) (Ix n d) ℝ) : Prop where
  symm : Kᵀ = K
  zero : blk K 0 0 = P0
  succ : ∀ k : Fin n, blk K k.succ k.succ = A k * blk K k.castSucc k.castSucc * (A k)ᵀ + Q k
  cross : ∀ (k : Fin n) (c : Fin (n + 1)), c ≤ k.castSucc →
    blk K k.succ c = A k * blk K k.castSucc c

/-- The log density of a multivariate Gaussian with mean `m` and covariance `K`. -/
noncomputable def gaussLogDensity {ι : Type*} [Fintype ι] [DecidableEq ι] (m : ι → ℝ)
    (K : Matrix ι ι ℝ) (x : ι → ℝ) : ℝ :=
  -(1 / 2) * ((x - m) ⬝ᵥ (K⁻¹ *ᵥ (x - m))) - (1 / 2) * Real.log K.det
    - (Fintype.card ι / 2) * Real.log (2 * Real.pi)

/-- The Kullback–Leibler divergence between two multivariate Gaussians. -/
noncomputable def gaussKL {ι : Type*} [Fintype ι] [DecidableEq ι] (m₁ : ι → ℝ) (K₁ : Matrix ι ι ℝ)
    (m₂ : ι → ℝ) (K₂ : Matrix ι ι ℝ) : ℝ :=
  (1 / 2) * ((K₂⁻¹ * K₁).trace + (m₂ - m₁) ⬝ᵥ (K₂⁻¹ *ᵥ (m₂ - m₁)) - Fintype.card ι
    + Real.log K₂.det - Real.log K₁.det)

end MF.Spec
