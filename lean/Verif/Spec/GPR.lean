import Verif.Spec.Kernel
import Verif.Spec.LinearGaussian

/-!
# Specification: dense Gaussian process regression (Rasmussen & Williams, chapter 2)

Data `y_i = f(t_i) + N(0, R)` with `f ~ GP(m, k)`; vectors over all data and outputs are indexed by
`T × Fin o`.
-/

namespace MF.Spec
open Matrix MeasureTheory
variable {o : ℕ} {T : Type} [Fintype T] [DecidableEq T]

/-- The Gram matrix `k(t_i, t_j)`. -/
def gpGram (k : ℝ → ℝ → Mat o o) (ts : T → ℝ) : Matrix (T × Fin o) (T × Fin o) ℝ :=
  Matrix.of fun i j => k (ts i.1) (ts j.1) i.2 j.2

/-- The cross covariance `k(t, t_j)`. -/
def crossCov (k : ℝ → ℝ → Mat o o) (ts : T → ℝ) (t : ℝ) : Matrix (Fin o) (T × Fin o) ℝ :=
  Matrix.of fun a j => k t (ts j.1) a j.2

/-- The mean function at the data times. -/
def meanVec (m : ℝ → Vec o) (ts : T → ℝ) : T × Fin o → ℝ := fun i => m (ts i.1) i.2

/-- `m(t) + k(t, X) (K + Σ)⁻¹ (y - m(X))` -/
noncomputable def gpPostMean (m : ℝ → Vec o) (k : ℝ → ℝ → Mat o o) (ts : T → ℝ)
    (noise : Matrix (T × Fin o) (T × Fin o) ℝ) (y : T × Fin o → ℝ) (t : ℝ) : Vec o :=
  m t + crossCov k ts t *ᵥ ((gpGram k ts + noise)⁻¹ *ᵥ (y - meanVec m ts))

/-- `k(t, t') - k(t, X) (K + Σ)⁻¹ k(X, t')` -/
noncomputable def gpPostCov (k : ℝ → ℝ → Mat o o) (ts : T → ℝ)
    (noise : Matrix (T × Fin o) (T × Fin o) ℝ) (t t' : ℝ) : Mat o o :=
  k t t' - crossCov k ts t * (gpGram k ts + noise)⁻¹ * (crossCov k ts t')ᵀ

end MF.Spec
