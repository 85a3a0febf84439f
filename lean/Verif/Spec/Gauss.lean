import Verif.Spec.GaussMarkov
import Mathlib.Probability.Distributions.Gaussian.Multivariate

/-!
# Specification: Gaussian laws on `ι → ℝ`

The laws are Mathlib's: `gaussianReal`, `Measure.pi` and `multivariateGaussian`.
-/

namespace MF.Spec
open Matrix MeasureTheory ProbabilityTheory

/-- Independent standard normal coordinates. -/
noncomputable def stdNormal (ι : Type*) [Fintype ι] : Measure (ι → ℝ) :=
  Measure.pi fun _ => gaussianReal 0 1

/-- `N(m, K)`: Mathlib's `multivariateGaussian`, read on plain functions. -/
noncomputable def gaussLaw {ι : Type*} [Fintype ι] [DecidableEq ι] (m : ι → ℝ)
    (K : Matrix ι ι ℝ) : Measure (ι → ℝ) :=
  (multivariateGaussian (WithLp.toLp 2 m) K).map WithLp.ofLp

/-- A long vector as a block vector. -/
def unstk {N d : ℕ} (v : Fin N × Fin d → ℝ) : Fin N → Vec d := fun k i => v (k, i)

/-- Forward simulation of the chain `x₀ = m₀ + noise₀`, `x_{k+1} = A_k x_k + b_k + noise_{k+1}`. -/
noncomputable def simulate {n d : ℕ} (m0 : Vec d) (A : Fin n → Mat d d) (b : Fin n → Vec d)
    (noise : Fin (n + 1) → Vec d) : Fin (n + 1) → Vec d := fun k =>
  Fin.induction (motive := fun _ => Vec d) (m0 + noise 0)
    (fun k x => A k *ᵥ x + b k + noise k.succ) k

/-- The law of the random trajectory `x₀ = m₀ + L₀ e₀`, `x_{k+1} = A_k x_k + b_k + L_{k+1} e_{k+1}`
with `e` iid standard normal. -/
noncomputable def trajLaw {n d : ℕ} (m0 : Vec d) (L0 : Mat d d) (A : Fin n → Mat d d)
    (b : Fin n → Vec d) (L : Fin n → Mat d d) : Measure (Ix n d → ℝ) :=
  (stdNormal (Ix n d)).map fun e =>
    stk (simulate m0 A b (Fin.cons (L0 *ᵥ unstk e 0) fun k => L k *ᵥ unstk e k.succ))

end MF.Spec
