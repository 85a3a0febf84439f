import Verif.Spec.Gauss
import Mathlib.Analysis.Calculus.Deriv.Basic
import Mathlib.Analysis.SpecialFunctions.Trigonometric.Basic
import Mathlib.Analysis.SpecialFunctions.Sqrt

/-!
# Specification: linear SDEs, Gaussian processes and textbook covariance functions
-/

namespace MF.Spec
open Matrix MeasureTheory

variable {n d o N : ℕ}

/-- `A` is the transition semigroup of `dx/dt = F x`: identity at zero, multiplicative, and solving
the differential equation (entry-wise). -/
structure SolvesSDE (F : Mat d d) (A : ℝ → Mat d d) : Prop where
  zero : A 0 = 1
  add : ∀ s t, A (s + t) = A s * A t
  deriv : ∀ t i j, HasDerivAt (fun s => A s i j) ((F * A t) i j) t

/-- The joint law of the values at the times `ts i` (any finite collection of times, in any order) of
a Gaussian process with mean function `m` and (matrix valued) covariance function `k`. -/
noncomputable def gpLaw {T : Type} [Fintype T] [DecidableEq T] (m : ℝ → Vec o)
    (k : ℝ → ℝ → Mat o o) (ts : T → ℝ) : Measure (T × Fin o → ℝ) :=
  gaussLaw (fun i => m (ts i.1) i.2) (Matrix.of fun i j => k (ts i.1) (ts j.1) i.2 j.2)

/-- The law of the outputs `f_k = H_k x_k` of the simulated chain. -/
noncomputable def outputLaw (m0 : Vec d) (L0 : Mat d d) (A : Fin n → Mat d d) (b : Fin n → Vec d)
    (L : Fin n → Mat d d) (H : Fin (n + 1) → Mat o d) : Measure (Fin (n + 1) × Fin o → ℝ) :=
  (trajLaw m0 L0 A b L).map fun x => stk fun k => H k *ᵥ unstk x k

/-- Matérn 1/2 (exponential) covariance at distance `r`. -/
noncomputable def matern12Cov (l v r : ℝ) : ℝ := v * Real.exp (-(r / l))

/-- Matérn 3/2 covariance at distance `r`. -/
noncomputable def matern32Cov (l v r : ℝ) : ℝ :=
  v * (1 + Real.sqrt 3 * r / l) * Real.exp (-(Real.sqrt 3 * r / l))

/-- Matérn 5/2 covariance at distance `r`. -/
noncomputable def matern52Cov (l v r : ℝ) : ℝ :=
  v * (1 + Real.sqrt 5 * r / l + 5 * r ^ 2 / (3 * l ^ 2)) * Real.exp (-(Real.sqrt 5 * r / l))

/-- Ornstein–Uhlenbeck covariance, `dx = -θ x dt + √q dW`. -/
noncomputable def ouCov (decay diffusion r : ℝ) : ℝ :=
  diffusion / (2 * decay) * Real.exp (-(decay * r))

/-- Cosine covariance with the given period. -/
noncomputable def cosineCov (v period r : ℝ) : ℝ := v * Real.cos (2 * Real.pi * r / period)

end MF.Spec
