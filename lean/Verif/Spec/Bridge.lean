import Verif.Spec.Gauss
import Mathlib.MeasureTheory.Measure.Prod
import Mathlib.Probability.Kernel.Composition.MeasureCompProd

/-!
# Specification: the two-step chain `x₋ → x → x₊` and Gaussian conditionals
-/

namespace MF.Spec
open Matrix MeasureTheory

variable {d : ℕ}

/-- The joint law of `((x₋, x₊), x)` when `x₋ ~ μ`, `x = A₁ x₋ + N(0, Q₁)`,
`x₊ = A₂ x + N(0, Q₂)`, with independent noises. -/
noncomputable def chainLaw (μ : Measure (Vec d)) (A₁ Q₁ A₂ Q₂ : Mat d d) :
    Measure ((Vec d × Vec d) × Vec d) :=
  (μ.prod ((gaussLaw 0 Q₁).prod (gaussLaw 0 Q₂))).map fun w =>
    let xm := w.1
    let x := A₁ *ᵥ xm + w.2.1
    let xp := A₂ *ᵥ x + w.2.2
    ((xm, xp), x)

/-- Draw `(x₋, x₊) ~ ν` and then `x ~ N(D x₋ + E x₊, T)`. -/
noncomputable def drawBetween (ν : Measure (Vec d × Vec d)) (D E T : Mat d d) :
    Measure ((Vec d × Vec d) × Vec d) :=
  (ν.prod (gaussLaw 0 T)).map fun w => (w.1, D *ᵥ w.1.1 + E *ᵥ w.1.2 + w.2)

/-- Given the pair, the middle state is Gaussian with mean `D x₋ + E x₊` and covariance `T`. -/
def IsBridge (D E T : Mat d d) (A₁ Q₁ A₂ Q₂ : Mat d d) : Prop :=
  T.PosSemidef ∧ ∀ μ : Measure (Vec d), IsProbabilityMeasure μ →
    chainLaw μ A₁ Q₁ A₂ Q₂ = drawBetween ((chainLaw μ A₁ Q₁ A₂ Q₂).map Prod.fst) D E T

/-- `ν(du, ds) = q(du) p(ds | u)`, where `p(s | u)` is the conditional of `s` given `u` under `prior`:
the process whose values at the conditioning points follow `q` and which otherwise follows the prior's
conditional. -/
def IsPredictive {U S : Type*} [MeasurableSpace U] [MeasurableSpace S] (prior : Measure (U × S))
    (q : Measure U) (ν : Measure (U × S)) : Prop :=
  ∃ κ : ProbabilityTheory.Kernel U S, ProbabilityTheory.IsMarkovKernel κ ∧
    prior = (prior.map Prod.fst).compProd κ ∧ ν = q.compProd κ

/-- Covariance function of a stationary Markov process with transitions `A` and stationary covariance
`P`: `Cov(x_t, x_t') = A(t - t') P` for `t' ≤ t`. -/
noncomputable def stateCov (A : ℝ → Mat d d) (P : Mat d d) (t t' : ℝ) : Mat d d :=
  if t' ≤ t then A (t - t') * P else (A (t' - t) * P)ᵀ

/-- The coordinates of a joint vector at two collections of times. -/
def atTimes {T S : Type*} (x : (T ⊕ S) × Fin d → ℝ) : (T × Fin d → ℝ) × (S × Fin d → ℝ) :=
  (fun i => x (.inl i.1, i.2), fun j => x (.inr j.1, j.2))

/-- Draw the states at two far away times from `ends`, independently of the states at the `n + 1`
conditioning points drawn from `q`, and line them up: first end, conditioning points, last end. -/
noncomputable def withEnds {n : ℕ} (ends : Measure (Fin 2 × Fin d → ℝ))
    (q : Measure (Fin (n + 1) × Fin d → ℝ)) : Measure (Fin (n + 3) × Fin d → ℝ) :=
  (ends.prod q).map fun x => stk (Fin.cons (unstk x.1 0)
    (Fin.snoc (α := fun _ => Vec d) (unstk x.2) (unstk x.1 1)))

/-- Forget the states at the two ends. -/
def dropEnds {n : ℕ} (x : Fin (n + 3) × Fin d → ℝ) : Fin (n + 1) × Fin d → ℝ :=
  fun i => x (i.1.castSucc.succ, i.2)

end MF.Spec
