import Verif.Spec.LinearGaussian

/-!
# Specification: Euler–Maruyama discretisations
-/

namespace MF.Spec
open Matrix MeasureTheory ProbabilityTheory
variable {n d : ℕ}

/-- `x` is the Euler–Maruyama approximation of `dx = f(x, t) dt + L(x, t) dB` at the times `τ`, started at `x0` and driven by `e`. -/
structure IsEulerMaruyama (f : Vec d → ℝ → Vec d) (L : Vec d → ℝ → Mat d d) (τ : Fin (n + 1) → ℝ) (x0 : Vec d) (e : Fin n → Vec d)
    (x : Fin (n + 1) → Vec d) : Prop where
  zero : x 0 = x0
  succ : ∀ k : Fin n, x k.succ = x k.castSucc + (τ k.succ - τ k.castSucc) • f (x k.castSucc) (τ k.castSucc) +
    Real.sqrt (τ k.succ - τ k.castSucc) • (L (x k.castSucc) (τ k.castSucc) *ᵥ e k)

/-- The scalar Markov chain `x₀ = m₀ + s₀ e₀`, `x_{k+1} = F_k(x_k) + σ_k e_{k+1}`. -/
noncomputable def steps (m0 s0 : ℝ) (F : Fin n → ℝ → ℝ) (σ : Fin n → ℝ) (e : Fin (n + 1) → ℝ) : Fin (n + 1) → ℝ := fun k =>
  Fin.induction (motive := fun _ => ℝ) (m0 + s0 * e 0) (fun k x => F k x + σ k * e k.succ) k

/-- Its law when the `e` are independent standard normal variables. -/
noncomputable def stepsLaw (m0 s0 : ℝ) (F : Fin n → ℝ → ℝ) (σ : Fin n → ℝ) : Measure (Fin (n + 1) → ℝ) :=
  (stdNormal (Fin (n + 1))).map (steps m0 s0 F σ)

end MF.Spec
