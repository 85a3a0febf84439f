import Verif.Spec.Likelihood
import Verif.Spec.GPR
import Mathlib.InformationTheory.KullbackLeibler.Basic

/-!
# The variational lower bound in function space
-/

namespace MF.Spec
open MeasureTheory InformationTheory Matrix

/-- The evidence lower bound of a law `ρ` of the latent function values, for a prior law of these values and data `y`:
`E_ρ[log p(y | f)] - KL(ρ ‖ prior)`. No Markov structure, states or kernels are involved. -/
noncomputable def functionBound {T : Type*} [Fintype T] {o : ℕ} (lik : ScalarLikelihood) (y : T → Vec o)
    (prior ρ : Measure (T × Fin o → ℝ)) : ℝ :=
  (∫ f, outputLogLik lik y f ∂ρ) - (klDiv ρ prior).toReal

variable {T : Type} [Fintype T] [DecidableEq T] {o : ℕ}

/-- The mean at time `t` of a Gaussian process with mean function `m` and covariance function `k` when its values at the times `ts` are redrawn from
a law with mean `μ`: `m(t) + k(t, ts) k(ts, ts)⁻¹ (μ - m(ts))`. -/
noncomputable def gpPredictMean (m : ℝ → Vec o) (k : ℝ → ℝ → Mat o o) (ts : T → ℝ) (μ : T × Fin o → ℝ) (t : ℝ) : Vec o :=
  m t + crossCov k ts t *ᵥ ((gpGram k ts)⁻¹ *ᵥ (μ - meanVec m ts))

/-- The covariance at time `t` when the values at `ts` are redrawn from a law with covariance matrix `S`:
`k(t, t) - k(t, ts) k(ts, ts)⁻¹ k(ts, t) + k(t, ts) k(ts, ts)⁻¹ S k(ts, ts)⁻¹ k(ts, t)`. -/
noncomputable def gpPredictCov (k : ℝ → ℝ → Mat o o) (ts : T → ℝ) (S : Matrix (T × Fin o) (T × Fin o) ℝ) (t : ℝ) : Mat o o :=
  k t t - crossCov k ts t * (gpGram k ts)⁻¹ * (crossCov k ts t)ᵀ +
    crossCov k ts t * (gpGram k ts)⁻¹ * S * (gpGram k ts)⁻¹ * (crossCov k ts t)ᵀ

end MF.Spec
