import Verif.Model.Posterior

/-! # Predictions as functions of the query time: vocabulary -/

namespace MF.Spec
open Matrix
variable {n d o : ℕ}

/-- `predict_state` evaluates, at each query time separately, the function `r` (mean, covariance). -/
def PredictsAs (c : CondProcess n o d) (r : ℝ → Vec d × Mat d d) : Prop :=
  ∀ (p : ℕ) (new : Fin p → ℝ), (∀ j, -10000000000 < new j ∧ new j < 10000000000) →
    c.predictState new = .ok fun j => r (new j)

/-- `predict_f(..., full_output_cov=True)` evaluates, at each query time separately, the function `f`. -/
def PredictsFAs (c : CondProcess n o d) (f : ℝ → Vec o × Mat o o) : Prop :=
  ∀ (p : ℕ) (new : Fin p → ℝ), (∀ j, -10000000000 < new j ∧ new j < 10000000000) →
    c.predictF new = .ok fun j => f (new j)

/-- The outputs `f = H x` of `dx = F x dt + noise`, with `noise` of spectral density `-(F P + P Fᵀ)`, have a
derivative: the noise does not enter `H x` (and `H` does not depend on time). Then `f' = H F x`. -/
def SmoothOutputs (K : Stationary o d) : Prop :=
  (∀ t, K.emission t = K.emission 0) ∧ K.emission 0 * (K.feedback * K.Pinf + K.Pinf * K.feedbackᵀ) = 0

end MF.Spec
