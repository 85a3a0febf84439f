import Verif.Spec.LinearGaussian

/-!
# Specification: univariate Gaussian sites in natural form

`t(f) = exp(θ₁ f + θ₂ f²)`, one site per latent value (normalising constants are dropped: they cancel
in Bayes' rule).
-/

namespace MF.Spec
open Matrix

/-- `Σ_t θ₁_t f_t + θ₂_t f_t²` -/
def siteLogLik {T : Type*} [Fintype T] (θ₁ θ₂ : T → ℝ) (f : T → ℝ) : ℝ :=
  ∑ t, (θ₁ t * f t + θ₂ t * f t ^ 2)

variable {n d : ℕ}

/-- The states at the two inducing points around interval `j` of `n + 1` inducing points (`j = 0`: before the
first, `j = n + 1`: after the last; the missing neighbour counts as zero). -/
def neighbours (u : Fin (n + 1) → Vec d) (j : Fin (n + 2)) : Fin d ⊕ Fin d → ℝ :=
  Sum.elim ((Fin.cons 0 u : Fin (n + 2) → Vec d) j) ((Fin.snoc (α := fun _ => Vec d) u 0 : Fin (n + 2) → Vec d) j)

/-- `Σ_j θ₁_j · v_j + v_jᵀ θ₂_j v_j`, one multivariate site per interval. -/
def pairSiteLogLik (θ₁ : Fin (n + 2) → Fin d ⊕ Fin d → ℝ) (θ₂ : Fin (n + 2) → Matrix (Fin d ⊕ Fin d) (Fin d ⊕ Fin d) ℝ)
    (u : Fin (n + 1) → Vec d) : ℝ :=
  ∑ j, (θ₁ j ⬝ᵥ neighbours u j + neighbours u j ⬝ᵥ (θ₂ j *ᵥ neighbours u j))

/-- `z_{j-1} < t ≤ z_j` (one-sided at the ends). -/
def InInterval (z : Fin (n + 1) → ℝ) (j : Fin (n + 2)) (t : ℝ) : Prop :=
  (∀ i : Fin (n + 1), i.castSucc < j → z i < t) ∧ ∀ i : Fin (n + 1), j ≤ i.castSucc → t ≤ z i

end MF.Spec
