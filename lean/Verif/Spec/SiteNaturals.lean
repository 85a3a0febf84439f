import Verif.Spec.NatGrad
import Verif.Model.Likelihood

/-!
# Specification: sites on the outputs, and differentiable variational expectations
-/

namespace MF.Spec
open Matrix
variable {n o d : ℕ}

/-- The natural parameters of the factor `∏ₜ ∏ₐ exp(λ₁ₜₐ fₜₐ + λ₂ₜₐ fₜₐ²)` of the states, where `fₜ = Hₜ xₜ`. -/
def siteNaturals (H : Fin (n + 1) → Mat o d) (l1 l2 : Fin (n + 1) → Vec o) : ExpPar n d :=
  (fun t => (H t)ᵀ *ᵥ l1 t, fun t => (H t)ᵀ * Matrix.diagonal (l2 t) * H t, 0)

/-- The natural parameters of the factor `∏ⱼ exp(θ₁ⱼ·vⱼ + vⱼᵀ θ₂ⱼ vⱼ)` of the states, where `vⱼ` is the pair of states next to interval
`j` (a missing neighbour counts as zero) and the `θ₂ⱼ` are symmetric: the coefficient of `x_{k+1} x_kᵀ` is twice the off-diagonal block. -/
def pairSiteNaturals (t1 : Fin (n + 2) → Fin d ⊕ Fin d → ℝ) (t2 : Fin (n + 2) → Matrix (Fin d ⊕ Fin d) (Fin d ⊕ Fin d) ℝ) :
    ExpPar n d :=
  (fun m a => t1 m.succ (.inl a) + t1 m.castSucc (.inr a),
   fun m => (t2 m.succ).toBlocks₁₁ + (t2 m.castSucc).toBlocks₂₂,
   fun k => (2 : ℝ) • (t2 k.castSucc.succ).toBlocks₂₁)

/-- The variational expectation of every datum is differentiable in (mean, variance) wherever the variance is positive. -/
def DifferentiableVarExp (lik : ScalarLikelihood) : Prop :=
  ∀ m v y : ℝ, 0 < v → DifferentiableAt ℝ (fun x : ℝ × ℝ => lik.varExp x.1 x.2 y) (m, v)

end MF.Spec
