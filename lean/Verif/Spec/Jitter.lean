import Verif.Spec.KernelTree

/-! # Kernels that differ in their jitter only -/

namespace MF.Spec
open Matrix
variable {o d : ℕ}

/-- The same kernel with every jitter: what a constructor returns when only its argument `jitter` varies. -/
structure JitterFamily (K : ℝ → Stationary o d) (k : ℝ → ℝ → Mat o o) : Prop where
  builds : ∀ ε, 0 ≤ ε → Builds (K ε) k
  jitter : ∀ ε, 0 ≤ ε → (K ε).jitter = ε
  trans : ∀ ε, 0 ≤ ε → (K ε).stateTransitions = (K 0).stateTransitions
  pinf : ∀ ε, 0 ≤ ε → (K ε).Pinf = (K 0).Pinf
  emission : ∀ ε, 0 ≤ ε → (K ε).emission = (K 0).emission

end MF.Spec
