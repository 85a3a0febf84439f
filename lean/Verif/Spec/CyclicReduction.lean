import Verif.Spec.Bridge
import Verif.Spec.BlockTriDiag

/-!
# Specification: explaining states between conditioning states
-/

namespace MF.Spec
open Matrix MeasureTheory

variable {d : ℕ}

/-- The explained times `x` and the conditioning times `z` alternate, beginning with an explained one:
`x₀ < z₀ < x₁ < z₁ < …`, with as many explained as conditioning times or one more, all within `±1e10`. -/
structure Interlaced {e c : ℕ} (x : Fin (e + 1) → ℝ) (z : Fin (c + 1) → ℝ) : Prop where
  enough : c ≤ e
  most : e ≤ c + 1
  after : ∀ (q : Fin (e + 1)) (r : Fin (c + 1)), (r : ℕ) < q → z r < x q
  before : ∀ (q : Fin (e + 1)) (r : Fin (c + 1)), (q : ℕ) ≤ r → x q < z r
  lower : ∀ q, -10000000000 < x q
  upper : ∀ q, x q < 10000000000
  upper' : ∀ r, z r ≤ 10000000000

/-- Draw the states `u` from `μ`; then, independently for each explained `q` with neighbours `left q` and `right q`,
`x_q = L_q⁻ᵀ (ε_q - G_qᵀ u_{left q} - F_qᵀ u_{right q})` with `ε_q` standard normal. So
`x_q | u ~ N(-L_q⁻ᵀ (G_qᵀ u_{left q} + F_qᵀ u_{right q}), (L_q L_qᵀ)⁻¹)`. -/
noncomputable def drawExplained {m p : ℕ} (left right : Fin p → Fin m) (F G L : Fin p → Mat d d)
    (μ : Measure (Fin m × Fin d → ℝ)) : Measure ((Fin m × Fin d → ℝ) × (Fin p × Fin d → ℝ)) :=
  (μ.prod (gaussLaw (0 : Fin p × Fin d → ℝ) 1)).map fun w => (w.1, stk fun q =>
    ((L q)ᵀ)⁻¹ *ᵥ (unstk w.2 q - (G q)ᵀ *ᵥ unstk w.1 (left q) - (F q)ᵀ *ᵥ unstk w.1 (right q)))

end MF.Spec
