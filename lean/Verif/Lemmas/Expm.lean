import Verif.Lemmas.SDE
import Mathlib.Analysis.Normed.Algebra.MatrixExponential
import Mathlib.Analysis.SpecialFunctions.Exponential
import Mathlib.Analysis.Calculus.Deriv.Pi
import Mathlib.Topology.Algebra.Module.FiniteDimension

/-! # The matrix exponential is the transition semigroup -/

namespace MF
open Matrix Spec
open scoped Matrix.Norms.Operator

variable {d : ℕ}

/-- An entry, as a continuous linear map. -/
noncomputable def entryCLM (i j : Fin d) : Mat d d →L[ℝ] ℝ :=
  LinearMap.toContinuousLinearMap
    { toFun := fun M => M i j, map_add' := fun _ _ => rfl, map_smul' := fun _ _ => rfl }

theorem solvesSDE_exp (F : Mat d d) : SolvesSDE F (fun t => NormedSpace.exp (t • F)) where
  zero := by simp
  add s t := by
    rw [add_smul]
    exact Matrix.exp_add_of_commute _ _ ((Commute.refl F).smul_left s |>.smul_right t)
  deriv t i j := by
    have h := hasDerivAt_exp_smul_const' (𝕂 := ℝ) F t
    exact (entryCLM i j).hasFDerivAt.comp_hasDerivAt t h

/-- The transition semigroup is unique. -/
theorem Spec.SolvesSDE.unique {F : Mat d d} {A E : ℝ → Mat d d} (h : SolvesSDE F A)
    (hE : SolvesSDE F E) (t : ℝ) : A t = E t := by
  have hneg : ∀ s i j, HasDerivAt (fun r => E (-r) i j) (-(E (-s) * F) i j) s := by
    intro s i j
    have h1 := hE.deriv (-s) i j
    have h2 := HasDerivAt.scomp s h1 (hasDerivAt_neg s)
    rw [hE.comm_F] at h2
    simpa [Function.comp_def] using h2
  have hc : ∀ i j s, HasDerivAt (fun r => (E (-r) * A r) i j) 0 s := by
    intro i j s
    have e : (fun r => (E (-r) * A r) i j) = fun r => ∑ k, E (-r) i k * A r k j := by
      funext r; rw [mul_apply]
    rw [e]
    have : HasDerivAt (fun r => ∑ k, E (-r) i k * A r k j)
        (∑ k, (-(E (-s) * F) i k * A s k j + E (-s) i k * (F * A s) k j)) s :=
      HasDerivAt.fun_sum fun k _ => (hneg s i k).mul (h.deriv s k j)
    refine this.congr_deriv ?_
    rw [Finset.sum_add_distrib, ← mul_apply (M := E (-s)) (N := F * A s)]
    simp only [neg_mul, Finset.sum_neg_distrib]
    rw [← mul_apply (M := E (-s) * F) (N := A s), Matrix.mul_assoc]
    ring
  have hone : E (-t) * A t = 1 := by
    ext i j
    have := is_const_of_deriv_eq_zero (f := fun r => (E (-r) * A r) i j)
      (fun s => (hc i j s).differentiableAt) (fun s => (hc i j s).deriv) t 0
    simpa [hE.zero, h.zero] using this
  have h2 : E t * E (-t) = 1 := by rw [← hE.add, add_neg_cancel, hE.zero]
  calc A t = (E t * E (-t)) * A t := by rw [h2, Matrix.one_mul]
    _ = E t := by rw [Matrix.mul_assoc, hone, Matrix.mul_one]

/-- The transition semigroup is the matrix exponential. -/
theorem Spec.SolvesSDE.eq_exp {F : Mat d d} {A : ℝ → Mat d d} (h : SolvesSDE F A) (t : ℝ) :
    A t = NormedSpace.exp (t • F) := h.unique (solvesSDE_exp F) t

end MF
