import Verif.Model.Emission
import Verif.Lemmas.Gauss

/-!
# Property C25: emission models
-/

namespace MF
open Matrix Spec

variable {N m d e : ℕ}

/-- C25: `project_state_to_f` is `H x`; the projected covariance is `H S Hᵀ`, and without
`full_output_cov` it is its diagonal. -/
theorem C25_projection (H : Fin N → Mat m d) (x : Fin N → Vec d) (S : Fin N → Mat d d) (t : Fin N) :
    projectStateToF H x t = H t *ᵥ x t ∧
      projectStateCovarianceToFFull H S t = H t * S t * (H t)ᵀ ∧
      projectStateCovarianceToFDiag H S t = fun i => (H t * S t * (H t)ᵀ) i i := by
  have hfull : projectStateCovarianceToFFull H S t = H t * S t * (H t)ᵀ := by
    ext i l
    simp only [projectStateCovarianceToFFull, Matrix.of_apply, Matrix.mul_apply, transpose_apply,
      Finset.sum_mul]
    exact Finset.sum_comm
  refine ⟨rfl, hfull, ?_⟩
  funext i
  simp only [projectStateCovarianceToFDiag, Matrix.mul_apply, transpose_apply]
  exact Finset.sum_congr rfl fun j _ => mul_comm _ _

/-- C25: if the state at time `t` is `N(μ, S)`, then `H x` has the law with the projected mean and
covariance; the projected covariance is positive semi-definite and the projected variances are
non-negative. -/
theorem C25_law (H : Fin N → Mat m d) (μ : Fin N → Vec d) (S : Fin N → Mat d d) (t : Fin N)
    (hS : (S t).PosSemidef) :
    (gaussLaw (μ t) (S t)).map (fun x => H t *ᵥ x) =
        gaussLaw ((projectStateMarginalsToFFull H μ S).1 t) ((projectStateMarginalsToFFull H μ S).2 t) ∧
      ((projectStateMarginalsToFFull H μ S).2 t).PosSemidef ∧
      ∀ i, 0 ≤ (projectStateMarginalsToFDiag H μ S).2 t i := by
  obtain ⟨h1, h2, h3⟩ := C25_projection H μ S t
  have hp : (H t * S t * (H t)ᵀ).PosSemidef := by
    have := hS.mul_mul_conjTranspose_same (H t)
    rwa [conjTranspose_eq_transpose_of_trivial] at this
  simp only [projectStateMarginalsToFFull, projectStateMarginalsToFDiag, h1, h2, h3]
  refine ⟨?_, hp, fun i => hp.diag_nonneg⟩
  have := gaussLaw_map_affine hS (μ t) 0 (H t)
  simpa using this

/-- C25: the composed emission model projects as the outer model applied to the inner projection,
for states and for covariances. -/
theorem C25_composed (outer : Fin N → Mat m e) (inner : Fin N → Mat e d) (x : Fin N → Vec d)
    (S : Fin N → Mat d d) :
    projectStateToF (composedEmission outer inner) x =
        projectStateToF outer (projectStateToG inner x) ∧
      projectStateCovarianceToFFull (composedEmission outer inner) S =
        projectStateCovarianceToFFull outer (projectStateCovarianceToGFull inner S) ∧
      projectStateCovarianceToFDiag (composedEmission outer inner) S =
        projectStateCovarianceToFDiag outer (projectStateCovarianceToGFull inner S) := by
  have hc : ∀ t, composedEmission outer inner t = outer t * inner t := fun _ => rfl
  have hg : projectStateCovarianceToGFull inner S = fun t => inner t * S t * (inner t)ᵀ := by
    funext t; exact (C25_projection inner x S t).2.1
  refine ⟨?_, ?_, ?_⟩
  · funext t
    rw [(C25_projection _ x S t).1, hc, ← mulVec_mulVec]; rfl
  · funext t
    rw [(C25_projection _ x S t).2.1, (C25_projection outer (projectStateToG inner x) _ t).2.1, hc, hg]
    simp only [transpose_mul, Matrix.mul_assoc]
  · funext t
    rw [(C25_projection _ x S t).2.2, (C25_projection outer (projectStateToG inner x) _ t).2.2, hc, hg]
    simp only [transpose_mul, Matrix.mul_assoc]

/-- C25: `StackEmissionModel` projects each kernel's state separately: output `r` is `H_r x_r`, with
variance `H_r S_r H_rᵀ`, and different outputs are uncorrelated. -/
theorem C25_stack {R : ℕ} (H : Fin R → Fin N → Mat 1 d) (x : Fin R → Fin N → Vec d)
    (S : Fin R → Fin N → Mat d d) (t : Fin N) (r : Fin R) :
    stackProjectStateToF H x t r = (H r t *ᵥ x r t) 0 ∧
      stackProjectStateCovarianceToFDiag H S t r = (H r t * S r t * (H r t)ᵀ) 0 0 ∧
      stackProjectStateCovarianceToFFull H S t r r = (H r t * S r t * (H r t)ᵀ) 0 0 ∧
      ∀ r', r ≠ r' → stackProjectStateCovarianceToFFull H S t r r' = 0 := by
  have h : stackProjectStateCovarianceToFDiag H S t r = (H r t * S r t * (H r t)ᵀ) 0 0 := by
    simp only [stackProjectStateCovarianceToFDiag, Matrix.mul_apply, transpose_apply, Finset.sum_mul]
    rw [Finset.sum_comm]
    exact Finset.sum_congr rfl fun j _ => Finset.sum_congr rfl fun i _ => by ring
  refine ⟨rfl, h, ?_, ?_⟩
  · simp only [stackProjectStateCovarianceToFFull, diagonal_apply_eq, h]
  · intro r' hr
    simp only [stackProjectStateCovarianceToFFull, diagonal_apply_ne _ hr]

/-- Non-vacuity: a non-square emission and a singular covariance. -/
example : (!![1, 0; 0, 0] : Mat 2 2).PosSemidef := by
  have : (!![1, 0; 0, 0] : Mat 2 2) = diagonal ![1, 0] := by
    ext i j; fin_cases i <;> fin_cases j <;> simp
  rw [this, posSemidef_diagonal_iff]
  intro i; fin_cases i <;> simp

end MF
