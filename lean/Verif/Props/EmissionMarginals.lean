import Verif.Props.Emission

/-!
# C25: the marginals of the outputs with `full_output_cov=False`
-/

namespace MF
open Matrix Spec MeasureTheory ProbabilityTheory

variable {N m d e : ℕ}

/-- **C25** `project_state_marginals_to_f` with `full_output_cov=False`: if the state at time `t` is `N(μ, S)`, every output
is Gaussian with the returned mean and variance; means and variances are those of `full_output_cov=True`, and with a
composed emission those of the outer model applied to the marginals of the inner one. -/
theorem C25_marginals (H : Fin N → Mat m d) (μ : Fin N → Vec d) (S : Fin N → Mat d d) (t : Fin N)
    (hS : (S t).PosSemidef) :
    (∀ i, (gaussLaw (μ t) (S t)).map (fun x => (H t *ᵥ x) i) =
      gaussianReal ((projectStateMarginalsToFDiag H μ S).1 t i) ((projectStateMarginalsToFDiag H μ S).2 t i).toNNReal) ∧
    (projectStateMarginalsToFDiag H μ S).1 = (projectStateMarginalsToFFull H μ S).1 ∧
    (∀ i, (projectStateMarginalsToFDiag H μ S).2 t i = (projectStateMarginalsToFFull H μ S).2 t i i) ∧
    ∀ (e : ℕ) (outer : Fin N → Mat e m),
      projectStateMarginalsToFFull (composedEmission outer H) μ S =
        projectStateMarginalsToFFull outer (projectStateToG H μ) (projectStateCovarianceToGFull H S) ∧
      projectStateMarginalsToFDiag (composedEmission outer H) μ S =
        projectStateMarginalsToFDiag outer (projectStateToG H μ) (projectStateCovarianceToGFull H S) := by
  obtain ⟨h1, h2, h3⟩ := C25_projection H μ S t
  have hp : (H t * S t * (H t)ᵀ).PosSemidef := by
    have := hS.mul_mul_conjTranspose_same (H t)
    rwa [conjTranspose_eq_transpose_of_trivial] at this
  refine ⟨fun i => ?_, ?_, fun i => ?_, fun e outer => ?_⟩
  · have hm : Measurable fun x : Fin d → ℝ => H t *ᵥ x := by
      refine measurable_pi_iff.2 fun j => ?_
      simp only [mulVec, dotProduct]
      fun_prop
    have := gaussLaw_map_affine hS (μ t) 0 (H t)
    simp only [zero_add] at this
    rw [show (fun x : Fin d → ℝ => (H t *ᵥ x) i) = (fun y : Fin m → ℝ => y i) ∘ fun x => H t *ᵥ x from rfl,
      ← Measure.map_map (measurable_pi_apply i) hm, this, gaussLaw_eval hp]
    simp only [projectStateMarginalsToFDiag, h1, h3]
  · rfl
  · simp only [projectStateMarginalsToFFull, projectStateMarginalsToFDiag, h2, h3]
  · obtain ⟨a1, a2, a3⟩ := C25_composed outer H μ S
    simp only [projectStateMarginalsToFFull, projectStateMarginalsToFDiag, a1, a2, a3, and_self]

/-- Non-vacuity: two correlated states, two outputs. -/
example : (!![2, 1; 1, 2] : Mat 2 2).PosSemidef ∧
    (projectStateMarginalsToFDiag (N := 1) (fun _ => !![1, 1; 1, -1]) (fun _ => ![1, 2]) fun _ => !![2, 1; 1, 2]) =
      (fun _ => ![3, -1], fun _ => ![6, 2]) := by
  constructor
  · have e : (!![2, 1; 1, 2] : Mat 2 2) = 1 + (!![1; 1] : Matrix (Fin 2) (Fin 1) ℝ) * (!![1; 1] : Matrix (Fin 2) (Fin 1) ℝ)ᴴ := by
      ext i j; fin_cases i <;> fin_cases j <;> simp [Matrix.vecMul, dotProduct] <;> norm_num
    rw [e]
    exact PosSemidef.one.add (posSemidef_self_mul_conjTranspose _)
  · refine Prod.ext (funext fun t => ?_) (funext fun t => ?_)
    · rw [show (projectStateMarginalsToFDiag (N := 1) (fun _ => !![1, 1; 1, -1]) (fun _ => ![1, 2]) fun _ => !![2, 1; 1, 2]).1 =
        projectStateToF (N := 1) (fun _ => !![1, 1; 1, -1]) (fun _ => ![1, 2]) from rfl,
        (C25_projection (N := 1) (fun _ => !![1, 1; 1, -1]) (fun _ => ![1, 2]) (fun _ => !![2, 1; 1, 2]) t).1]
      ext i; fin_cases i <;> simp [mulVec, dotProduct, Fin.sum_univ_two] <;> norm_num
    · ext i
      rw [show (projectStateMarginalsToFDiag (N := 1) (fun _ => !![1, 1; 1, -1]) (fun _ => ![1, 2]) fun _ => !![2, 1; 1, 2]).2 =
        projectStateCovarianceToFDiag (N := 1) (fun _ => !![1, 1; 1, -1]) (fun _ => !![2, 1; 1, 2]) from rfl,
        (C25_projection (N := 1) (fun _ => !![1, 1; 1, -1]) (fun _ => ![1, 2]) (fun _ => !![2, 1; 1, 2]) t).2.2]
      fin_cases i <;> simp [Matrix.mul_apply, Fin.sum_univ_two] <;> norm_num

end MF
