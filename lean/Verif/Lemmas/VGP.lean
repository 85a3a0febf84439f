import Verif.Model.VGP
import Verif.Lemmas.Elbo
import Verif.Props.GPR

/-!
# Lemmas for the variational models
-/

namespace MF
open Matrix Spec MeasureTheory ProbabilityTheory InformationTheory
variable {n d o p : ℕ}

/-- Latent outputs `f_i = H(t_i) x_i + m(t_i)` of a state trajectory. -/
noncomputable def latentOf (K : Stationary o d) (m : ℝ → Vec o) (ts : Fin (n + 1) → ℝ)
    (x : Ix n d → ℝ) : Fin (n + 1) × Fin o → ℝ :=
  fun i => (K.emission (ts i.1) *ᵥ unstk x i.1) i.2 + m (ts i.1) i.2

theorem latentOf_eq (K : Stationary o d) (m : ℝ → Vec o) (ts : Fin (n + 1) → ℝ) :
    latentOf K m ts = fun x => meanVec m ts + outMat K ts *ᵥ x := by
  funext x i
  rw [outMat_mulVec, Pi.add_apply, add_comm]
  rfl

theorem measurable_latentOf (K : Stationary o d) (m : ℝ → Vec o) (ts : Fin (n + 1) → ℝ) :
    Measurable (latentOf K m ts) := by
  rw [latentOf_eq]
  exact measurable_affine _ _

/-- The law of the latent outputs under a Gaussian law of the states. -/
theorem latentOf_gauss (K : Stationary o d) (m : ℝ → Vec o) (ts : Fin (n + 1) → ℝ) (q : SSM n d) :
    q.law.map (latentOf K m ts) =
      gaussLaw (fun i => (K.emission (ts i.1) *ᵥ q.mus i.1) i.2 + m (ts i.1) i.2)
        (outMat K ts * q.Kd * (outMat K ts)ᵀ) := by
  rw [SSM.law_eq_gauss, latentOf_eq, gaussLaw_map_affine q.Kd_posSemidef, outMat_mulVec]
  congr 1
  funext i
  rw [Pi.add_apply, add_comm]
  rfl

theorem outMat_conj_diag (K : Stationary o d) (ts : Fin (n + 1) → ℝ) (C : Matrix (Ix n d) (Ix n d) ℝ)
    (i : Fin (n + 1)) (a b : Fin o) :
    (outMat K ts * C * (outMat K ts)ᵀ) (i, a) (i, b) =
      (K.emission (ts i) * blk C i i * (K.emission (ts i))ᵀ) a b := by
  have e1 : ∀ (x : Fin (n + 1) × Fin d → ℝ), ∑ j, outMat K ts (i, a) j * x j =
      ∑ c, K.emission (ts i) a c * x (i, c) := fun x => congrFun (outMat_mulVec K ts x) (i, a)
  have e2 : ∀ (x : Fin (n + 1) × Fin d → ℝ), ∑ j, outMat K ts (i, b) j * x j =
      ∑ c, K.emission (ts i) b c * x (i, c) := fun x => congrFun (outMat_mulVec K ts x) (i, b)
  simp only [mul_apply, transpose_apply]
  calc ∑ j, (∑ l, outMat K ts (i, a) l * C l j) * outMat K ts (i, b) j
      = ∑ j, outMat K ts (i, b) j * ∑ c, K.emission (ts i) a c * C (i, c) j := by
        refine Finset.sum_congr rfl fun j _ => ?_
        rw [e1 fun l => C l j, mul_comm]
    _ = ∑ c', K.emission (ts i) b c' * ∑ c, K.emission (ts i) a c * C (i, c) (i, c') :=
        e2 fun j => ∑ c, K.emission (ts i) a c * C (i, c) j
    _ = _ := by
        refine Finset.sum_congr rfl fun c _ => ?_
        rw [mul_comm]
        rfl

theorem measurable_outputLogLik {T : Type*} [Fintype T] {lik : ScalarLikelihood} (h : ExactLikelihood lik)
    (y : T → Vec o) : Measurable (outputLogLik lik y) := by
  unfold outputLogLik
  exact Finset.measurable_sum _ fun i _ => Finset.measurable_sum _ fun a _ =>
    (h.measurable _).comp (measurable_pi_apply _)

/-- The expected log likelihood under a Gaussian law is a sum of one-dimensional expectations. -/
theorem integral_outputLogLik {T : Type*} [Fintype T] [DecidableEq T] {lik : ScalarLikelihood}
    (h : ExactLikelihood lik) (y : T → Vec o) (m : T × Fin o → ℝ) {C : Matrix (T × Fin o) (T × Fin o) ℝ}
    (hC : C.PosSemidef) :
    Integrable (outputLogLik lik y) (gaussLaw m C) ∧
    ∫ f, outputLogLik lik y f ∂gaussLaw m C =
      ∑ i, ∑ a, lik.varExp (m (i, a)) (C (i, a) (i, a)) (y i a) := by
  have hint : ∀ i a, Integrable (fun f : T × Fin o → ℝ => lik.logProb (f (i, a)) (y i a)) (gaussLaw m C) := by
    intro i a
    have := h.integrable (m (i, a)) (C (i, a) (i, a)) (y i a)
    rw [← gaussLaw_eval hC] at this
    exact this.comp_measurable (measurable_pi_apply (i, a))
  refine ⟨integrable_finsetSum _ fun i _ => integrable_finsetSum _ fun a _ => hint i a, ?_⟩
  unfold outputLogLik
  rw [integral_finsetSum _ fun i _ => integrable_finsetSum _ fun a _ => hint i a]
  refine Finset.sum_congr rfl fun i _ => ?_
  rw [integral_finsetSum _ fun a _ => hint i a]
  refine Finset.sum_congr rfl fun a _ => ?_
  rw [h.varExp _ _ _ (hC.diag_nonneg), ← gaussLaw_eval hC,
    integral_map (measurable_pi_apply _).aemeasurable (h.measurable _).aestronglyMeasurable]

end MF
