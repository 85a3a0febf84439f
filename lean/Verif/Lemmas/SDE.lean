import Verif.Spec.Kernel
import Mathlib.LinearAlgebra.Matrix.PosDef
import Mathlib.Analysis.Calculus.Deriv.Mul
import Mathlib.Analysis.Calculus.Deriv.Add
import Mathlib.Analysis.Calculus.Deriv.Shift
import Mathlib.Analysis.Calculus.Deriv.MeanValue

/-! # Linear SDEs: the Lyapunov argument for process covariances -/

namespace MF
open Matrix Spec

variable {d : ℕ}

namespace Spec.SolvesSDE
variable {F : Mat d d} {A : ℝ → Mat d d}

theorem comm (h : SolvesSDE F A) (s t : ℝ) : A s * A t = A t * A s := by
  rw [← h.add, ← h.add, add_comm]

/-- `F A = A F`. -/
theorem comm_F (h : SolvesSDE F A) (t : ℝ) : F * A t = A t * F := by
  ext i j
  -- differentiate `s ↦ A (t + s) = A t * A s` at zero
  have h1 : HasDerivAt (fun s => A (t + s) i j) ((F * A t) i j) 0 := by
    have := h.deriv (t + 0) i j
    have h3 := HasDerivAt.comp_const_add t 0 this
    rwa [add_zero] at h3
  have h2 : HasDerivAt (fun s => A (t + s) i j) ((A t * F) i j) 0 := by
    have e : (fun s => A (t + s) i j) = fun s => ∑ k, A t i k * A s k j := by
      funext s; rw [h.add, mul_apply]
    rw [e, mul_apply]
    refine HasDerivAt.fun_sum fun k _ => ?_
    have := (h.deriv 0 k j).const_mul (A t i k)
    rwa [h.zero, Matrix.mul_one] at this
  exact h1.unique h2

/-- `Q(t) = P - A(t) P A(t)ᵀ` has derivative `A W Aᵀ` with `W = -(F P + P Fᵀ)`. -/
theorem deriv_quad (h : SolvesSDE F A) (P : Mat d d) (v : Vec d) (t : ℝ) :
    HasDerivAt (fun s => v ⬝ᵥ ((P - A s * P * (A s)ᵀ) *ᵥ v))
      (v ⬝ᵥ ((A t * (-(F * P + P * Fᵀ)) * (A t)ᵀ) *ᵥ v)) t := by
  have hM : ∀ i j, HasDerivAt (fun s => (A s * P * (A s)ᵀ) i j)
      ((A t * (F * P + P * Fᵀ) * (A t)ᵀ) i j) t := by
    intro i j
    have e : (fun s => (A s * P * (A s)ᵀ) i j) = fun s => ∑ l, (∑ k, A s i k * P k l) * A s j l := by
      funext s; simp only [mul_apply, transpose_apply]
    rw [e]
    have e2 : (A t * (F * P + P * Fᵀ) * (A t)ᵀ) i j =
        ∑ l, ((∑ k, (A t * F) i k * P k l) * A t j l + (∑ k, A t i k * P k l) * (A t * F) j l) := by
      have : A t * (F * P + P * Fᵀ) * (A t)ᵀ = (A t * F) * P * (A t)ᵀ + A t * P * (A t * F)ᵀ := by
        rw [transpose_mul]; noncomm_ring
      rw [this, Matrix.add_apply, mul_apply, mul_apply, ← Finset.sum_add_distrib]
      simp only [mul_apply (M := A t * F) (N := P), mul_apply (M := A t) (N := P), transpose_apply]
    rw [e2]
    refine HasDerivAt.fun_sum fun l _ => ?_
    have d1 : HasDerivAt (fun s => ∑ k, A s i k * P k l) (∑ k, (A t * F) i k * P k l) t := by
      refine HasDerivAt.fun_sum fun k _ => ?_
      have := (h.deriv t i k).mul_const (P k l)
      rwa [h.comm_F] at this
    have d2 := h.deriv t j l
    rw [h.comm_F] at d2
    exact d1.mul d2
  have e : (fun s => v ⬝ᵥ ((P - A s * P * (A s)ᵀ) *ᵥ v)) =
      fun s => ∑ i, v i * ∑ j, (P i j - (A s * P * (A s)ᵀ) i j) * v j := by
    funext s; rfl
  have e2 : v ⬝ᵥ ((A t * (-(F * P + P * Fᵀ)) * (A t)ᵀ) *ᵥ v) =
      ∑ i, v i * ∑ j, (0 - (A t * (F * P + P * Fᵀ) * (A t)ᵀ) i j) * v j := by
    have : A t * (-(F * P + P * Fᵀ)) * (A t)ᵀ = -(A t * (F * P + P * Fᵀ) * (A t)ᵀ) := by noncomm_ring
    rw [this]
    simp only [dotProduct, mulVec, Matrix.neg_apply, zero_sub]
  rw [e, e2]
  refine HasDerivAt.fun_sum fun i _ => HasDerivAt.const_mul _ ?_
  refine HasDerivAt.fun_sum fun j _ => HasDerivAt.mul_const ?_ _
  exact (hasDerivAt_const t (P i j)).sub (hM i j)

theorem quad_zero (h : SolvesSDE F A) (P : Mat d d) (v : Vec d) :
    v ⬝ᵥ ((P - A 0 * P * (A 0)ᵀ) *ᵥ v) = 0 := by
  rw [h.zero]; simp

theorem quad_mono (h : SolvesSDE F A) {P : Mat d d} (hW : (-(F * P + P * Fᵀ)).PosSemidef) (v : Vec d) :
    Monotone fun s => v ⬝ᵥ ((P - A s * P * (A s)ᵀ) *ᵥ v) := by
  refine monotone_of_hasDerivAt_nonneg (fun t => h.deriv_quad P v t) fun t => ?_
  have := hW.mul_mul_conjTranspose_same (A t)
  rw [conjTranspose_eq_transpose_of_trivial] at this
  have h2 := this.dotProduct_mulVec_nonneg v
  simpa using h2

/-- Process covariances are positive semi-definite. -/
theorem noise_posSemidef (h : SolvesSDE F A) {P : Mat d d} (hP : Pᵀ = P)
    (hW : (-(F * P + P * Fᵀ)).PosSemidef) {t : ℝ} (ht : 0 ≤ t) :
    (P - A t * P * (A t)ᵀ).PosSemidef := by
  refine PosSemidef.of_dotProduct_mulVec_nonneg ?_ fun v => ?_
  · rw [IsHermitian, conjTranspose_eq_transpose_of_trivial, transpose_sub, transpose_mul,
      transpose_mul, transpose_transpose, hP, Matrix.mul_assoc]
  · have := h.quad_mono hW v ht
    simp only [h.quad_zero] at this
    simpa using this

/-- ... and positive definite when no direction is unexcited on a whole interval. -/
theorem noise_posDef (h : SolvesSDE F A) {P : Mat d d} (hP : Pᵀ = P)
    (hW : (-(F * P + P * Fᵀ)).PosSemidef) {t : ℝ} (ht : 0 < t)
    (hctrl : ∀ v : Vec d, (∀ s ∈ Set.Ioo 0 t,
      v ⬝ᵥ ((A s * (-(F * P + P * Fᵀ)) * (A s)ᵀ) *ᵥ v) = 0) → v = 0) :
    (P - A t * P * (A t)ᵀ).PosDef := by
  refine PosDef.of_dotProduct_mulVec_pos (h.noise_posSemidef hP hW ht.le).isHermitian fun v hv => ?_
  have hmono := h.quad_mono hW v
  have h0 : 0 ≤ v ⬝ᵥ ((P - A t * P * (A t)ᵀ) *ᵥ v) := by
    have := hmono ht.le
    simpa only [h.quad_zero] using this
  rcases h0.lt_or_eq with h1 | h1
  · simpa using h1
  · exfalso
    apply hv
    apply hctrl
    intro s hs
    have hd := h.deriv_quad P v s
    have hc : (fun s => v ⬝ᵥ ((P - A s * P * (A s)ᵀ) *ᵥ v)) =ᶠ[nhds s] fun _ => 0 := by
      filter_upwards [Ioo_mem_nhds hs.1 hs.2] with r hr
      apply le_antisymm
      · have := hmono hr.2.le
        simpa only [← h1] using this
      · have := hmono hr.1.le
        simpa only [h.quad_zero] using this
    exact hd.unique ((hasDerivAt_const s (0:ℝ)).congr_of_eventuallyEq hc)

end Spec.SolvesSDE
end MF
