import Verif.Lemmas.Gauss
import Verif.Lemmas.GaussKL
import Verif.Lemmas.SSM2

/-! # The law of a state space model's trajectory -/

namespace MF
open Matrix Spec MeasureTheory ProbabilityTheory
variable {n d : ℕ}

theorem simulate_isTrajectory (m0 : Vec d) (A : Fin n → Mat d d) (b : Fin n → Vec d)
    (noise : Fin (n + 1) → Vec d) : IsTrajectory m0 A b noise (simulate m0 A b noise) where
  zero := rfl
  succ k := by
    simp only [simulate, Fin.induction_succ]

theorem IsTrajectory.unique {m0 : Vec d} {A : Fin n → Mat d d} {b : Fin n → Vec d}
    {noise x y : Fin (n + 1) → Vec d} (h : IsTrajectory m0 A b noise x)
    (h' : IsTrajectory m0 A b noise y) : x = y := by
  funext k
  induction k using Fin.induction with
  | zero => rw [h.zero, h'.zero]
  | succ k ih => rw [h.succ, h'.succ, ih]

namespace SSM
variable (s : SSM n d)

/-- The law of the trajectory of `s`. -/
noncomputable def law : Measure (Ix n d → ℝ) := trajLaw s.mu0 s.cholP0 s.A s.b s.cholQ

variable {s}

theorem noise_eq (e : Fin (n + 1) → Vec d) :
    (Fin.cons (s.cholP0 *ᵥ e 0) fun k => s.cholQ k *ᵥ e k.succ : Fin (n + 1) → Vec d)
      = fun k => s.concatChol k *ᵥ e k := by
  funext k
  refine Fin.cases ?_ (fun k => ?_) k <;> rfl

theorem simulate_eq (e : Fin (n + 1) → Vec d) :
    stk (simulate s.mu0 s.A s.b (fun k => s.concatChol k *ᵥ e k)) =
      stk s.mus + (s.Ai⁻¹ * denseDiag s.concatChol) *ᵥ stk e := by
  have h := (isTrajectory_iff (s := s) _ _).1
    (simulate_isTrajectory s.mu0 s.A s.b (fun k => s.concatChol k *ᵥ e k))
  have h2 : stk (simulate s.mu0 s.A s.b (fun k => s.concatChol k *ᵥ e k)) =
      s.Ai⁻¹ *ᵥ stk (fun k => s.concatOffsets k + s.concatChol k *ᵥ e k) := by
    rw [← h, mulVec_mulVec, nonsing_inv_mul _ (isUnit_det s.isUnit_Ai), one_mulVec]
  rw [h2, stk_add, mulVec_add, stk_mus, ← mulVec_mulVec]
  congr 2
  apply vblk_ext
  intro b
  rw [vblk_diag_mulVec]
  rfl

theorem sample_simulate (hn : 0 < n) (e : Fin (n + 1) → Vec d) :
    s.sample e = .ok (simulate s.mu0 s.A s.b (fun k => s.concatChol k *ᵥ e k)) := by
  obtain ⟨x, hx, hs⟩ := sample_eq (s := s) hn e
  rw [hx]
  congr 1
  apply stk_injective
  rw [hs, simulate_eq]

theorem law_eq_gauss : s.law = gaussLaw (stk s.mus) s.Kd := by
  unfold law trajLaw
  rw [Kd_eq_mul_transpose, ← stdNormal_map_affine]
  congr 1
  funext e
  rw [noise_eq, simulate_eq]
  rfl

theorem Kd_posSemidef : s.Kd.PosSemidef := by
  rw [Kd_eq_mul_transpose]; exact posSemidef_mul_transpose _

/-- Two Gaussians have the same law iff same mean and covariance. -/
theorem gaussLaw_inj {ι : Type*} [Fintype ι] [DecidableEq ι] {m₁ m₂ : ι → ℝ}
    {K₁ K₂ : Matrix ι ι ℝ} (h₁ : K₁.PosSemidef) (h₂ : K₂.PosSemidef) :
    gaussLaw m₁ K₁ = gaussLaw m₂ K₂ ↔ m₁ = m₂ ∧ K₁ = K₂ := by
  constructor
  · intro h
    constructor
    · funext i
      rw [← integral_eval_gaussLaw m₁ K₁ i, h, integral_eval_gaussLaw]
    · ext i j
      rw [← covariance_eval_gaussLaw h₁ m₁ i j, h, covariance_eval_gaussLaw h₂]
  · rintro ⟨rfl, rfl⟩; rfl

end SSM
end MF
