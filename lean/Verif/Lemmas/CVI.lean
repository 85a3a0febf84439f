import Verif.Model.CVI
import Verif.Spec.Sites
import Verif.Lemmas.Sites
import Verif.Props.VGP

/-!
# Lemmas for `CVIGaussianProcess`
-/

namespace MF
open Matrix Spec MeasureTheory ProbabilityTheory InformationTheory
variable {n d o p : ℕ}

theorem IsBayesPosterior.add_const {X : Type*} [MeasurableSpace X] {π ρ : Measure X} {ℓ : X → ℝ} (hℓ : Measurable ℓ)
    (c : ℝ) (h : IsBayesPosterior π ℓ ρ) : IsBayesPosterior π (fun x => ℓ x + c) ρ := by
  have hc : ENNReal.ofReal (Real.exp c) ≠ 0 := by simp [Real.exp_pos]
  have hc' : ENNReal.ofReal (Real.exp c) ≠ ⊤ := ENNReal.ofReal_ne_top
  have hm : Measurable fun x => ENNReal.ofReal (Real.exp (ℓ x)) := by fun_prop
  have hfun : (fun x => ENNReal.ofReal (Real.exp (ℓ x + c))) =
      ENNReal.ofReal (Real.exp c) • fun x => ENNReal.ofReal (Real.exp (ℓ x)) := by
    funext x
    rw [Real.exp_add, mul_comm, ENNReal.ofReal_mul (Real.exp_pos _).le]
    rfl
  have hev : evidence π (fun x => ℓ x + c) = ENNReal.ofReal (Real.exp c) * evidence π ℓ := by
    unfold evidence
    rw [hfun]
    exact lintegral_const_mul _ hm
  refine ⟨by rw [hev]; exact mul_ne_zero hc h.1, by rw [hev]; exact ENNReal.mul_ne_top hc' h.2.1, ?_⟩
  rw [hev, hfun, withDensity_smul _ hm, smul_smul, ENNReal.mul_inv (.inl hc) (.inl hc'), mul_comm (ENNReal.ofReal _)⁻¹,
    mul_assoc, ENNReal.inv_mul_cancel hc hc', mul_one]
  exact h.2.2

/-- One latent value per time: `f_t = H(t) x_t`. -/
noncomputable def latent1 (K : Stationary 1 d) (ts : Fin (n + 1) → ℝ) (x : Ix n d → ℝ) (t : Fin (n + 1)) : ℝ :=
  latentOf K (fun _ => 0) ts x (t, 0)

theorem latent1_eq (K : Stationary 1 d) (ts : Fin (n + 1) → ℝ) (x : Ix n d → ℝ) (t : Fin (n + 1)) :
    latent1 K ts x t = (K.emission (ts t) *ᵥ unstk x t) 0 := by
  simp [latent1, latentOf]

theorem latent1_measurable (K : Stationary 1 d) (ts : Fin (n + 1) → ℝ) : Measurable (latent1 K ts) :=
  measurable_pi_lambda _ fun t => (measurable_pi_apply (t, (0 : Fin 1))).comp (measurable_latentOf _ _ _)

/-- Back projection of the sites. -/
theorem backProject_quad (K : Stationary 1 d) (ts : Fin (n + 1) → ℝ) (θ₁ θ₂ : Fin (n + 1) → Vec 1) (x : Ix n d → ℝ) :
    stk (backProjectNats θ₁ θ₂ fun t => K.emission (ts t)).1 ⬝ᵥ x +
      x ⬝ᵥ (denseSym (backProjectNats θ₁ θ₂ fun t => K.emission (ts t)).2 (0 : Fin n → Mat d d) *ᵥ x) =
    siteLogLik (fun t => θ₁ t 0) (fun t => θ₂ t 0) (latent1 K ts x) := by
  have hD : ∀ b, ((backProjectNats θ₁ θ₂ fun t => K.emission (ts t)).2 b)ᵀ =
      (backProjectNats θ₁ θ₂ fun t => K.emission (ts t)).2 b := by
    intro b; ext i j
    simp only [backProjectNats, transpose_apply, of_apply]
    exact Finset.sum_congr rfl fun a _ => by ring
  rw [quad_denseSym _ _ hD]
  have h1 : stk (backProjectNats θ₁ θ₂ fun t => K.emission (ts t)).1 ⬝ᵥ x = ∑ t, θ₁ t 0 * latent1 K ts x t := by
    simp only [dotProduct, Fintype.sum_prod_type, stk, backProjectNats, Fin.sum_univ_one, latent1_eq, mulVec, unstk]
    refine Finset.sum_congr rfl fun t _ => ?_
    rw [Finset.mul_sum]
    exact Finset.sum_congr rfl fun a _ => by ring
  have h2 : ∀ t, unstk x t ⬝ᵥ ((backProjectNats θ₁ θ₂ fun t => K.emission (ts t)).2 t *ᵥ unstk x t) =
      θ₂ t 0 * latent1 K ts x t ^ 2 := by
    intro t
    simp only [dotProduct, mulVec, backProjectNats, Fin.sum_univ_one, of_apply, latent1_eq, sq, Finset.mul_sum,
      Finset.sum_mul]
    exact Finset.sum_congr rfl fun a _ => Finset.sum_congr rfl fun b _ => by ring
  simp only [h1, h2, Pi.zero_apply, zero_mulVec, dotProduct_zero, Finset.sum_const_zero, mul_zero, add_zero,
    siteLogLik, Finset.sum_add_distrib]

theorem backProject_symm (K : Stationary 1 d) (ts : Fin (n + 1) → ℝ) (θ₁ θ₂ : Fin (n + 1) → Vec 1) (b) :
    ((backProjectNats θ₁ θ₂ fun t => K.emission (ts t)).2 b)ᵀ =
      (backProjectNats θ₁ θ₂ fun t => K.emission (ts t)).2 b := by
  ext i j
  simp only [backProjectNats, transpose_apply, of_apply]
  exact Finset.sum_congr rfl fun a _ => by ring

/-- Sites with non-positive second parameter keep the precision positive definite. -/
theorem backProject_posDef (K : Stationary 1 d) (ts : Fin (n + 1) → ℝ) (θ₁ θ₂ : Fin (n + 1) → Vec 1)
    (h : ∀ t, θ₂ t 0 ≤ 0) {P : Matrix (Ix n d) (Ix n d) ℝ} (hP : P.PosDef) :
    (P - (2 : ℝ) • denseSym (backProjectNats θ₁ θ₂ fun t => K.emission (ts t)).2 (0 : Fin n → Mat d d)).PosDef := by
  rw [sub_eq_add_neg, ← smul_neg]
  refine hP.add_posSemidef ?_
  have hs := backProject_symm K ts θ₁ θ₂
  refine PosSemidef.of_dotProduct_mulVec_nonneg ?_ fun x => ?_
  · rw [IsHermitian, conjTranspose_eq_transpose_of_trivial, transpose_smul, transpose_neg]
    congr 2
    apply blk_ext
    intro b c
    rw [blk_transpose, blk_denseSym, blk_denseSym]
    unfold symBlk
    by_cases hbc : b = c
    · subst hbc; simp only [if_true]; exact hs b
    · rw [if_neg hbc, if_neg (Ne.symm hbc)]
      simp
  · have h0 := backProject_quad K ts 0 θ₂ x
    have e1 : stk (backProjectNats 0 θ₂ fun t => K.emission (ts t)).1 = 0 := by
      funext i; simp [stk, backProjectNats]
    rw [e1, zero_dotProduct, zero_add] at h0
    have e2 : (backProjectNats θ₁ θ₂ fun t => K.emission (ts t)).2 =
      (backProjectNats 0 θ₂ fun t => K.emission (ts t)).2 := rfl
    rw [star_trivial, smul_mulVec, neg_mulVec, dotProduct_smul, dotProduct_neg, smul_eq_mul, e2, h0]
    have : siteLogLik (fun t => (0 : Fin (n + 1) → Vec 1) t 0) (fun t => θ₂ t 0) (latent1 K ts x) ≤ 0 := by
      unfold siteLogLik
      refine Finset.sum_nonpos fun t _ => ?_
      have := mul_nonpos_of_nonpos_of_nonneg (h t) (sq_nonneg (latent1 K ts x t))
      simpa using this
    linarith

theorem measurable_siteLogLik {T : Type*} [Fintype T] (θ₁ θ₂ : T → ℝ) : Measurable (siteLogLik θ₁ θ₂) := by
  unfold siteLogLik; fun_prop

/-- `dist_q`, generically. -/
theorem CVI.distQ_cases {c : CVI n d} {s : SSM n d} (hs : c.kernel.stateSpaceModel c.times = .ok s)
    (hnd : s.Nondegenerate) (h0 : stk s.mus = 0) (hn : 0 < n) (hd : 0 < d) :
    let θ₂ : Fin (n + 1) → Vec 1 := fun t a => c.sites.nat2 t a 0
    let M := denseSym (backProjectNats c.sites.nat1 θ₂ fun t => c.kernel.emission (c.times t)).2 (0 : Fin n → Mat d d)
    ((s.Kd⁻¹ - (2 : ℝ) • M).PosDef → ∃ q, c.distQ = .ok q ∧ q.Nondegenerate ∧
      IsBayesPosterior s.law (fun x => siteLogLik (fun t => c.sites.nat1 t 0) (fun t => c.sites.nat2 t 0 0)
        (latent1 c.kernel c.times x)) q.law) ∧
    (¬ (s.Kd⁻¹ - (2 : ℝ) • M).PosDef → c.distQ = .error .invalidArgument) := by
  intro θ₂ M
  have hdq : c.distQ = naturalsToSSM (backProjectNats c.sites.nat1 θ₂ fun t => c.kernel.emission (c.times t)).1
      (fun b => (-(1 / 2) : ℝ) • s.precD b + (backProjectNats c.sites.nat1 θ₂ fun t => c.kernel.emission (c.times t)).2 b)
      (fun k => -s.precS k + (2 : ℝ) • (0 : Fin n → Mat d d) k) := by
    unfold CVI.distQ CVI.distP
    rw [hs]
    simp only [bind, Except.bind, SSM.precision_eq hnd hn, Option.getD_some, Pi.zero_apply, smul_zero, add_zero]
    rfl
  obtain ⟨h1, h2⟩ := naturals_posterior hnd h0 hn hd
    (backProjectNats c.sites.nat1 θ₂ fun t => c.kernel.emission (c.times t)).1
    (backProjectNats c.sites.nat1 θ₂ fun t => c.kernel.emission (c.times t)).2 (0 : Fin n → Mat d d)
    (backProject_symm _ _ _ _)
  constructor
  · intro hP
    obtain ⟨q, hq, hqn, -, -, hb, -⟩ := h1 hP
    refine ⟨q, hdq.trans hq, hqn, ?_⟩
    simp only [backProject_quad] at hb
    exact hb
  · intro hP
    exact hdq.trans (h2 hP)

end MF
