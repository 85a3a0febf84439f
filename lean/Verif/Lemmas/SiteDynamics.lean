import Verif.Lemmas.AscentConverges
import Verif.Lemmas.HyperGrad
import Verif.Lemmas.OptimumExists

/-!
# The bound as a function of Gaussian sites, and its slope along the direction of a site update

`G` is the prior covariance of the function values, `θ = (a, b)` the sites `exp(a_i f_i + b_i f_i²)`, `ψ i m v` the expected log likelihood of datum `i` under
`N(m, v)`.
-/

namespace MF
open Matrix Spec Set Filter Topology

namespace SiteDyn
variable {ι : Type*} [Fintype ι] [DecidableEq ι]

/-- precision of the function values -/
noncomputable def prec (G : Matrix ι ι ℝ) (θ : (ι → ℝ) × (ι → ℝ)) : Matrix ι ι ℝ := G⁻¹ + Matrix.diagonal fun i => -2 * θ.2 i

/-- covariance of the function values -/
noncomputable def cov (G : Matrix ι ι ℝ) (θ : (ι → ℝ) × (ι → ℝ)) : Matrix ι ι ℝ := (prec G θ)⁻¹

/-- mean of the function values -/
noncomputable def mean (G : Matrix ι ι ℝ) (θ : (ι → ℝ) × (ι → ℝ)) : ι → ℝ := cov G θ *ᵥ θ.1

/-- the bound -/
noncomputable def bound (ψ : ι → ℝ → ℝ → ℝ) (G : Matrix ι ι ℝ) (θ : (ι → ℝ) × (ι → ℝ)) : ℝ :=
  (∑ i, ψ i (mean G θ i) (cov G θ i i)) - gaussKL (mean G θ) (cov G θ) 0 G

/-- the sites a full update moves to -/
noncomputable def target (ψ : ι → ℝ → ℝ → ℝ) (G : Matrix ι ι ℝ) (θ : (ι → ℝ) × (ι → ℝ)) : (ι → ℝ) × (ι → ℝ) :=
  (fun i => deriv (fun x => ψ i x (cov G θ i i)) (mean G θ i) - 2 * deriv (fun x => ψ i (mean G θ i) x) (cov G θ i i) * mean G θ i,
   fun i => deriv (fun x => ψ i (mean G θ i) x) (cov G θ i i))

/-- sites with `b ≤ 0` -/
def neg (ι : Type*) : Set ((ι → ℝ) × (ι → ℝ)) := {θ | ∀ i, θ.2 i ≤ 0}

/-- the squared length of a direction `h` at `θ` -/
noncomputable def quad (G : Matrix ι ι ℝ) (z : ((ι → ℝ) × (ι → ℝ)) × ((ι → ℝ) × (ι → ℝ))) : ℝ :=
  (fun i => z.2.1 i + 2 * mean G z.1 i * z.2.2 i) ⬝ᵥ (cov G z.1 *ᵥ fun i => z.2.1 i + 2 * mean G z.1 i * z.2.2 i) +
    2 * ∑ i, ∑ j, z.2.2 i * cov G z.1 i j ^ 2 * z.2.2 j

variable {G : Matrix ι ι ℝ} {ψ : ι → ℝ → ℝ → ℝ} {θ h : (ι → ℝ) × (ι → ℝ)}

theorem prec_posDef (hG : G.PosDef) (hθ : θ ∈ neg ι) : (prec G θ).PosDef :=
  hG.inv.add_posSemidef (Matrix.PosSemidef.diagonal fun i => by have := hθ i; show 0 ≤ -2 * θ.2 i; linarith)

theorem cov_posDef (hG : G.PosDef) (hθ : θ ∈ neg ι) : (cov G θ).PosDef := (prec_posDef hG hθ).inv

theorem contDiffAt_prec {N : WithTop ℕ∞} (i j : ι) : ContDiffAt ℝ N (fun θ => prec G θ i j) θ := by
  simp only [prec, Matrix.add_apply, Matrix.diagonal_apply]
  refine contDiffAt_const.add ?_
  by_cases hij : i = j
  · simp only [hij, if_true]
    exact contDiffAt_const.mul ((contDiff_apply ℝ ℝ j).comp contDiff_snd).contDiffAt
  · simp only [hij, if_false]
    exact contDiffAt_const

theorem contDiffAt_cov {N : WithTop ℕ∞} (hd : (prec G θ).det ≠ 0) (i j : ι) : ContDiffAt ℝ N (fun θ => cov G θ i j) θ :=
  contDiffAt_inv (fun i j => contDiffAt_prec i j) hd i j

theorem contDiffAt_mean {N : WithTop ℕ∞} (hd : (prec G θ).det ≠ 0) (i : ι) : ContDiffAt ℝ N (fun θ => mean G θ i) θ := by
  simp only [mean, mulVec, dotProduct]
  exact ContDiffAt.sum fun j _ => (contDiffAt_cov hd i j).mul ((contDiff_apply ℝ ℝ j).comp contDiff_fst).contDiffAt

theorem contDiffAt_bound {N : WithTop ℕ∞} (hG : G.PosDef) (hψ : ∀ i m v, 0 < v → ContDiffAt ℝ N (fun x : ℝ × ℝ => ψ i x.1 x.2) (m, v)) (hθ : θ ∈ neg ι) :
    ContDiffAt ℝ N (bound ψ G) θ := by
  have hp := prec_posDef hG hθ
  have hd := hp.det_pos.ne'
  have hc : ∀ i j, ContDiffAt ℝ N (fun θ => cov G θ i j) θ := fun i j => contDiffAt_cov hd i j
  have hm : ∀ i, ContDiffAt ℝ N (fun θ => mean G θ i) θ := fun i => contDiffAt_mean hd i
  have hcd : (cov G θ).det ≠ 0 := (cov_posDef hG hθ).det_pos.ne'
  unfold bound gaussKL
  refine ContDiffAt.sub (ContDiffAt.sum fun i _ => ?_) ?_
  · exact ContDiffAt.comp θ (hψ i (mean G θ i) (cov G θ i i) ((cov_posDef hG hθ).diag_pos)) ((hm i).prodMk (hc i i))
  · simp only [trace, diag_apply, Matrix.mul_apply, dotProduct, mulVec]
    refine contDiffAt_const.mul (((((ContDiffAt.sum fun i _ => ContDiffAt.sum fun j _ => contDiffAt_const.mul (hc j i)).add
      (ContDiffAt.sum fun i _ => ContDiffAt.mul ?_ (ContDiffAt.sum fun j _ => contDiffAt_const.mul ?_))).sub contDiffAt_const).add contDiffAt_const).sub
      ((contDiffAt_det hc).log hcd))
    · exact contDiffAt_const.sub (hm i)
    · exact contDiffAt_const.sub (hm j)

/-- the derivative of the moments along a direction -/
theorem hasDerivAt_line (hG : G.PosDef) (hθ : θ ∈ neg ι) :
    (∀ i j, HasDerivAt (fun t : ℝ => cov G (θ + t • h) i j) ((cov G θ * Matrix.diagonal (fun i => 2 * h.2 i) * cov G θ) i j) 0) ∧
    ∀ i, HasDerivAt (fun t : ℝ => mean G (θ + t • h) i) ((cov G θ *ᵥ fun i => h.1 i + 2 * mean G θ i * h.2 i) i) 0 := by
  have hp := prec_posDef hG hθ
  have h0 : θ + (0 : ℝ) • h = θ := by simp
  have e1 : ∀ i j, HasDerivAt (fun t : ℝ => prec G (θ + t • h) i j) (Matrix.diagonal (fun i => -2 * h.2 i) i j) 0 := fun i j => by
    simp only [prec, Matrix.add_apply, Matrix.diagonal_apply]
    refine HasDerivAt.const_add _ ?_
    by_cases hij : i = j
    · simp only [hij, if_true, Prod.snd_add, Prod.smul_snd, Pi.add_apply, Pi.smul_apply, smul_eq_mul]
      have := (((hasDerivAt_id (𝕜 := ℝ) (0 : ℝ)).mul_const (h.2 j)).const_add (θ.2 j)).const_mul (-2)
      simpa using this
    · simp only [hij, if_false]
      exact hasDerivAt_const _ _
  have e2 : ∀ i j, HasDerivAt (fun t : ℝ => cov G (θ + t • h) i j) ((cov G θ * Matrix.diagonal (fun i => 2 * h.2 i) * cov G θ) i j) 0 := fun i j => by
    have := hasDeriv_matrix_inv (C := fun t : ℝ => prec G (θ + t • h)) e1 (by rw [h0]; exact hp.det_pos.ne') i j
    refine this.congr_deriv ?_
    have e3 : (Matrix.diagonal fun i => -2 * h.2 i) = -Matrix.diagonal fun i => 2 * h.2 i := by
      ext a b
      simp only [Matrix.neg_apply, Matrix.diagonal_apply]
      split_ifs <;> ring
    rw [h0, e3, Matrix.mul_neg, Matrix.neg_mul, neg_neg]
    rfl
  refine ⟨e2, fun i => ?_⟩
  have e4 : HasDerivAt (fun t : ℝ => mean G (θ + t • h) i)
      (∑ j, ((cov G θ * Matrix.diagonal (fun i => 2 * h.2 i) * cov G θ) i j * θ.1 j + cov G θ i j * h.1 j)) 0 := by
    simp only [mean, mulVec, dotProduct]
    refine HasDerivAt.fun_sum fun j _ => ?_
    have h1 : HasDerivAt (fun t : ℝ => (θ + t • h).1 j) (h.1 j) 0 := by
      have := ((hasDerivAt_id (𝕜 := ℝ) (0 : ℝ)).mul_const (h.1 j)).const_add (θ.1 j)
      simpa using this
    have := (e2 i j).mul h1
    simp only [h0] at this
    exact this
  refine e4.congr_deriv ?_
  rw [Finset.sum_add_distrib]
  have e5 : ∑ j, (cov G θ * Matrix.diagonal (fun i => 2 * h.2 i) * cov G θ) i j * θ.1 j =
      (cov G θ *ᵥ fun i => 2 * mean G θ i * h.2 i) i := by
    show ((cov G θ * Matrix.diagonal (fun i => 2 * h.2 i) * cov G θ) *ᵥ θ.1) i = _
    rw [← mulVec_mulVec, ← mulVec_mulVec]
    congr 2
    funext j
    rw [mulVec_diagonal]
    show 2 * h.2 j * mean G θ j = _
    ring
  rw [e5]
  show _ + (cov G θ *ᵥ h.1) i = _
  rw [← Pi.add_apply, ← mulVec_add]
  refine congrArg (fun w => (cov G θ *ᵥ w) i) (funext fun j => ?_)
  show 2 * mean G θ j * h.2 j + h.1 j = _
  ring

/-- the derivative of the bound along a direction -/
theorem hasDerivAt_bound (hG : G.PosDef) (hψ : ∀ i m v, 0 < v → DifferentiableAt ℝ (fun x : ℝ × ℝ => ψ i x.1 x.2) (m, v)) (hθ : θ ∈ neg ι) :
    HasDerivAt (fun t : ℝ => bound ψ G (θ + t • h))
      (∑ i, ((target ψ G θ - θ).1 i + 2 * mean G θ i * (target ψ G θ - θ).2 i) * (cov G θ *ᵥ fun i => h.1 i + 2 * mean G θ i * h.2 i) i +
        ∑ i, (target ψ G θ - θ).2 i * (cov G θ * Matrix.diagonal (fun i => 2 * h.2 i) * cov G θ) i i) 0 := by
  obtain ⟨hS, hm⟩ := hasDerivAt_line (h := h) hG hθ
  have hp := prec_posDef hG hθ
  have hc := cov_posDef hG hθ
  have h0 : θ + (0 : ℝ) • h = θ := by simp
  set S' := cov G θ * Matrix.diagonal (fun i => 2 * h.2 i) * cov G θ with hS'
  set m' := cov G θ *ᵥ fun i => h.1 i + 2 * mean G θ i * h.2 i with hm'
  -- the expected log likelihoods
  have d1 : ∀ i, HasDerivAt (fun t : ℝ => ψ i (mean G (θ + t • h) i) (cov G (θ + t • h) i i))
      (deriv (fun x => ψ i x (cov G θ i i)) (mean G θ i) * m' i + deriv (fun x => ψ i (mean G θ i) x) (cov G θ i i) * S' i i) 0 := fun i => by
    have hf := (hψ i (mean G θ i) (cov G θ i i) hc.diag_pos).hasFDerivAt
    have p1 : deriv (fun x => ψ i x (cov G θ i i)) (mean G θ i) = fderiv ℝ (fun x : ℝ × ℝ => ψ i x.1 x.2) (mean G θ i, cov G θ i i) (1, 0) := by
      have := hf.comp_hasDerivAt (mean G θ i) ((hasDerivAt_id (𝕜 := ℝ) (mean G θ i)).prodMk (hasDerivAt_const (mean G θ i) (cov G θ i i)))
      exact this.deriv
    have p2 : deriv (fun x => ψ i (mean G θ i) x) (cov G θ i i) = fderiv ℝ (fun x : ℝ × ℝ => ψ i x.1 x.2) (mean G θ i, cov G θ i i) (0, 1) := by
      have := hf.comp_hasDerivAt (cov G θ i i) ((hasDerivAt_const (cov G θ i i) (mean G θ i)).prodMk (hasDerivAt_id (𝕜 := ℝ) (cov G θ i i)))
      exact this.deriv
    have hf' : HasFDerivAt (fun x : ℝ × ℝ => ψ i x.1 x.2) (fderiv ℝ (fun x : ℝ × ℝ => ψ i x.1 x.2) (mean G θ i, cov G θ i i))
        (mean G (θ + (0 : ℝ) • h) i, cov G (θ + (0 : ℝ) • h) i i) := by rw [h0]; exact hf
    have := hf'.comp_hasDerivAt (0 : ℝ) ((hm i).prodMk (hS i i))
    refine this.congr_deriv ?_
    rw [p1, p2, show ((m' i, S' i i) : ℝ × ℝ) = m' i • (1, 0) + S' i i • (0, 1) by ext <;> simp, map_add, map_smul, map_smul, smul_eq_mul, smul_eq_mul]
    ring
  -- the divergence
  have hPS : prec G θ * cov G θ = 1 := mul_nonsing_inv _ (isUnit_det' hp.isUnit)
  have hPi : (cov G θ)⁻¹ = prec G θ := nonsing_inv_nonsing_inv _ (isUnit_det' hp.isUnit)
  have hPm : prec G θ *ᵥ mean G θ = θ.1 := by rw [mean, mulVec_mulVec, hPS, one_mulVec]
  have hGP : G⁻¹ = prec G θ + Matrix.diagonal fun i => 2 * θ.2 i := by
    rw [prec, add_assoc, Matrix.diagonal_add]
    simp
  have d2 : HasDerivAt (fun t : ℝ => gaussKL (mean G (θ + t • h)) (cov G (θ + t • h)) 0 G)
      (∑ i, θ.1 i * m' i + ∑ i, θ.2 i * (S' i i + 2 * mean G θ i * m' i)) 0 := by
    have t1 : HasDerivAt (fun t : ℝ => (G⁻¹ * cov G (θ + t • h)).trace) ((G⁻¹ * S').trace) 0 := by
      simp only [trace, diag_apply, Matrix.mul_apply]
      exact HasDerivAt.fun_sum fun i _ => HasDerivAt.fun_sum fun j _ => (hS j i).const_mul _
    have t2 : HasDerivAt (fun t : ℝ => (0 - mean G (θ + t • h)) ⬝ᵥ (G⁻¹ *ᵥ (0 - mean G (θ + t • h)))) (2 * (m' ⬝ᵥ (G⁻¹ *ᵥ mean G θ))) 0 := by
      have hr : ∀ i, HasDerivAt (fun t : ℝ => (0 - mean G (θ + t • h)) i) (-m' i) 0 := fun i => by
        have := (hm i).neg
        refine this.congr_of_eventuallyEq (.of_forall fun t => ?_)
        simp
      have : HasDerivAt (fun t : ℝ => ∑ i, (0 - mean G (θ + t • h)) i * ∑ j, G⁻¹ i j * (0 - mean G (θ + t • h)) j)
          (∑ i, (-m' i * ∑ j, G⁻¹ i j * (0 - mean G (θ + (0 : ℝ) • h)) j + (0 - mean G (θ + (0 : ℝ) • h)) i * ∑ j, G⁻¹ i j * -m' j)) 0 :=
        HasDerivAt.fun_sum fun i _ => (hr i).mul (HasDerivAt.fun_sum fun j _ => (hr j).const_mul _)
      refine this.congr_deriv ?_
      rw [h0, Finset.sum_add_distrib]
      have s1 : ∑ i, -m' i * ∑ j, G⁻¹ i j * (0 - mean G θ) j = m' ⬝ᵥ (G⁻¹ *ᵥ mean G θ) := by
        refine Finset.sum_congr rfl fun i _ => ?_
        simp [mulVec, dotProduct, Finset.sum_neg_distrib]
      have s2 : ∑ i, (0 - mean G θ) i * ∑ j, G⁻¹ i j * -m' j = mean G θ ⬝ᵥ (G⁻¹ *ᵥ m') := by
        refine Finset.sum_congr rfl fun i _ => ?_
        simp [mulVec, dotProduct, Finset.sum_neg_distrib]
      have s3 : mean G θ ⬝ᵥ (G⁻¹ *ᵥ m') = m' ⬝ᵥ (G⁻¹ *ᵥ mean G θ) := by
        rw [dotProduct_mulVec, ← mulVec_transpose, show G⁻¹ᵀ = G⁻¹ from posDef_tr hG.inv, dotProduct_comm]
      rw [s1, s2, s3]
      ring
    have t3 : HasDerivAt (fun t : ℝ => Real.log (cov G (θ + t • h)).det) (((cov G θ)⁻¹ * S').trace) 0 := by
      have := hasDerivAt_logdet (C := fun t : ℝ => cov G (θ + t • h)) hS (by rw [h0]; exact hc.det_pos.ne')
      simp only [h0] at this
      exact this
    have := (((((t1.add t2).sub_const (Fintype.card ι : ℝ)).add_const (Real.log G.det)).sub t3).const_mul (1 / 2 : ℝ))
    refine this.congr_deriv ?_
    rw [hPi, hGP, Matrix.add_mul, trace_add, add_mulVec, dotProduct_add, hPm]
    have s4 : ((Matrix.diagonal fun i => 2 * θ.2 i) * S').trace = ∑ i, 2 * θ.2 i * S' i i := by
      simp [trace, Matrix.diagonal_mul]
    have s5 : m' ⬝ᵥ ((Matrix.diagonal fun i => 2 * θ.2 i) *ᵥ mean G θ) = ∑ i, 2 * θ.2 i * mean G θ i * m' i := by
      refine Finset.sum_congr rfl fun i _ => ?_
      rw [mulVec_diagonal]
      ring
    have s6 : m' ⬝ᵥ θ.1 = ∑ i, θ.1 i * m' i := Finset.sum_congr rfl fun i _ => mul_comm _ _
    rw [s4, s5, s6]
    have s7 : ∑ i, θ.2 i * (S' i i + 2 * mean G θ i * m' i) = 1 / 2 * ∑ i, 2 * θ.2 i * S' i i + ∑ i, 2 * θ.2 i * mean G θ i * m' i := by
      rw [Finset.mul_sum, ← Finset.sum_add_distrib]
      exact Finset.sum_congr rfl fun i _ => by ring
    rw [s7]
    ring
  have := (HasDerivAt.fun_sum fun i (_ : i ∈ Finset.univ) => d1 i).sub d2
  refine this.congr_deriv ?_
  simp only [← Finset.sum_add_distrib, ← Finset.sum_sub_distrib]
  refine Finset.sum_congr rfl fun i _ => ?_
  show _ = ((target ψ G θ).1 i - θ.1 i + 2 * mean G θ i * ((target ψ G θ).2 i - θ.2 i)) * m' i + ((target ψ G θ).2 i - θ.2 i) * S' i i
  simp only [target]
  ring

/-- the slope of the bound along the direction of the update is the squared length of that direction -/
theorem fderiv_bound (hG : G.PosDef) (hψ : ∀ i m v, 0 < v → ContDiffAt ℝ 2 (fun x : ℝ × ℝ => ψ i x.1 x.2) (m, v)) (hθ : θ ∈ neg ι) :
    fderiv ℝ (bound ψ G) θ (target ψ G θ - θ) = quad G (θ, target ψ G θ - θ) := by
  have h1 := hasDerivAt_bound (h := target ψ G θ - θ) hG (fun i m v hv => (hψ i m v hv).differentiableAt (by norm_num)) hθ
  have h2 : HasDerivAt (fun t : ℝ => θ + t • (target ψ G θ - θ)) (target ψ G θ - θ) 0 := by
    have := ((hasDerivAt_id (𝕜 := ℝ) (0 : ℝ)).smul_const (target ψ G θ - θ)).const_add θ
    simpa using this
  have h3 : HasFDerivAt (bound ψ G) (fderiv ℝ (bound ψ G) θ) (θ + (0 : ℝ) • (target ψ G θ - θ)) := by
    rw [zero_smul, add_zero]
    exact ((contDiffAt_bound hG hψ hθ).differentiableAt (by norm_num)).hasFDerivAt
  have h4 := h3.comp_hasDerivAt (0 : ℝ) h2
  rw [h4.unique h1]
  unfold quad
  congr 1
  rw [Finset.mul_sum]
  refine Finset.sum_congr rfl fun i _ => ?_
  simp only [Matrix.mul_apply, Matrix.diagonal_apply, mul_ite, mul_zero, Finset.sum_ite_eq', Finset.mem_univ, if_true, Finset.mul_sum]
  refine Finset.sum_congr rfl fun j _ => ?_
  have hs : cov G θ j i = cov G θ i j := congrFun (congrFun (posDef_tr (cov_posDef hG hθ)) i) j
  rw [hs]
  ring

theorem quad_pos (hG : G.PosDef) (hθ : θ ∈ neg ι) (hh : h ≠ 0) : 0 < quad G (θ, h) := by
  have hc := cov_posDef hG hθ
  set u : ι → ℝ := fun i => h.1 i + 2 * mean G θ i * h.2 i with hu
  have h1 : 0 ≤ u ⬝ᵥ (cov G θ *ᵥ u) := by
    have := hc.posSemidef.dotProduct_mulVec_nonneg u
    rwa [star_trivial] at this
  obtain ⟨R, hR, hRR⟩ := exists_sqrt hc
  have hRt : Rᵀ = R := posDef_tr hR
  -- the second term is a sum of squares
  set W : Matrix ι ι ℝ := R * Matrix.diagonal h.2 * R with hW
  have hWt : Wᵀ = W := by
    rw [hW, Matrix.transpose_mul, Matrix.transpose_mul, Matrix.diagonal_transpose, hRt, Matrix.mul_assoc]
  have h2 : ∑ i, ∑ j, h.2 i * cov G θ i j ^ 2 * h.2 j = ∑ i, ∑ j, W i j ^ 2 := by
    have e1 : (W * Wᵀ).trace = ∑ i, ∑ j, W i j ^ 2 := by
      simp only [trace, diag_apply, Matrix.mul_apply, transpose_apply, ← sq]
    have e2 : (W * Wᵀ).trace = ((Matrix.diagonal h.2 * cov G θ) * (Matrix.diagonal h.2 * cov G θ)).trace := by
      have : W * W = R * (Matrix.diagonal h.2 * cov G θ * Matrix.diagonal h.2 * R) := by
        rw [hW, ← hRR]
        simp only [Matrix.mul_assoc]
      rw [hWt, this, trace_mul_comm, Matrix.mul_assoc _ R R, hRR]
      simp only [Matrix.mul_assoc]
    rw [← e1, e2]
    have e3 : (Matrix.diagonal h.2 * cov G θ) = Matrix.of fun i j => h.2 i * cov G θ i j := by
      ext i j
      rw [Matrix.diagonal_mul]
      rfl
    rw [e3]
    simp only [trace, diag_apply, Matrix.mul_apply, of_apply]
    refine Finset.sum_congr rfl fun i _ => Finset.sum_congr rfl fun j _ => ?_
    have hs : cov G θ j i = cov G θ i j := congrFun (congrFun (posDef_tr hc) i) j
    rw [hs]
    ring
  have h3 : 0 ≤ ∑ i, ∑ j, W i j ^ 2 := Finset.sum_nonneg fun i _ => Finset.sum_nonneg fun j _ => sq_nonneg _
  show 0 < u ⬝ᵥ (cov G θ *ᵥ u) + 2 * ∑ i, ∑ j, h.2 i * cov G θ i j ^ 2 * h.2 j
  rw [h2]
  by_cases hb : h.2 = 0
  · have hu0 : u ≠ 0 := fun h0 => hh (by
      refine Prod.ext ?_ hb
      funext i
      have := congrFun h0 i
      simpa [hu, hb] using this)
    have := hc.dotProduct_mulVec_pos hu0
    rw [star_trivial] at this
    linarith
  · have hpos : 0 < ∑ i, ∑ j, W i j ^ 2 := by
      refine lt_of_le_of_ne h3 fun h0 => hb ?_
      have hz : ∀ i j, W i j = 0 := fun i j => by
        have h4 := (Finset.sum_eq_zero_iff_of_nonneg fun i _ => Finset.sum_nonneg fun j _ => sq_nonneg (W i j)).1 h0.symm i (Finset.mem_univ _)
        have h5 := (Finset.sum_eq_zero_iff_of_nonneg fun j _ => sq_nonneg (W i j)).1 h4 j (Finset.mem_univ _)
        exact pow_eq_zero_iff (two_ne_zero) |>.1 h5
      have hW0 : W = 0 := by ext i j; exact hz i j
      have hRu := isUnit_det' hR.isUnit
      have hD : Matrix.diagonal h.2 = R⁻¹ * W * R⁻¹ := by
        rw [hW]
        rw [show R⁻¹ * (R * Matrix.diagonal h.2 * R) * R⁻¹ = (R⁻¹ * R) * Matrix.diagonal h.2 * (R * R⁻¹) by simp only [Matrix.mul_assoc],
          nonsing_inv_mul _ hRu, mul_nonsing_inv _ hRu, Matrix.one_mul, Matrix.mul_one]
      rw [hW0, Matrix.mul_zero, Matrix.zero_mul] at hD
      funext i
      have := congrFun (congrFun hD i) i
      simpa using this
    linarith

theorem quad_smul (t : ℝ) : quad G (θ, t • h) = t ^ 2 * quad G (θ, h) := by
  have e : (fun i => (t • h).1 i + 2 * mean G θ i * (t • h).2 i) = t • fun i => h.1 i + 2 * mean G θ i * h.2 i := by
    funext i
    simp only [Prod.smul_fst, Prod.smul_snd, Pi.smul_apply, smul_eq_mul]
    ring
  show (fun i => (t • h).1 i + 2 * mean G θ i * (t • h).2 i) ⬝ᵥ (cov G θ *ᵥ fun i => (t • h).1 i + 2 * mean G θ i * (t • h).2 i) +
    2 * ∑ i, ∑ j, t * h.2 i * cov G θ i j ^ 2 * (t * h.2 j) = t ^ 2 * (_ + 2 * ∑ i, ∑ j, h.2 i * cov G θ i j ^ 2 * h.2 j)
  rw [e, mulVec_smul, smul_dotProduct, dotProduct_smul, smul_eq_mul, smul_eq_mul]
  rw [mul_add, Finset.mul_sum, Finset.mul_sum, Finset.mul_sum]
  congr 1
  · ring
  · refine Finset.sum_congr rfl fun i _ => ?_
    rw [Finset.mul_sum, Finset.mul_sum, Finset.mul_sum]
    exact Finset.sum_congr rfl fun j _ => by ring

theorem continuousOn_quad (hG : G.PosDef) : ContinuousOn (quad G) (neg ι ×ˢ univ) := by
  rintro ⟨θ, h⟩ ⟨hθ, -⟩
  refine ContinuousAt.continuousWithinAt ?_
  have hd := (prec_posDef hG hθ).det_pos.ne'
  have hc : ∀ i j, ContinuousAt (fun z : ((ι → ℝ) × (ι → ℝ)) × ((ι → ℝ) × (ι → ℝ)) => cov G z.1 i j) (θ, h) := fun i j =>
    ContinuousAt.comp (g := fun θ => cov G θ i j) (f := Prod.fst) (contDiffAt_cov (N := 0) hd i j).continuousAt continuousAt_fst
  have hm : ∀ i, ContinuousAt (fun z : ((ι → ℝ) × (ι → ℝ)) × ((ι → ℝ) × (ι → ℝ)) => mean G z.1 i) (θ, h) := fun i =>
    ContinuousAt.comp (g := fun θ => mean G θ i) (f := Prod.fst) (contDiffAt_mean (N := 0) hd i).continuousAt continuousAt_fst
  have h1 : ∀ i, ContinuousAt (fun z : ((ι → ℝ) × (ι → ℝ)) × ((ι → ℝ) × (ι → ℝ)) => z.2.1 i) (θ, h) := fun i => by fun_prop
  have h2 : ∀ i, ContinuousAt (fun z : ((ι → ℝ) × (ι → ℝ)) × ((ι → ℝ) × (ι → ℝ)) => z.2.2 i) (θ, h) := fun i => by fun_prop
  have hu : ∀ i, ContinuousAt (fun z : ((ι → ℝ) × (ι → ℝ)) × ((ι → ℝ) × (ι → ℝ)) => z.2.1 i + 2 * mean G z.1 i * z.2.2 i) (θ, h) := fun i =>
    (h1 i).add ((continuousAt_const.mul (hm i)).mul (h2 i))
  unfold quad
  simp only [dotProduct, mulVec]
  exact (tendsto_finsetSum _ fun i _ => (hu i).mul (tendsto_finsetSum _ fun j _ => (hc i j).mul (hu j))).add
    (tendsto_const_nhds.mul (tendsto_finsetSum _ fun i _ => tendsto_finsetSum _ fun j _ => ((h2 i).mul ((hc i j).pow 2)).mul (h2 j)))

end SiteDyn
end MF
