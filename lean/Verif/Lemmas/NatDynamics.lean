import Verif.Lemmas.AscentConverges
import Verif.Lemmas.HyperGrad
import Verif.Lemmas.OptimumExists

/-!
# The bound as a function of the natural parameters of a Gaussian, and its slope along the direction of a natural gradient step

The prior is `N(μ0, K0)`; `x = (a, A)` is the Gaussian with precision `A` and mean `A⁻¹ a`; datum `j` sees the linear functional `w j` of the state, and `ψ j m v`
is its expected log likelihood when that functional has law `N(m, v)`.
-/

namespace MF
open Matrix Spec Set Filter Topology

namespace NatDyn
variable {ι D : Type*} [Fintype ι] [DecidableEq ι] [Fintype D]

/-- covariance -/
noncomputable def cov (x : (ι → ℝ) × (ι → ι → ℝ)) : Matrix ι ι ℝ := (Matrix.of x.2)⁻¹

/-- mean -/
noncomputable def mean (x : (ι → ℝ) × (ι → ι → ℝ)) : ι → ℝ := cov x *ᵥ x.1

/-- a problem: prior mean and covariance, functionals, expected log likelihoods -/
structure Problem (ι D : Type*) where
  μ0 : ι → ℝ
  K0 : Matrix ι ι ℝ
  w : D → ι → ℝ
  ψ : D → ℝ → ℝ → ℝ
  r : D → ℝ

variable (P : Problem ι D)

/-- derivative in the mean -/
noncomputable def gm (x : (ι → ℝ) × (ι → ι → ℝ)) (j : D) : ℝ := deriv (fun z => P.ψ j z (P.w j ⬝ᵥ (cov x *ᵥ P.w j))) (P.w j ⬝ᵥ mean x)

/-- derivative in the variance -/
noncomputable def gv (x : (ι → ℝ) × (ι → ι → ℝ)) (j : D) : ℝ := deriv (fun z => P.ψ j (P.w j ⬝ᵥ mean x) z) (P.w j ⬝ᵥ (cov x *ᵥ P.w j))

/-- the bound -/
noncomputable def bound (x : (ι → ℝ) × (ι → ι → ℝ)) : ℝ :=
  (∑ j, P.ψ j (P.w j ⬝ᵥ mean x) (P.w j ⬝ᵥ (cov x *ᵥ P.w j))) - gaussKL (mean x) (cov x) P.μ0 P.K0

/-- where a full natural gradient step goes -/
noncomputable def target (x : (ι → ℝ) × (ι → ι → ℝ)) : (ι → ℝ) × (ι → ι → ℝ) :=
  (P.K0⁻¹ *ᵥ P.μ0 + ∑ j, (gm P x j - 2 * gv P x j * (P.w j ⬝ᵥ mean x)) • P.w j,
   fun a b => (P.K0⁻¹ - (2 : ℝ) • ∑ j, gv P x j • vecMulVec (P.w j) (P.w j)) a b)

/-- proper natural parameters, with zeros at the `far` entries -/
def proper (far : ι → ι → Prop) : Set ((ι → ℝ) × (ι → ι → ℝ)) := {x | (Matrix.of x.2).PosDef ∧ ∀ i j, far i j → x.2 i j = 0}

/-- symmetric part -/
noncomputable def symPart (H : ι → ι → ℝ) : Matrix ι ι ℝ := (1 / 2 : ℝ) • (Matrix.of H + (Matrix.of H)ᵀ)

/-- the squared length of a direction at given moments -/
noncomputable def form (m : ι → ℝ) (K : Matrix ι ι ℝ) (h : (ι → ℝ) × (ι → ι → ℝ)) : ℝ :=
  (h.1 - symPart h.2 *ᵥ m) ⬝ᵥ (K *ᵥ (h.1 - symPart h.2 *ᵥ m)) + 1 / 2 * (symPart h.2 * K * (symPart h.2 * K)).trace + ∑ i, ∑ j, (h.2 i j - h.2 j i) ^ 2

/-- the squared length of a direction -/
noncomputable def quad (z : ((ι → ℝ) × (ι → ι → ℝ)) × ((ι → ℝ) × (ι → ι → ℝ))) : ℝ := form (mean z.1) (cov z.1) z.2

/-- the expected log likelihoods are smooth where they are evaluated -/
def Smooth (N : WithTop ℕ∞) : Prop :=
  (∀ K : Matrix ι ι ℝ, K.PosDef → ∀ j, 0 < P.w j ⬝ᵥ (K *ᵥ P.w j) + P.r j) ∧
    ∀ j m v, 0 < v + P.r j → ContDiffAt ℝ N (fun z : ℝ × ℝ => P.ψ j z.1 z.2) (m, v)

variable {P} {x h : (ι → ℝ) × (ι → ι → ℝ)} {far : ι → ι → Prop}

theorem cov_posDef (hx : x ∈ proper far) : (cov x).PosDef := hx.1.inv

theorem contDiffAt_cov {N : WithTop ℕ∞} (hd : (Matrix.of x.2).det ≠ 0) (i j : ι) : ContDiffAt ℝ N (fun x : (ι → ℝ) × (ι → ι → ℝ) => cov x i j) x :=
  contDiffAt_inv (C := fun x : (ι → ℝ) × (ι → ι → ℝ) => Matrix.of x.2) (fun a b => ((contDiff_apply_apply ℝ ℝ a b).comp contDiff_snd).contDiffAt) hd i j

theorem contDiffAt_mean {N : WithTop ℕ∞} (hd : (Matrix.of x.2).det ≠ 0) (i : ι) : ContDiffAt ℝ N (fun x : (ι → ℝ) × (ι → ι → ℝ) => mean x i) x := by
  simp only [mean, mulVec, dotProduct]
  exact ContDiffAt.sum fun j _ => (contDiffAt_cov hd i j).mul ((contDiff_apply ℝ ℝ j).comp contDiff_fst).contDiffAt

theorem contDiffAt_marg {N : WithTop ℕ∞} (hd : (Matrix.of x.2).det ≠ 0) (u : ι → ℝ) :
    ContDiffAt ℝ N (fun x : (ι → ℝ) × (ι → ι → ℝ) => (u ⬝ᵥ mean x, u ⬝ᵥ (cov x *ᵥ u))) x := by
  refine ContDiffAt.prodMk ?_ ?_
  · simp only [dotProduct]
    exact ContDiffAt.sum fun i _ => contDiffAt_const.mul (contDiffAt_mean hd i)
  · simp only [dotProduct, mulVec]
    exact ContDiffAt.sum fun i _ => contDiffAt_const.mul (ContDiffAt.sum fun j _ => (contDiffAt_cov hd i j).mul contDiffAt_const)

theorem contDiffAt_bound {N : WithTop ℕ∞} (hP : Smooth P N) (hx : x ∈ proper far) : ContDiffAt ℝ N (bound P) x := by
  have hd := hx.1.det_pos.ne'
  have hc : ∀ i j, ContDiffAt ℝ N (fun x : (ι → ℝ) × (ι → ι → ℝ) => cov x i j) x := fun i j => contDiffAt_cov hd i j
  have hm : ∀ i, ContDiffAt ℝ N (fun x : (ι → ℝ) × (ι → ι → ℝ) => mean x i) x := fun i => contDiffAt_mean hd i
  have hcd : (cov x).det ≠ 0 := (cov_posDef hx).det_pos.ne'
  unfold bound gaussKL
  refine ContDiffAt.sub (ContDiffAt.sum fun j _ => ?_) ?_
  · exact ContDiffAt.comp (g := fun z : ℝ × ℝ => P.ψ j z.1 z.2) x (hP.2 j _ _ (hP.1 _ (cov_posDef hx) j)) (contDiffAt_marg hd (P.w j))
  · simp only [trace, diag_apply, Matrix.mul_apply, dotProduct, mulVec]
    refine contDiffAt_const.mul (((((ContDiffAt.sum fun i _ => ContDiffAt.sum fun j _ => contDiffAt_const.mul (hc j i)).add
      (ContDiffAt.sum fun i _ => ContDiffAt.mul ?_ (ContDiffAt.sum fun j _ => contDiffAt_const.mul ?_))).sub contDiffAt_const).add contDiffAt_const).sub
      ((contDiffAt_det hc).log hcd))
    · exact contDiffAt_const.sub (hm i)
    · exact contDiffAt_const.sub (hm j)

/-- the derivative of the moments along a direction -/
theorem hasDerivAt_line (hx : x ∈ proper far) :
    (∀ i j, HasDerivAt (fun t : ℝ => cov (x + t • h) i j) ((-(cov x * Matrix.of h.2 * cov x)) i j) 0) ∧
    ∀ i, HasDerivAt (fun t : ℝ => mean (x + t • h) i) ((cov x *ᵥ (h.1 - Matrix.of h.2 *ᵥ mean x)) i) 0 := by
  have h0 : x + (0 : ℝ) • h = x := by simp
  have e1 : ∀ i j, HasDerivAt (fun t : ℝ => (Matrix.of (x + t • h).2) i j) (Matrix.of h.2 i j) 0 := fun i j => by
    simp only [Matrix.of_apply, Prod.snd_add, Prod.smul_snd, Pi.add_apply, Pi.smul_apply, smul_eq_mul]
    have := ((hasDerivAt_id (𝕜 := ℝ) (0 : ℝ)).mul_const (h.2 i j)).const_add (x.2 i j)
    simpa using this
  have e2 : ∀ i j, HasDerivAt (fun t : ℝ => cov (x + t • h) i j) ((-(cov x * Matrix.of h.2 * cov x)) i j) 0 := fun i j => by
    have := hasDeriv_matrix_inv (C := fun t : ℝ => Matrix.of (x + t • h).2) (C' := Matrix.of h.2) e1 (by rw [h0]; exact hx.1.det_pos.ne') i j
    refine this.congr_deriv ?_
    rw [h0]
    rfl
  refine ⟨e2, fun i => ?_⟩
  have e4 : HasDerivAt (fun t : ℝ => mean (x + t • h) i)
      (∑ j, ((-(cov x * Matrix.of h.2 * cov x)) i j * x.1 j + cov x i j * h.1 j)) 0 := by
    simp only [mean, mulVec, dotProduct]
    refine HasDerivAt.fun_sum fun j _ => ?_
    have h1 : HasDerivAt (fun t : ℝ => (x + t • h).1 j) (h.1 j) 0 := by
      have := ((hasDerivAt_id (𝕜 := ℝ) (0 : ℝ)).mul_const (h.1 j)).const_add (x.1 j)
      simpa using this
    have := (e2 i j).mul h1
    simp only [h0] at this
    exact this
  refine e4.congr_deriv ?_
  rw [Finset.sum_add_distrib]
  have e5 : ∑ j, (-(cov x * Matrix.of h.2 * cov x)) i j * x.1 j = -(cov x *ᵥ (Matrix.of h.2 *ᵥ mean x)) i := by
    show ((-(cov x * Matrix.of h.2 * cov x)) *ᵥ x.1) i = _
    rw [neg_mulVec, ← mulVec_mulVec, ← mulVec_mulVec]
    rfl
  rw [e5, mulVec_sub, Pi.sub_apply]
  show _ + (cov x *ᵥ h.1) i = _
  ring

/-- the derivative of the bound along a direction -/
theorem hasDerivAt_bound (hK0 : P.K0.PosDef) (hP : Smooth P 2) (hx : x ∈ proper far) :
    HasDerivAt (fun t : ℝ => bound P (x + t • h))
      ((cov x *ᵥ (h.1 - Matrix.of h.2 *ᵥ mean x)) ⬝ᵥ ((target P x - x).1 - Matrix.of (target P x - x).2 *ᵥ mean x) +
        1 / 2 * (Matrix.of (target P x - x).2 * (cov x * Matrix.of h.2 * cov x)).trace) 0 := by
  obtain ⟨hS, hm⟩ := hasDerivAt_line (h := h) hx
  have hp := hx.1
  have hc := cov_posDef hx
  have h0 : x + (0 : ℝ) • h = x := by simp
  set S' := -(cov x * Matrix.of h.2 * cov x) with hS'
  set m' := cov x *ᵥ (h.1 - Matrix.of h.2 *ᵥ mean x) with hm'
  have lm : ∀ u : ι → ℝ, HasDerivAt (fun t : ℝ => u ⬝ᵥ mean (x + t • h)) (u ⬝ᵥ m') 0 := fun u => by
    simp only [dotProduct]
    exact HasDerivAt.fun_sum fun i _ => (hm i).const_mul _
  have lv : ∀ u : ι → ℝ, HasDerivAt (fun t : ℝ => u ⬝ᵥ (cov (x + t • h) *ᵥ u)) (u ⬝ᵥ (S' *ᵥ u)) 0 := fun u => by
    simp only [dotProduct, mulVec]
    exact HasDerivAt.fun_sum fun i _ => (HasDerivAt.fun_sum fun j _ => (hS i j).mul_const _).const_mul _
  have d1 : ∀ j, HasDerivAt (fun t : ℝ => P.ψ j (P.w j ⬝ᵥ mean (x + t • h)) (P.w j ⬝ᵥ (cov (x + t • h) *ᵥ P.w j)))
      (gm P x j * (P.w j ⬝ᵥ m') + gv P x j * (P.w j ⬝ᵥ (S' *ᵥ P.w j))) 0 := fun j => by
    set m := P.w j ⬝ᵥ mean x with hmd
    set v := P.w j ⬝ᵥ (cov x *ᵥ P.w j) with hvd
    have hf := ((hP.2 j m v (hP.1 _ hc j)).differentiableAt (by norm_num)).hasFDerivAt
    have p1 : gm P x j = fderiv ℝ (fun x : ℝ × ℝ => P.ψ j x.1 x.2) (m, v) (1, 0) := by
      have := hf.comp_hasDerivAt m ((hasDerivAt_id (𝕜 := ℝ) m).prodMk (hasDerivAt_const m v))
      exact this.deriv
    have p2 : gv P x j = fderiv ℝ (fun x : ℝ × ℝ => P.ψ j x.1 x.2) (m, v) (0, 1) := by
      have := hf.comp_hasDerivAt v ((hasDerivAt_const v m).prodMk (hasDerivAt_id (𝕜 := ℝ) v))
      exact this.deriv
    have hf' : HasFDerivAt (fun x : ℝ × ℝ => P.ψ j x.1 x.2) (fderiv ℝ (fun x : ℝ × ℝ => P.ψ j x.1 x.2) (m, v))
        (P.w j ⬝ᵥ mean (x + (0 : ℝ) • h), P.w j ⬝ᵥ (cov (x + (0 : ℝ) • h) *ᵥ P.w j)) := by rw [h0]; exact hf
    have := hf'.comp_hasDerivAt (0 : ℝ) ((lm (P.w j)).prodMk (lv (P.w j)))
    refine this.congr_deriv ?_
    rw [p1, p2, show ((P.w j ⬝ᵥ m', P.w j ⬝ᵥ (S' *ᵥ P.w j)) : ℝ × ℝ) = (P.w j ⬝ᵥ m') • (1, 0) + (P.w j ⬝ᵥ (S' *ᵥ P.w j)) • (0, 1) by ext <;> simp,
      map_add, map_smul, map_smul, smul_eq_mul, smul_eq_mul]
    ring
  have hPi : (cov x)⁻¹ = Matrix.of x.2 := nonsing_inv_nonsing_inv _ (isUnit_det' hp.isUnit)
  have hPm : Matrix.of x.2 *ᵥ mean x = x.1 := by
    rw [mean, mulVec_mulVec, cov, mul_nonsing_inv _ (isUnit_det' hp.isUnit), one_mulVec]
  have d2 : HasDerivAt (fun t : ℝ => gaussKL (mean (x + t • h)) (cov (x + t • h)) P.μ0 P.K0)
      (1 / 2 * ((P.K0⁻¹ * S').trace + 2 * (m' ⬝ᵥ (P.K0⁻¹ *ᵥ (mean x - P.μ0))) - (Matrix.of x.2 * S').trace)) 0 := by
    have t1 : HasDerivAt (fun t : ℝ => (P.K0⁻¹ * cov (x + t • h)).trace) ((P.K0⁻¹ * S').trace) 0 := by
      simp only [trace, diag_apply, Matrix.mul_apply]
      exact HasDerivAt.fun_sum fun i _ => HasDerivAt.fun_sum fun j _ => (hS j i).const_mul _
    have t2 : HasDerivAt (fun t : ℝ => (P.μ0 - mean (x + t • h)) ⬝ᵥ (P.K0⁻¹ *ᵥ (P.μ0 - mean (x + t • h)))) (2 * (m' ⬝ᵥ (P.K0⁻¹ *ᵥ (mean x - P.μ0)))) 0 := by
      have hr : ∀ i, HasDerivAt (fun t : ℝ => (P.μ0 - mean (x + t • h)) i) ((-m') i) 0 := fun i => by
        have := (hm i).const_sub (P.μ0 i)
        exact this
      have : HasDerivAt (fun t : ℝ => ∑ i, (P.μ0 - mean (x + t • h)) i * ∑ j, P.K0⁻¹ i j * (P.μ0 - mean (x + t • h)) j)
          (∑ i, ((-m') i * ∑ j, P.K0⁻¹ i j * (P.μ0 - mean (x + (0 : ℝ) • h)) j + (P.μ0 - mean (x + (0 : ℝ) • h)) i * ∑ j, P.K0⁻¹ i j * (-m') j)) 0 :=
        HasDerivAt.fun_sum fun i _ => (hr i).mul (HasDerivAt.fun_sum fun j _ => (hr j).const_mul _)
      refine this.congr_deriv ?_
      rw [h0, Finset.sum_add_distrib]
      show (-m') ⬝ᵥ (P.K0⁻¹ *ᵥ (P.μ0 - mean x)) + (P.μ0 - mean x) ⬝ᵥ (P.K0⁻¹ *ᵥ -m') = _
      have s3 : (P.μ0 - mean x) ⬝ᵥ (P.K0⁻¹ *ᵥ -m') = (-m') ⬝ᵥ (P.K0⁻¹ *ᵥ (P.μ0 - mean x)) := by
        rw [dotProduct_mulVec, ← mulVec_transpose, show P.K0⁻¹ᵀ = P.K0⁻¹ from posDef_tr hK0.inv, dotProduct_comm]
      rw [s3, ← neg_sub (mean x), mulVec_neg, neg_dotProduct_neg]
      ring
    have t3 : HasDerivAt (fun t : ℝ => Real.log (cov (x + t • h)).det) (((cov x)⁻¹ * S').trace) 0 := by
      have := hasDerivAt_logdet (C := fun t : ℝ => cov (x + t • h)) hS (by rw [h0]; exact hc.det_pos.ne')
      simp only [h0] at this
      exact this
    have := (((((t1.add t2).sub_const (Fintype.card ι : ℝ)).add_const (Real.log P.K0.det)).sub t3).const_mul (1 / 2 : ℝ))
    refine this.congr_deriv ?_
    rw [hPi]
  have := (HasDerivAt.fun_sum fun j (_ : j ∈ Finset.univ) => d1 j).sub d2
  refine this.congr_deriv ?_
  -- the algebra
  have a1 : (target P x - x).1 - Matrix.of (target P x - x).2 *ᵥ mean x = ∑ j, gm P x j • P.w j - P.K0⁻¹ *ᵥ (mean x - P.μ0) := by
    have b1 : Matrix.of (target P x - x).2 = P.K0⁻¹ - (2 : ℝ) • ∑ j, gv P x j • vecMulVec (P.w j) (P.w j) - Matrix.of x.2 := rfl
    have b2 : (target P x - x).1 = P.K0⁻¹ *ᵥ P.μ0 + ∑ j, (gm P x j - 2 * gv P x j * (P.w j ⬝ᵥ mean x)) • P.w j - x.1 := rfl
    have b3 : (∑ j, gv P x j • vecMulVec (P.w j) (P.w j)) *ᵥ mean x = ∑ j, (gv P x j * (P.w j ⬝ᵥ mean x)) • P.w j := by
      rw [sum_mulVec]
      refine Finset.sum_congr rfl fun j _ => ?_
      rw [smul_mulVec, vecMulVec_mulVec]
      funext i
      simp
      ring
    rw [b1, b2, sub_mulVec, sub_mulVec, smul_mulVec, b3, hPm, mulVec_sub, Finset.smul_sum]
    simp only [sub_smul, Finset.sum_sub_distrib, smul_smul, mul_assoc]
    abel
  have a2 : (Matrix.of (target P x - x).2 * (cov x * Matrix.of h.2 * cov x)).trace =
      -((P.K0⁻¹ * S').trace - (Matrix.of x.2 * S').trace) + 2 * ∑ j, gv P x j * (P.w j ⬝ᵥ (S' *ᵥ P.w j)) := by
    have b1 : Matrix.of (target P x - x).2 = P.K0⁻¹ - (2 : ℝ) • ∑ j, gv P x j • vecMulVec (P.w j) (P.w j) - Matrix.of x.2 := rfl
    have b2 : cov x * Matrix.of h.2 * cov x = -S' := by rw [hS', neg_neg]
    have b3 : ((∑ j, gv P x j • vecMulVec (P.w j) (P.w j)) * S').trace = ∑ j, gv P x j * (P.w j ⬝ᵥ (S' *ᵥ P.w j)) := by
      rw [Finset.sum_mul, trace_sum]
      refine Finset.sum_congr rfl fun j _ => ?_
      rw [Matrix.smul_mul, trace_smul, smul_eq_mul, vecMulVec_mul, trace_vecMulVec, dotProduct_comm, ← dotProduct_mulVec]
    rw [b1, b2, Matrix.mul_neg, trace_neg, Matrix.sub_mul, Matrix.sub_mul, trace_sub, trace_sub, Matrix.smul_mul, trace_smul, b3, smul_eq_mul]
    ring
  rw [a1, a2, dotProduct_sub, dotProduct_sum, Finset.sum_add_distrib]
  have a3 : ∑ j, m' ⬝ᵥ (gm P x j • P.w j) = ∑ j, gm P x j * (P.w j ⬝ᵥ m') := Finset.sum_congr rfl fun j _ => by
    rw [dotProduct_smul, smul_eq_mul, dotProduct_comm]
  rw [a3]
  ring

theorem target_symm : (Matrix.of (target P x).2 : Matrix ι ι ℝ)ᵀ = (P.K0⁻¹)ᵀ - (2 : ℝ) • ∑ j, gv P x j • vecMulVec (P.w j) (P.w j) := by
  show (P.K0⁻¹ - (2 : ℝ) • ∑ j, gv P x j • vecMulVec (P.w j) (P.w j))ᵀ = _
  rw [transpose_sub, transpose_smul, transpose_sum]
  congr 3
  funext j
  rw [transpose_smul, transpose_vecMulVec]

theorem step_symm (hK0 : P.K0.PosDef) (hx : x ∈ proper far) : (Matrix.of (target P x - x).2 : Matrix ι ι ℝ)ᵀ = Matrix.of (target P x - x).2 := by
  have e : (Matrix.of (target P x - x).2 : Matrix ι ι ℝ) = Matrix.of (target P x).2 - Matrix.of x.2 := rfl
  rw [e, transpose_sub, target_symm, posDef_tr hK0.inv, posDef_tr hx.1]
  rfl

/-- the slope of the bound along the direction of the update is the squared length of that direction -/
theorem fderiv_bound (hK0 : P.K0.PosDef) (hP : Smooth P 2) (hx : x ∈ proper far) :
    fderiv ℝ (bound P) x (target P x - x) = quad (x, target P x - x) := by
  have h1 := hasDerivAt_bound (h := target P x - x) hK0 hP hx
  have h2 : HasDerivAt (fun t : ℝ => x + t • (target P x - x)) (target P x - x) 0 := by
    have := ((hasDerivAt_id (𝕜 := ℝ) (0 : ℝ)).smul_const (target P x - x)).const_add x
    simpa using this
  have h3 : HasFDerivAt (bound P) (fderiv ℝ (bound P) x) (x + (0 : ℝ) • (target P x - x)) := by
    rw [zero_smul, add_zero]
    exact ((contDiffAt_bound hP hx).differentiableAt (by norm_num)).hasFDerivAt
  have h4 := h3.comp_hasDerivAt (0 : ℝ) h2
  rw [h4.unique h1]
  have hs := step_symm hK0 hx
  set H : Matrix ι ι ℝ := Matrix.of (target P x - x).2 with hH
  have hS : symPart (target P x - x).2 = H := by
    show (1 / 2 : ℝ) • (H + Hᵀ) = H
    rw [hs, ← two_smul ℝ, smul_smul]; norm_num
  have hz : ∑ i, ∑ j, ((target P x - x).2 i j - (target P x - x).2 j i) ^ 2 = 0 := Finset.sum_eq_zero fun i _ => Finset.sum_eq_zero fun j _ => by
    have : (target P x - x).2 j i = (target P x - x).2 i j := congrFun (congrFun hs i) j
    rw [this, sub_self]
    norm_num
  unfold quad form
  simp only [hS, hz, add_zero]
  rw [dotProduct_comm, ← Matrix.mul_assoc, ← Matrix.mul_assoc, Matrix.mul_assoc (H * cov x)]

theorem quad_pos (hx : x ∈ proper far) (hh : h ≠ 0) : 0 < quad (x, h) := by
  have hK := cov_posDef hx
  set K := cov x with hKd
  set D : Matrix ι ι ℝ := symPart h.2 with hD
  have hDs : Dᵀ = D := by rw [hD, symPart, transpose_smul, transpose_add, transpose_transpose, add_comm]
  set u := h.1 - D *ᵥ mean x with hu
  show 0 < u ⬝ᵥ (K *ᵥ u) + 1 / 2 * (D * K * (D * K)).trace + ∑ i, ∑ j, (h.2 i j - h.2 j i) ^ 2
  obtain ⟨B, hB⟩ : ∃ B : Matrix ι ι ℝ, K = B * Bᵀ := by
    obtain ⟨B, hB⟩ := exists_mul_transpose hK.posSemidef
    exact ⟨B, hB.symm⟩
  have ht : (D * K * (D * K)).trace = ∑ i, ∑ j, ((Bᵀ * D * B) i j) ^ 2 := by
    have e : (D * K * (D * K)).trace = ((Bᵀ * D * B) * (Bᵀ * D * B)ᵀ).trace := by
      have : (Bᵀ * D * B)ᵀ = Bᵀ * D * B := by
        rw [Matrix.transpose_mul, Matrix.transpose_mul, transpose_transpose, hDs, Matrix.mul_assoc]
      rw [this, hB]
      have : D * (B * Bᵀ) * (D * (B * Bᵀ)) = (D * B * (Bᵀ * D * B)) * Bᵀ := by simp only [Matrix.mul_assoc]
      rw [this, trace_mul_comm]
      simp only [Matrix.mul_assoc]
    rw [e]
    simp only [trace, diag_apply, Matrix.mul_apply, transpose_apply, sq]
  have h1 : 0 ≤ u ⬝ᵥ (K *ᵥ u) := by
    have := hK.posSemidef.dotProduct_mulVec_nonneg u
    rwa [star_trivial] at this
  have h2 : 0 ≤ ∑ i, ∑ j, ((Bᵀ * D * B) i j) ^ 2 := Finset.sum_nonneg fun i _ => Finset.sum_nonneg fun j _ => sq_nonneg _
  have h3 : 0 ≤ ∑ i, ∑ j, (h.2 i j - h.2 j i) ^ 2 := Finset.sum_nonneg fun i _ => Finset.sum_nonneg fun j _ => sq_nonneg _
  rw [ht]
  by_contra hcon
  have z2 : ∑ i, ∑ j, ((Bᵀ * D * B) i j) ^ 2 = 0 := by linarith
  have z3 : ∑ i, ∑ j, (h.2 i j - h.2 j i) ^ 2 = 0 := by linarith
  have z1 : u ⬝ᵥ (K *ᵥ u) = 0 := by linarith
  have hall : ∀ (f : ι → ι → ℝ), ∑ i, ∑ j, f i j ^ 2 = 0 → ∀ i j, f i j = 0 := fun f hf i j => by
    have := (Finset.sum_eq_zero_iff_of_nonneg (fun i _ => Finset.sum_nonneg fun j _ => sq_nonneg _)).1 hf i (Finset.mem_univ i)
    have := (Finset.sum_eq_zero_iff_of_nonneg (fun j _ => sq_nonneg _)).1 this j (Finset.mem_univ j)
    exact pow_eq_zero_iff two_ne_zero |>.1 this
  have hBDB : Bᵀ * D * B = 0 := by
    ext i j
    exact hall _ z2 i j
  have hKDK : K * D * K = 0 := by
    rw [hB]
    have : B * Bᵀ * D * (B * Bᵀ) = B * (Bᵀ * D * B) * Bᵀ := by simp only [Matrix.mul_assoc]
    rw [this, hBDB, Matrix.mul_zero, Matrix.zero_mul]
  have hdet : IsUnit K.det := isUnit_det' hK.isUnit
  have hD0 : D = 0 := by
    have := congrArg (fun M => K⁻¹ * M * K⁻¹) hKDK
    simp only [Matrix.mul_zero, Matrix.zero_mul] at this
    rw [← this, ← Matrix.mul_assoc, ← Matrix.mul_assoc, nonsing_inv_mul _ hdet, Matrix.one_mul, Matrix.mul_assoc,
      mul_nonsing_inv _ hdet, Matrix.mul_one]
  have hu0 : u = 0 := by
    by_contra hne'
    have := hK.dotProduct_mulVec_pos hne'
    rw [star_trivial] at this
    linarith
  rw [hD0, zero_mulVec, sub_zero] at hu
  refine hh (Prod.ext (hu.symm.trans hu0) ?_)
  funext i j
  have e1 := hall (fun i j => h.2 i j - h.2 j i) z3 i j
  have e2 : (1 / 2 : ℝ) * (h.2 i j + h.2 j i) = 0 := congrFun (congrFun hD0 i) j
  show h.2 i j = 0
  linarith

theorem quad_smul (t : ℝ) : quad (x, t • h) = t ^ 2 * quad (x, h) := by
  have e1 : symPart (t • h).2 = t • symPart h.2 := by
    ext i j
    simp only [symPart, Matrix.smul_apply, Matrix.add_apply, transpose_apply, Matrix.of_apply, Prod.smul_snd, Pi.smul_apply, smul_eq_mul]
    ring
  unfold quad form
  simp only [e1]
  have e2 : ∑ i, ∑ j, ((t • h).2 i j - (t • h).2 j i) ^ 2 = t ^ 2 * ∑ i, ∑ j, (h.2 i j - h.2 j i) ^ 2 := by
    rw [Finset.mul_sum]
    refine Finset.sum_congr rfl fun i _ => ?_
    rw [Finset.mul_sum]
    refine Finset.sum_congr rfl fun j _ => ?_
    show (t * h.2 i j - t * h.2 j i) ^ 2 = _
    ring
  rw [e2, Prod.smul_fst, smul_mulVec, ← smul_sub, mulVec_smul, smul_dotProduct, dotProduct_smul, Matrix.smul_mul, Matrix.smul_mul, Matrix.mul_smul, smul_smul]
  simp only [smul_eq_mul, trace_smul]
  ring

theorem continuousOn_cov : ContinuousOn (fun x : (ι → ℝ) × (ι → ι → ℝ) => cov x) (proper far) := fun _ hx =>
  ContinuousAt.continuousWithinAt (tendsto_pi_nhds.2 fun i => tendsto_pi_nhds.2 fun j => (contDiffAt_cov (N := 0) hx.1.det_pos.ne' i j).continuousAt)

theorem continuousOn_mean : ContinuousOn (fun x : (ι → ℝ) × (ι → ι → ℝ) => mean x) (proper far) := fun _ hx =>
  ContinuousAt.continuousWithinAt (tendsto_pi_nhds.2 fun i => (contDiffAt_mean (N := 0) hx.1.det_pos.ne' i).continuousAt)

omit [DecidableEq ι] in
theorem continuous_symPart : Continuous (symPart (ι := ι)) :=
  Continuous.fun_const_smul (Continuous.fun_add continuous_id (continuous_id (X := Matrix ι ι ℝ)).matrix_transpose) _

omit [DecidableEq ι] in
theorem continuous_form : Continuous fun z : (ι → ℝ) × Matrix ι ι ℝ × (ι → ℝ) × (ι → ι → ℝ) => form z.1 z.2.1 z.2.2 := by
  have hm : Continuous fun z : (ι → ℝ) × Matrix ι ι ℝ × (ι → ℝ) × (ι → ι → ℝ) => z.1 := continuous_fst
  have hK : Continuous fun z : (ι → ℝ) × Matrix ι ι ℝ × (ι → ℝ) × (ι → ι → ℝ) => z.2.1 := continuous_fst.comp continuous_snd
  have ha : Continuous fun z : (ι → ℝ) × Matrix ι ι ℝ × (ι → ℝ) × (ι → ι → ℝ) => z.2.2.1 := continuous_fst.comp (continuous_snd.comp continuous_snd)
  have ho : Continuous fun z : (ι → ℝ) × Matrix ι ι ℝ × (ι → ℝ) × (ι → ι → ℝ) => z.2.2.2 := continuous_snd.comp (continuous_snd.comp continuous_snd)
  have hD : Continuous fun z : (ι → ℝ) × Matrix ι ι ℝ × (ι → ℝ) × (ι → ι → ℝ) => symPart z.2.2.2 := continuous_symPart.comp ho
  have hu : Continuous fun z : (ι → ℝ) × Matrix ι ι ℝ × (ι → ℝ) × (ι → ι → ℝ) => z.2.2.1 - symPart z.2.2.2 *ᵥ z.1 := Continuous.fun_sub ha (hD.matrix_mulVec hm)
  unfold form
  refine Continuous.fun_add (Continuous.fun_add (hu.dotProduct (hK.matrix_mulVec hu)) (Continuous.fun_mul continuous_const ?_)) ?_
  · exact ((hD.matrix_mul hK).matrix_mul (hD.matrix_mul hK)).matrix_trace
  · exact continuous_finset_sum _ fun i _ => continuous_finset_sum _ fun j _ =>
      (((continuous_apply_apply i j).comp ho).sub ((continuous_apply_apply j i).comp ho)).pow 2

theorem continuousOn_quad : ContinuousOn (quad (ι := ι)) (proper far ×ˢ univ) := by
  have hc : ContinuousOn (fun z : ((ι → ℝ) × (ι → ι → ℝ)) × ((ι → ℝ) × (ι → ι → ℝ)) => cov z.1) (proper far ×ˢ univ) :=
    continuousOn_cov.comp continuousOn_fst fun z hz => hz.1
  have hm : ContinuousOn (fun z : ((ι → ℝ) × (ι → ι → ℝ)) × ((ι → ℝ) × (ι → ι → ℝ)) => mean z.1) (proper far ×ˢ univ) :=
    continuousOn_mean.comp continuousOn_fst fun z hz => hz.1
  have hp : ContinuousOn (fun z : ((ι → ℝ) × (ι → ι → ℝ)) × ((ι → ℝ) × (ι → ι → ℝ)) => (mean z.1, cov z.1, z.2)) (proper far ×ˢ univ) :=
    hm.prodMk (hc.prodMk continuousOn_snd)
  intro z hz
  exact (continuous_form (ι := ι)).continuousAt.comp_continuousWithinAt (f := fun z : ((ι → ℝ) × (ι → ι → ℝ)) × ((ι → ℝ) × (ι → ι → ℝ)) => (mean z.1, cov z.1, z.2)) (hp z hz)

/-- A bounded below and bounded region of moments, seen in natural parameters, is compact. -/
theorem moments_compact (μ0 : ι → ℝ) (R1 R2 : ℝ) {δ : ℝ} (hδ : 0 < δ) :
    ∃ C : Set ((ι → ℝ) × (ι → ι → ℝ)), IsCompact C ∧ (∀ x ∈ C, (Matrix.of x.2).PosDef) ∧
      ∀ x : (ι → ℝ) × (ι → ι → ℝ), (Matrix.of x.2).PosDef → (∀ i, |mean x i - μ0 i| ≤ R1) → (∀ i j, |cov x i j| ≤ R2) → δ ≤ (cov x).det → x ∈ C := by
  set C : Set ((ι → ℝ) × (ι → ι → ℝ)) := {x | (∀ i, |x.1 i - μ0 i| ≤ R1) ∧ (∀ i j, |x.2 i j| ≤ R2) ∧
    (∀ i j, x.2 i j = x.2 j i) ∧ (∀ v : ι → ℝ, 0 ≤ v ⬝ᵥ (Matrix.of x.2 *ᵥ v)) ∧ δ ≤ (Matrix.of x.2).det} with hC
  have hpd : ∀ x ∈ C, (Matrix.of x.2).PosDef := by
    rintro x ⟨-, -, c3, c4, c5⟩
    have hpsd : (Matrix.of x.2).PosSemidef := by
      refine PosSemidef.of_dotProduct_mulVec_nonneg ?_ fun v => ?_
      · ext i j
        simp only [conjTranspose_apply, star_trivial, of_apply]
        exact (c3 i j).symm
      · rw [star_trivial]; exact c4 v
    exact hpsd.posDef_iff_isUnit.2 ((Matrix.isUnit_iff_isUnit_det _).2 (isUnit_iff_ne_zero.2 (hδ.trans_le c5).ne'))
  have hcomp : IsCompact C := by
    have hbox : IsCompact (Set.Icc ((fun i => μ0 i - R1, fun _ _ => -R2) : (ι → ℝ) × (ι → ι → ℝ))
      (fun i => μ0 i + R1, fun _ _ => R2)) := isCompact_Icc
    refine hbox.of_isClosed_subset ?_ ?_
    · have ho : Continuous fun x : (ι → ℝ) × (ι → ι → ℝ) => (Matrix.of x.2 : Matrix ι ι ℝ) := continuous_snd
      have c1 : IsClosed {x : (ι → ℝ) × (ι → ι → ℝ) | ∀ i, |x.1 i - μ0 i| ≤ R1} := by
        simp only [Set.ofPred_forall]
        exact isClosed_iInter fun i => isClosed_le (by fun_prop) continuous_const
      have c2 : IsClosed {x : (ι → ℝ) × (ι → ι → ℝ) | ∀ i j, |x.2 i j| ≤ R2} := by
        simp only [Set.ofPred_forall]
        exact isClosed_iInter fun i => isClosed_iInter fun j => isClosed_le (by fun_prop) continuous_const
      have c3 : IsClosed {x : (ι → ℝ) × (ι → ι → ℝ) | ∀ i j, x.2 i j = x.2 j i} := by
        simp only [Set.ofPred_forall]
        exact isClosed_iInter fun i => isClosed_iInter fun j => isClosed_eq (by fun_prop) (by fun_prop)
      have c4 : IsClosed {x : (ι → ℝ) × (ι → ι → ℝ) | ∀ v : ι → ℝ, 0 ≤ v ⬝ᵥ (Matrix.of x.2 *ᵥ v)} := by
        simp only [Set.ofPred_forall]
        exact isClosed_iInter fun v => isClosed_le continuous_const (continuous_const.dotProduct (ho.matrix_mulVec continuous_const))
      have c5 : IsClosed {x : (ι → ℝ) × (ι → ι → ℝ) | δ ≤ (Matrix.of x.2).det} := isClosed_le continuous_const ho.matrix_det
      exact c1.inter (c2.inter (c3.inter (c4.inter c5)))
    · rintro x ⟨c1, c2, -⟩
      refine ⟨⟨fun i => ?_, fun i j => (abs_le.1 (c2 i j)).1⟩, ⟨fun i => ?_, fun i j => (abs_le.1 (c2 i j)).2⟩⟩
      · have := (abs_le.1 (c1 i)).1
        show μ0 i - R1 ≤ x.1 i
        linarith
      · have := (abs_le.1 (c1 i)).2
        show x.1 i ≤ μ0 i + R1
        linarith
  refine ⟨(fun x : (ι → ℝ) × (ι → ι → ℝ) => ((cov x *ᵥ x.1, fun i j => cov x i j) : (ι → ℝ) × (ι → ι → ℝ))) '' C, hcomp.image_of_continuousOn ?_, ?_, ?_⟩
  · intro x hx
    have hx' : x ∈ proper (fun _ _ : ι => False) := ⟨hpd x hx, fun _ _ h => h.elim⟩
    exact ContinuousAt.continuousWithinAt (ContinuousAt.prodMk
      (tendsto_pi_nhds.2 fun i => (contDiffAt_mean (N := 0) hx'.1.det_pos.ne' i).continuousAt)
      (tendsto_pi_nhds.2 fun i => tendsto_pi_nhds.2 fun j => (contDiffAt_cov (N := 0) hx'.1.det_pos.ne' i j).continuousAt))
  · rintro _ ⟨x, hx, rfl⟩
    exact (hpd x hx).inv
  · intro x hx h1 h2 h3
    have hK : (cov x).PosDef := hx.inv
    have hi : (cov x)⁻¹ = Matrix.of x.2 := nonsing_inv_nonsing_inv _ (isUnit_det' hx.isUnit)
    refine ⟨(mean x, fun i j => cov x i j), ⟨h1, h2, fun i j => congrFun (congrFun (posDef_tr hK) j) i, fun v => ?_, h3⟩, ?_⟩
    · have := hK.posSemidef.dotProduct_mulVec_nonneg v
      rwa [star_trivial] at this
    · have hc : cov ((mean x, fun i j => cov x i j) : (ι → ℝ) × (ι → ι → ℝ)) = Matrix.of x.2 := hi
      refine Prod.ext ?_ ?_
      · show cov ((mean x, fun i j => cov x i j) : (ι → ℝ) × (ι → ι → ℝ)) *ᵥ mean x = x.1
        rw [hc]
        show Matrix.of x.2 *ᵥ ((Matrix.of x.2)⁻¹ *ᵥ x.1) = x.1
        rw [mulVec_mulVec, mul_nonsing_inv _ (isUnit_det' hx.isUnit), one_mulVec]
      · show (fun i j => cov ((mean x, fun i j => cov x i j) : (ι → ℝ) × (ι → ι → ℝ)) i j) = x.2
        rw [hc]; rfl

/-- The regions where the bound is at least a given value are compact. -/
theorem superlevel_compact (hK0 : P.K0.PosDef) (hP : Smooth P 2) {A B : D → ℝ} (haff : ∀ j m v, 0 < v + P.r j → P.ψ j m v ≤ A j + B j * m) (b₀ : ℝ) :
    IsCompact {x | x ∈ proper far ∧ b₀ ≤ bound P x} := by
  set N : ℝ := (Fintype.card ι : ℝ) with hN
  set u : ι → ℝ := ∑ j, B j • P.w j with hu
  set A' : ℝ := ∑ j, (A j + B j * (P.w j ⬝ᵥ P.μ0)) with hA'
  set C0 : ℝ := -b₀ + A' + N / 2 - 1 / 2 * Real.log P.K0.det with hC0
  have hsub : ∀ x ∈ proper far, b₀ ≤ bound P x →
      1 / 2 * ((mean x - P.μ0) ⬝ᵥ (P.K0⁻¹ *ᵥ (mean x - P.μ0))) - u ⬝ᵥ (mean x - P.μ0) +
        1 / 2 * ((P.K0⁻¹ * cov x).trace - Real.log (cov x).det) ≤ C0 := fun x hx h => by
    simp only [bound, gaussKL] at h
    have h1 : ∑ j, P.ψ j (P.w j ⬝ᵥ mean x) (P.w j ⬝ᵥ (cov x *ᵥ P.w j)) ≤ u ⬝ᵥ (mean x - P.μ0) + A' := by
      rw [hu, hA', sum_dotProduct, ← Finset.sum_add_distrib]
      refine Finset.sum_le_sum fun j _ => (haff j _ _ (hP.1 _ (cov_posDef hx) j)).trans (le_of_eq ?_)
      rw [smul_dotProduct, smul_eq_mul, dotProduct_sub]
      ring
    have e1 : (P.μ0 - mean x) ⬝ᵥ (P.K0⁻¹ *ᵥ (P.μ0 - mean x)) = (mean x - P.μ0) ⬝ᵥ (P.K0⁻¹ *ᵥ (mean x - P.μ0)) := by
      rw [← neg_sub (mean x), mulVec_neg, neg_dotProduct_neg]
    rw [e1, ← hN] at h
    rw [hC0]
    linarith
  obtain ⟨R1, hR1⟩ := mean_sublevel hK0 u (C0 - 1 / 2 * (N - Real.log P.K0.det))
  obtain ⟨R2, δ, hδ, hR2⟩ := cov_sublevel hK0 (2 * (C0 + ∑ i, |u i| * R1))
  obtain ⟨C, hcomp, hCp, hCm⟩ := moments_compact P.μ0 R1 R2 hδ
  have hmem : ∀ x ∈ proper far, b₀ ≤ bound P x → x ∈ C := fun x hx h => by
    have hK := cov_posDef hx
    have h1 := hsub x hx h
    have h2 := (gauss_trace_logdet hK hK0).1
    have h3 := hR1 (mean x - P.μ0) (by rw [← hN] at h2; linarith)
    have q0 := hK0.inv.posSemidef.dotProduct_mulVec_nonneg (mean x - P.μ0)
    rw [star_trivial] at q0
    have h4 : u ⬝ᵥ (mean x - P.μ0) ≤ ∑ i, |u i| * R1 :=
      Finset.sum_le_sum fun i _ => (le_abs_self _).trans (by rw [abs_mul]; exact mul_le_mul_of_nonneg_left (h3 i) (abs_nonneg _))
    obtain ⟨h5, h6⟩ := hR2 (cov x) hK (by linarith)
    exact hCm x hx.1 h3 h5 h6
  have hc : ContinuousOn (bound P) C := fun x hx =>
    ContinuousAt.continuousWithinAt (contDiffAt_bound (far := fun _ _ => False) hP ⟨hCp x hx, fun _ _ h => h.elim⟩).continuousAt
  have h1 : IsClosed (C ∩ bound P ⁻¹' Ici b₀) := hc.preimage_isClosed_of_isClosed hcomp.isClosed isClosed_Ici
  have h2 : IsClosed {x : (ι → ℝ) × (ι → ι → ℝ) | ∀ i j, far i j → x.2 i j = 0} := by
    simp only [Set.ofPred_forall]
    exact isClosed_iInter fun i => isClosed_iInter fun j => isClosed_iInter fun _ => isClosed_eq (by fun_prop) continuous_const
  refine hcomp.of_isClosed_subset (t := {x | x ∈ proper far ∧ b₀ ≤ bound P x}) ?_ fun x hx => hmem x hx.1 hx.2
  have : {x | x ∈ proper far ∧ b₀ ≤ bound P x} = (C ∩ bound P ⁻¹' Ici b₀) ∩ {x : (ι → ℝ) × (ι → ι → ℝ) | ∀ i j, far i j → x.2 i j = 0} := by
    ext x
    exact ⟨fun hx => ⟨⟨hmem x hx.1 hx.2, hx.2⟩, hx.1.2⟩, fun hx => ⟨⟨hCp x hx.1.1, hx.2⟩, hx.1.2⟩⟩
  rw [this]
  exact h1.inter h2

theorem continuousOn_target (hP : Smooth P 2) : ContinuousOn (target P) (proper far) := by
  have hmv : ∀ j, ContinuousOn (fun x => (P.w j ⬝ᵥ mean x, P.w j ⬝ᵥ (cov x *ᵥ P.w j))) (proper far) := fun j x hx =>
    (contDiffAt_marg (N := 0) hx.1.det_pos.ne' (P.w j)).continuousAt.continuousWithinAt
  have hm : ∀ j, ContinuousOn (fun x => P.w j ⬝ᵥ mean x) (proper far) := fun j => continuous_fst.comp_continuousOn (hmv j)
  have hF : ∀ j (e : ℝ × ℝ), ContinuousOn (fun x => fderiv ℝ (fun z : ℝ × ℝ => P.ψ j z.1 z.2) (P.w j ⬝ᵥ mean x, P.w j ⬝ᵥ (cov x *ᵥ P.w j)) e) (proper far) :=
    fun j e x hx => by
    refine ContinuousAt.continuousWithinAt ?_
    have h1 : ContDiffAt ℝ 1 (fderiv ℝ (fun z : ℝ × ℝ => P.ψ j z.1 z.2)) (P.w j ⬝ᵥ mean x, P.w j ⬝ᵥ (cov x *ᵥ P.w j)) :=
      ContDiffAt.fderiv_right (hP.2 j _ _ (hP.1 _ (cov_posDef hx) j)) (by norm_num)
    have h3 : ContinuousAt (fun x => fderiv ℝ (fun z : ℝ × ℝ => P.ψ j z.1 z.2) (P.w j ⬝ᵥ mean x, P.w j ⬝ᵥ (cov x *ᵥ P.w j))) x :=
      ContinuousAt.comp (g := fderiv ℝ (fun z : ℝ × ℝ => P.ψ j z.1 z.2)) (f := fun x => (P.w j ⬝ᵥ mean x, P.w j ⬝ᵥ (cov x *ᵥ P.w j))) h1.continuousAt
        (contDiffAt_marg (N := 0) hx.1.det_pos.ne' (P.w j)).continuousAt
    exact h3.clm_apply continuousAt_const
  have e1 : ∀ j, ∀ x ∈ proper far, gm P x j = fderiv ℝ (fun z : ℝ × ℝ => P.ψ j z.1 z.2) (P.w j ⬝ᵥ mean x, P.w j ⬝ᵥ (cov x *ᵥ P.w j)) (1, 0) :=
    fun j x hx => by
    have hf := ((hP.2 j _ _ (hP.1 _ (cov_posDef hx) j)).differentiableAt (x := (P.w j ⬝ᵥ mean x, P.w j ⬝ᵥ (cov x *ᵥ P.w j))) (by norm_num)).hasFDerivAt
    exact (hf.comp_hasDerivAt (P.w j ⬝ᵥ mean x) ((hasDerivAt_id (𝕜 := ℝ) (P.w j ⬝ᵥ mean x)).prodMk (hasDerivAt_const _ (P.w j ⬝ᵥ (cov x *ᵥ P.w j))))).deriv
  have e2 : ∀ j, ∀ x ∈ proper far, gv P x j = fderiv ℝ (fun z : ℝ × ℝ => P.ψ j z.1 z.2) (P.w j ⬝ᵥ mean x, P.w j ⬝ᵥ (cov x *ᵥ P.w j)) (0, 1) :=
    fun j x hx => by
    have hf := ((hP.2 j _ _ (hP.1 _ (cov_posDef hx) j)).differentiableAt (x := (P.w j ⬝ᵥ mean x, P.w j ⬝ᵥ (cov x *ᵥ P.w j))) (by norm_num)).hasFDerivAt
    exact (hf.comp_hasDerivAt (P.w j ⬝ᵥ (cov x *ᵥ P.w j)) ((hasDerivAt_const _ (P.w j ⬝ᵥ mean x)).prodMk (hasDerivAt_id (𝕜 := ℝ) (P.w j ⬝ᵥ (cov x *ᵥ P.w j))))).deriv
  have d1 : ∀ j, ContinuousOn (fun x => gm P x j) (proper far) := fun j => (hF j (1, 0)).congr (e1 j)
  have d2 : ∀ j, ContinuousOn (fun x => gv P x j) (proper far) := fun j => (hF j (0, 1)).congr (e2 j)
  refine ContinuousOn.prodMk (f := fun x => P.K0⁻¹ *ᵥ P.μ0 + ∑ j, (gm P x j - 2 * gv P x j * (P.w j ⬝ᵥ mean x)) • P.w j)
    (g := fun x a b => (P.K0⁻¹ - (2 : ℝ) • ∑ j, gv P x j • vecMulVec (P.w j) (P.w j)) a b) ?_ ?_
  · exact continuousOn_const.add (continuousOn_finsetSum _ fun j _ =>
      ((d1 j).sub ((continuousOn_const.mul (d2 j)).mul (hm j))).smul continuousOn_const)
  · refine continuousOn_pi.2 fun a => continuousOn_pi.2 fun b => ?_
    simp only [Matrix.sub_apply, Matrix.smul_apply, Matrix.sum_apply, smul_eq_mul]
    exact continuousOn_const.sub (continuousOn_const.mul (continuousOn_finsetSum _ fun j _ => (d2 j).mul continuousOn_const))

/-- A step of length at most one towards the target keeps the parameters proper. -/
theorem step_proper (hK0 : P.K0.PosDef) (hfar : ∀ i j, far i j → P.K0⁻¹ i j = 0) (hw : ∀ l i j, far i j → P.w l i * P.w l j = 0) (hx : x ∈ proper far)
    (hg : ∀ j, gv P x j ≤ 0) {t : ℝ} (ht : t ∈ Icc (0 : ℝ) 1) : x + t • (target P x - x) ∈ proper far := by
  have e : ∀ i j, (x + t • (target P x - x)).2 i j = (1 - t) * x.2 i j + t * (P.K0⁻¹ - (2 : ℝ) • ∑ l, gv P x l • vecMulVec (P.w l) (P.w l)) i j := fun i j => by
    show x.2 i j + t * ((P.K0⁻¹ - (2 : ℝ) • ∑ l, gv P x l • vecMulVec (P.w l) (P.w l)) i j - x.2 i j) = _
    ring
  have hT : (P.K0⁻¹ - (2 : ℝ) • ∑ l, gv P x l • vecMulVec (P.w l) (P.w l)).PosDef := by
    have : P.K0⁻¹ - (2 : ℝ) • ∑ l, gv P x l • vecMulVec (P.w l) (P.w l) = P.K0⁻¹ + ∑ l, (-2 * gv P x l) • vecMulVec (P.w l) (P.w l) := by
      rw [sub_eq_add_neg, Finset.smul_sum, ← Finset.sum_neg_distrib]
      congr 1
      refine Finset.sum_congr rfl fun l _ => ?_
      rw [smul_smul, ← neg_smul]; congr 1; ring
    rw [this]
    refine hK0.inv.add_posSemidef (posSemidef_sum _ fun l _ => ?_)
    refine PosSemidef.smul ?_ (by have := hg l; linarith)
    have := posSemidef_vecMulVec_self_star (P.w l)
    rwa [star_trivial] at this
  refine ⟨?_, fun i j h => ?_⟩
  · have e' : Matrix.of (x + t • (target P x - x)).2 = (1 - t) • Matrix.of x.2 + t • (P.K0⁻¹ - (2 : ℝ) • ∑ l, gv P x l • vecMulVec (P.w l) (P.w l)) := by
      ext i j
      exact e i j
    rw [e']
    rcases ht.1.eq_or_lt with h0 | h0
    · rw [← h0, zero_smul, add_zero, sub_zero, one_smul]; exact hx.1
    · exact PosDef.posSemidef_add (hx.1.posSemidef.smul (by linarith [ht.2])) (hT.smul h0)
  · rw [e, hx.2 i j h, Matrix.sub_apply, hfar i j h, Matrix.smul_apply, Matrix.sum_apply]
    simp only [Matrix.smul_apply, vecMulVec_apply, hw _ i j h, smul_zero, Finset.sum_const_zero, sub_zero, mul_zero, add_zero]

/-- Steps towards the target, with a small enough rate, converge. -/
theorem converges (hK0 : P.K0.PosDef) (hP : Smooth P 2) {A B : D → ℝ} (haff : ∀ j m v, 0 < v + P.r j → P.ψ j m v ≤ A j + B j * m)
    (hfar : ∀ i j, far i j → P.K0⁻¹ i j = 0) (hw : ∀ l i j, far i j → P.w l i * P.w l j = 0) (hg : ∀ x ∈ proper far, ∀ j, gv P x j ≤ 0)
    (huniq : ∀ x ∈ proper far, ∀ y ∈ proper far, target P x = x → target P y = y → x = y) {x₀ : (ι → ℝ) × (ι → ι → ℝ)} (hx₀ : x₀ ∈ proper far) :
    ∃ r₀ : ℝ, 0 < r₀ ∧ r₀ ≤ 1 ∧ ∃ y ∈ proper far, target P y = y ∧ ∀ r, 0 < r → r ≤ r₀ → ∀ x : ℕ → (ι → ℝ) × (ι → ι → ℝ), x 0 = x₀ →
      (∀ k, x (k + 1) = x k + r • (target P (x k) - x k)) → (∀ k, x k ∈ proper far) ∧ (∀ k, bound P (x k) ≤ bound P (x (k + 1))) ∧ Tendsto x atTop (𝓝 y) := by
  obtain ⟨r₀, h1, h2, y, hy, hy0, h3⟩ := ascent_converges (C := proper far) (B := bound P) (fun x hx => contDiffAt_bound hP hx) (d := fun x => target P x - x)
    ((continuousOn_target hP).sub continuousOn_id) (fun x hx t ht => step_proper hK0 hfar hw hx (hg x hx) ht) hx₀ (superlevel_compact hK0 hP haff _)
    (Q := quad) (fun x hx => fderiv_bound hK0 hP hx) continuousOn_quad (fun x hx h hh => quad_pos hx hh) (fun x _ h t => quad_smul t)
    (fun x hx y hy h h' => huniq x hx y hy (sub_eq_zero.1 h) (sub_eq_zero.1 h'))
  exact ⟨r₀, h1, h2, y, hy, sub_eq_zero.1 hy0, h3⟩

end NatDyn
end MF
