import Verif.Spec.NatGrad
import Verif.Lemmas.IWVI
import Verif.Lemmas.PEP

/-!
# Natural gradients: the exponential family of Gauss–Markov chains
-/

namespace MF
open Matrix Spec MeasureTheory ProbabilityTheory InformationTheory
variable {n d : ℕ}

theorem pairing_sub_left (a b c : ExpPar n d) : pairing (a - b) c = pairing a c - pairing b c := by
  simp only [pairing, Prod.fst_sub, Prod.snd_sub, Pi.sub_apply, Matrix.sub_apply, sub_mul, Finset.sum_sub_distrib]
  ring

theorem pairing_comm (a b : ExpPar n d) : pairing a b = pairing b a := by
  simp only [pairing, mul_comm]

theorem pairing_sub_right (a b c : ExpPar n d) : pairing a (b - c) = pairing a b - pairing a c := by
  rw [pairing_comm, pairing_sub_left, pairing_comm b, pairing_comm c]

theorem pairing_smul_left (t : ℝ) (a b : ExpPar n d) : pairing (t • a) b = t * pairing a b := by
  simp only [pairing, Prod.smul_fst, Prod.smul_snd, Pi.smul_apply, Matrix.smul_apply, smul_eq_mul, mul_assoc, ← Finset.mul_sum]
  ring

theorem pairing_smul_right (t : ℝ) (a b : ExpPar n d) : pairing a (t • b) = t * pairing a b := by
  rw [pairing_comm, pairing_smul_left, pairing_comm]

theorem pairing_self_eq_zero {g : ExpPar n d} (h : pairing g g = 0) : g = 0 := by
  have n1 : 0 ≤ ∑ b, ∑ i, g.1 b i * g.1 b i := Finset.sum_nonneg fun b _ => Finset.sum_nonneg fun i _ => mul_self_nonneg _
  have n2 : 0 ≤ ∑ b, ∑ i, ∑ j, g.2.1 b i j * g.2.1 b i j := Finset.sum_nonneg fun b _ => Finset.sum_nonneg fun i _ =>
    Finset.sum_nonneg fun j _ => mul_self_nonneg _
  have n3 : 0 ≤ ∑ b, ∑ i, ∑ j, g.2.2 b i j * g.2.2 b i j := Finset.sum_nonneg fun b _ => Finset.sum_nonneg fun i _ =>
    Finset.sum_nonneg fun j _ => mul_self_nonneg _
  unfold pairing at h
  have e1 : ∑ b, ∑ i, g.1 b i * g.1 b i = 0 := by linarith
  have e2 : ∑ b, ∑ i, ∑ j, g.2.1 b i j * g.2.1 b i j = 0 := by linarith
  have e3 : ∑ b, ∑ i, ∑ j, g.2.2 b i j * g.2.2 b i j = 0 := by linarith
  refine Prod.ext ?_ (Prod.ext ?_ ?_)
  · funext b i
    have := (Finset.sum_eq_zero_iff_of_nonneg (fun b _ => Finset.sum_nonneg fun i _ => mul_self_nonneg _)).1 e1 b (Finset.mem_univ _)
    have := (Finset.sum_eq_zero_iff_of_nonneg (fun i _ => mul_self_nonneg _)).1 this i (Finset.mem_univ _)
    exact mul_self_eq_zero.1 this
  · funext b; ext i j
    have := (Finset.sum_eq_zero_iff_of_nonneg (fun b _ => Finset.sum_nonneg fun i _ => Finset.sum_nonneg fun j _ =>
      mul_self_nonneg _)).1 e2 b (Finset.mem_univ _)
    have := (Finset.sum_eq_zero_iff_of_nonneg (fun i _ => Finset.sum_nonneg fun j _ =>
      mul_self_nonneg _)).1 this i (Finset.mem_univ _)
    have := (Finset.sum_eq_zero_iff_of_nonneg (fun j _ => mul_self_nonneg _)).1 this j (Finset.mem_univ _)
    exact mul_self_eq_zero.1 this
  · funext b; ext i j
    have := (Finset.sum_eq_zero_iff_of_nonneg (fun b _ => Finset.sum_nonneg fun i _ => Finset.sum_nonneg fun j _ =>
      mul_self_nonneg _)).1 e3 b (Finset.mem_univ _)
    have := (Finset.sum_eq_zero_iff_of_nonneg (fun i _ => Finset.sum_nonneg fun j _ =>
      mul_self_nonneg _)).1 this i (Finset.mem_univ _)
    have := (Finset.sum_eq_zero_iff_of_nonneg (fun j _ => mul_self_nonneg _)).1 this j (Finset.mem_univ _)
    exact mul_self_eq_zero.1 this

/-- A gradient is unique. -/
theorem IsGradient.unique {f : ExpPar n d → ℝ} {η g g' : ExpPar n d} (h : IsGradient f η g) (h' : IsGradient f η g') :
    g = g' := by
  have hs : SymDiag (g - g') := fun b => by
    show (g.2.1 b - g'.2.1 b)ᵀ = _
    rw [transpose_sub, h.1 b, h'.1 b]; rfl
  have := (h.2 _ hs).unique (h'.2 _ hs)
  refine sub_eq_zero.1 (pairing_self_eq_zero ?_)
  rw [pairing_sub_left, this, sub_self]

/-! ### log densities -/

/-- The log density is linear in the natural parameters. -/
theorem logPdf_natural {s : SSM n d} (h : s.Nondegenerate) (x : Fin (n + 1) → Vec d) :
    s.logPdf x = pairing (ssmToNaturals s) (suffStats x) + s.logPdf 0 := by
  have hK := SSM.Kd_posDef h
  rw [SSM.logPdf_eq h, SSM.logPdf_eq h, gaussLogDensity_natural hK, show stk (0 : Fin (n + 1) → Vec d) = 0 from rfl,
    ssmToNaturals_eq s h, SSM.Kd_inv h, ← SSM.denseSym_prec h, quad_denseSym _ _ SSM.precD_symm]
  have q : ∀ (A : Mat d d) (u v : Vec d), u ⬝ᵥ (A *ᵥ v) = ∑ i, ∑ j, A i j * (u i * v j) := by
    intro A u v
    simp only [dotProduct, mulVec, Finset.mul_sum]
    exact Finset.sum_congr rfl fun i _ => Finset.sum_congr rfl fun j _ => by ring
  have e1 : (denseSym s.precD s.precS *ᵥ stk s.mus) ⬝ᵥ stk x =
      ∑ b, ∑ i, vblk (denseSym s.precD s.precS *ᵥ stk s.mus) b i * x b i := by
    simp only [dotProduct, Fintype.sum_prod_type]; rfl
  rw [e1]
  simp only [q, pairing, suffStats, vecMulVec_apply, Matrix.smul_apply, smul_eq_mul, Matrix.neg_apply, neg_mul,
    Finset.sum_neg_distrib, mul_assoc, ← Finset.mul_sum]
  have e2 : unstk (stk x) = x := rfl
  rw [e2]
  ring

/-- The expectation parameters, in closed form. -/
noncomputable def expPar (s : SSM n d) : ExpPar n d :=
  (s.mus, fun b => blk s.Kd b b + vecMulVec (s.mus b) (s.mus b),
    fun k => blk s.Kd k.succ k.castSucc + vecMulVec (s.mus k.succ) (s.mus k.castSucc))

theorem symDiag_expPar (s : SSM n d) : SymDiag (expPar s) := fun b => by
  show (blk s.Kd b b + vecMulVec (s.mus b) (s.mus b))ᵀ = _
  rw [transpose_add, transpose_vecMulVec, ← blk_transpose, show s.Kdᵀ = s.Kd from SSM.Kd_posSemidef.1]
  rfl

theorem symDiag_naturals {s : SSM n d} (h : s.Nondegenerate) : SymDiag (ssmToNaturals s) := fun b => by
  rw [ssmToNaturals_eq s h]
  show ((-(1 / 2) : ℝ) • s.precD b)ᵀ = _
  rw [transpose_smul, SSM.precD_symm]

/-- Expectations of the sufficient statistics. -/
theorem integral_pairing (s : SSM n d) (g : ExpPar n d) :
    Integrable (fun x => pairing g (suffStats (unstk x))) s.law ∧
      ∫ x, pairing g (suffStats (unstk x)) ∂s.law = pairing g (expPar s) := by
  rw [SSM.law_eq_gauss]
  have i1 : ∀ b i, Integrable (fun x : Ix n d → ℝ => g.1 b i * x (b, i)) (gaussLaw (stk s.mus) s.Kd) := fun b i =>
    ((integrable_eval_gaussLaw (stk s.mus) (b, i)).integrable one_le_two).const_mul _
  have i2 : ∀ (c : ℝ) (p q : Ix n d), Integrable (fun x : Ix n d → ℝ => c * (x p * x q)) (gaussLaw (stk s.mus) s.Kd) :=
    fun c p q => ((integrable_eval_gaussLaw (stk s.mus) p).integrable_mul (integrable_eval_gaussLaw (stk s.mus) q)).const_mul _
  have k2 : ∀ b i j, Integrable (fun x : Ix n d → ℝ => g.2.1 b i j * (x (b, i) * x (b, j)))
      (gaussLaw (stk s.mus) s.Kd) := fun b i j => i2 _ _ _
  have k3 : ∀ (k : Fin n) i j, Integrable (fun x : Ix n d → ℝ => g.2.2 k i j * (x (k.succ, i) * x (k.castSucc, j)))
      (gaussLaw (stk s.mus) s.Kd) := fun b i j => i2 _ _ _
  have j1 : Integrable (fun x : Ix n d → ℝ => ∑ b, ∑ i, g.1 b i * x (b, i)) (gaussLaw (stk s.mus) s.Kd) :=
    integrable_finsetSum _ fun b _ => integrable_finsetSum _ fun i _ => i1 b i
  have j2 : Integrable (fun x : Ix n d → ℝ => ∑ b, ∑ i, ∑ j, g.2.1 b i j * (x (b, i) * x (b, j)))
      (gaussLaw (stk s.mus) s.Kd) :=
    integrable_finsetSum _ fun b _ => integrable_finsetSum _ fun i _ => integrable_finsetSum _ fun j _ => i2 _ _ _
  have j3 : Integrable (fun x : Ix n d → ℝ => ∑ k : Fin n, ∑ i, ∑ j, g.2.2 k i j * (x (k.succ, i) * x (k.castSucc, j)))
      (gaussLaw (stk s.mus) s.Kd) :=
    integrable_finsetSum _ fun b _ => integrable_finsetSum _ fun i _ => integrable_finsetSum _ fun j _ => i2 _ _ _
  refine ⟨(j1.add j2).add j3, ?_⟩
  have e1 := integral_add (j1.add j2) j3
  have e2 := integral_add j1 j2
  refine e1.trans ?_
  simp only [Pi.add_apply]
  rw [e2]
  unfold pairing
  congr 1
  · congr 1
    · rw [integral_finsetSum _ fun b _ => integrable_finsetSum _ fun i _ => i1 b i]
      refine Finset.sum_congr rfl fun b _ => ?_
      rw [integral_finsetSum _ fun i _ => i1 b i]
      refine Finset.sum_congr rfl fun i _ => ?_
      rw [integral_const_mul, integral_eval_gaussLaw]
      rfl
    · rw [integral_finsetSum _ fun b _ => integrable_finsetSum _ fun i _ => integrable_finsetSum _ fun j _ => k2 b i j]
      refine Finset.sum_congr rfl fun b _ => ?_
      rw [integral_finsetSum _ fun i _ => integrable_finsetSum _ fun j _ => k2 b i j]
      refine Finset.sum_congr rfl fun i _ => ?_
      rw [integral_finsetSum _ fun j _ => k2 b i j]
      refine Finset.sum_congr rfl fun j _ => ?_
      rw [integral_const_mul, integral_mul_eval_gaussLaw SSM.Kd_posSemidef]
      rfl
  · rw [integral_finsetSum _ fun b _ => integrable_finsetSum _ fun i _ => integrable_finsetSum _ fun j _ => k3 b i j]
    refine Finset.sum_congr rfl fun b _ => ?_
    rw [integral_finsetSum _ fun i _ => integrable_finsetSum _ fun j _ => k3 b i j]
    refine Finset.sum_congr rfl fun i _ => ?_
    rw [integral_finsetSum _ fun j _ => k3 b i j]
    refine Finset.sum_congr rfl fun j _ => ?_
    rw [integral_const_mul, integral_mul_eval_gaussLaw SSM.Kd_posSemidef]
    rfl

/-- The KL divergence in exponential family form. -/
theorem klDiv_natural {q p : SSM n d} (hq : q.Nondegenerate) (hp : p.Nondegenerate) :
    klDiv q.law p.law ≠ ⊤ ∧ (klDiv q.law p.law).toReal =
      pairing (ssmToNaturals q - ssmToNaturals p) (expPar q) + (q.logPdf 0 - p.logPdf 0) := by
  have hpq : IsProbabilityMeasure q.law := by rw [SSM.law_eq_gauss]; infer_instance
  have hpp : IsProbabilityMeasure p.law := by rw [SSM.law_eq_gauss]; infer_instance
  have hkl : klDiv q.law p.law ≠ ⊤ := by
    rw [SSM.law_eq_gauss, SSM.law_eq_gauss, klDiv_gaussLaw (SSM.Kd_posDef hq) (SSM.Kd_posDef hp)]
    exact ENNReal.ofReal_ne_top
  refine ⟨hkl, ?_⟩
  obtain ⟨-, h2⟩ := ssm_logratio hp hq hkl
  obtain ⟨i1, e1⟩ := integral_pairing q (ssmToNaturals p - ssmToNaturals q)
  have e : (fun u => p.logPdf (unstk u) - q.logPdf (unstk u)) = fun u =>
      pairing (ssmToNaturals p - ssmToNaturals q) (suffStats (unstk u)) + (p.logPdf 0 - q.logPdf 0) := by
    funext u
    rw [logPdf_natural hp, logPdf_natural hq, pairing_sub_left]; ring
  rw [e, integral_add i1 (integrable_const _), e1, integral_const, probReal_univ, one_smul, pairing_sub_left] at h2
  rw [pairing_sub_left]
  linarith

/-- Three-point identity. -/
theorem klDiv_three {q' q p : SSM n d} (hq' : q'.Nondegenerate) (hq : q.Nondegenerate) (hp : p.Nondegenerate) :
    (klDiv q'.law p.law).toReal - (klDiv q.law p.law).toReal -
      pairing (ssmToNaturals q - ssmToNaturals p) (expPar q' - expPar q) = (klDiv q'.law q.law).toReal := by
  rw [(klDiv_natural hq' hp).2, (klDiv_natural hq hp).2, (klDiv_natural hq' hq).2]
  simp only [pairing_sub_left, pairing_sub_right]
  ring

theorem klDiv_symm {q' q : SSM n d} (hq' : q'.Nondegenerate) (hq : q.Nondegenerate) :
    (klDiv q'.law q.law).toReal + (klDiv q.law q'.law).toReal =
      pairing (ssmToNaturals q' - ssmToNaturals q) (expPar q' - expPar q) := by
  rw [(klDiv_natural hq' hq).2, (klDiv_natural hq hq').2]
  simp only [pairing_sub_left, pairing_sub_right]
  ring

end MF
