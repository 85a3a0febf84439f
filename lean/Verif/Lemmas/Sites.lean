import Verif.Lemmas.Obs
import Verif.Lemmas.Naturals
import Verif.Props.Transformations

/-!
# Multiplying a Gauss-Markov prior by Gaussian sites in natural form
-/

namespace MF
open Matrix Spec MeasureTheory ProbabilityTheory

section dense
variable {ι : Type*} [Fintype ι] [DecidableEq ι]

theorem bayes_of_log {K K' : Matrix ι ι ℝ} (hK : K.PosDef) (hK' : K'.PosDef) {μ μ' : ι → ℝ} {ℓ : (ι → ℝ) → ℝ}
    (hℓ : Measurable ℓ) {c : ℝ}
    (h : ∀ x, gaussLogDensity μ K x + ℓ x = c + gaussLogDensity μ' K' x) :
    IsBayesPosterior (gaussLaw μ K) ℓ (gaussLaw μ' K') ∧
      evidence (gaussLaw μ K) ℓ = ENNReal.ofReal (Real.exp c) := by
  have hm : Measurable fun x => ENNReal.ofReal (Real.exp (ℓ x)) := by fun_prop
  have hw : (gaussLaw μ K).withDensity (fun x => ENNReal.ofReal (Real.exp (ℓ x))) =
      ENNReal.ofReal (Real.exp c) • gaussLaw μ' K' := by
    rw [gaussLaw_eq_withDensity hK, gaussLaw_eq_withDensity hK',
      ← withDensity_mul _ (measurable_dens μ K) hm, ← withDensity_smul _ (measurable_dens _ _)]
    congr 1
    funext x
    simp only [Pi.mul_apply, Pi.smul_apply, smul_eq_mul]
    rw [← ENNReal.ofReal_mul (Real.exp_pos _).le, ← ENNReal.ofReal_mul (Real.exp_pos _).le,
      ← Real.exp_add, ← Real.exp_add, h]
  have hev : evidence (gaussLaw μ K) ℓ = ENNReal.ofReal (Real.exp c) := by
    have h := congrArg (fun ν => ν Set.univ) hw
    have hp : IsProbabilityMeasure (gaussLaw μ' K') := isProbabilityMeasure_gaussLaw
    simp only [withDensity_apply _ MeasurableSet.univ, Measure.restrict_univ, Measure.smul_apply,
      measure_univ, smul_eq_mul, mul_one] at h
    exact h
  have hpos : ENNReal.ofReal (Real.exp c) ≠ 0 := by simp [Real.exp_pos]
  refine ⟨⟨hev ▸ hpos, hev ▸ ENNReal.ofReal_ne_top, ?_⟩, hev⟩
  rw [hev, hw, smul_smul, ENNReal.inv_mul_cancel hpos ENNReal.ofReal_ne_top, one_smul]

/-- The log normaliser of `N(0, K) · exp(l·x + xᵀ M x)` where `P = K⁻¹ - 2M`. -/
noncomputable def siteLogNorm (K P : Matrix ι ι ℝ) (l : ι → ℝ) : ℝ :=
  1 / 2 * (l ⬝ᵥ (P⁻¹ *ᵥ l)) - 1 / 2 * Real.log K.det - 1 / 2 * Real.log P.det

theorem measurable_quad (l : ι → ℝ) (M : Matrix ι ι ℝ) :
    Measurable fun x : ι → ℝ => l ⬝ᵥ x + x ⬝ᵥ (M *ᵥ x) := by
  simp only [dotProduct, mulVec]; fun_prop

/-- `N(0, K) · exp(l·x + xᵀ M x) ∝ N(P⁻¹ l, P⁻¹)`, `P = K⁻¹ - 2M`. -/
theorem sites_bayes {K P M : Matrix ι ι ℝ} (hK : K.PosDef) (hP : P.PosDef) (h : P = K⁻¹ - (2 : ℝ) • M)
    (l : ι → ℝ) :
    IsBayesPosterior (gaussLaw 0 K) (fun x => l ⬝ᵥ x + x ⬝ᵥ (M *ᵥ x)) (gaussLaw (P⁻¹ *ᵥ l) P⁻¹) ∧
      evidence (gaussLaw 0 K) (fun x => l ⬝ᵥ x + x ⬝ᵥ (M *ᵥ x)) =
        ENNReal.ofReal (Real.exp (siteLogNorm K P l)) := by
  refine bayes_of_log hK hP.inv (measurable_quad l M) fun x => ?_
  have hPu := isUnit_det' hP.isUnit
  have hPs := posDef_tr hP
  unfold gaussLogDensity siteLogNorm
  rw [nonsing_inv_nonsing_inv _ hPu, det_nonsing_inv, Ring.inverse_eq_inv', Real.log_inv, sub_zero]
  have e1 : (x - P⁻¹ *ᵥ l) ⬝ᵥ (P *ᵥ (x - P⁻¹ *ᵥ l)) = x ⬝ᵥ (P *ᵥ x) - 2 * (l ⬝ᵥ x) + l ⬝ᵥ (P⁻¹ *ᵥ l) := by
    rw [mulVec_sub, mulVec_mulVec, mul_nonsing_inv _ hPu, one_mulVec, dotProduct_sub, sub_dotProduct,
      sub_dotProduct]
    have : (P⁻¹ *ᵥ l) ⬝ᵥ (P *ᵥ x) = l ⬝ᵥ x := by
      rw [dotProduct_mulVec, ← mulVec_transpose, hPs, mulVec_mulVec, mul_nonsing_inv _ hPu, one_mulVec]
    rw [this, dotProduct_comm x l, dotProduct_comm (P⁻¹ *ᵥ l) l]
    ring
  have e2 : x ⬝ᵥ (P *ᵥ x) = x ⬝ᵥ (K⁻¹ *ᵥ x) - 2 * (x ⬝ᵥ (M *ᵥ x)) := by
    rw [h, sub_mulVec, dotProduct_sub, smul_mulVec, dotProduct_smul, smul_eq_mul]
  rw [e1, e2]
  ring

end dense

variable {n d : ℕ}

theorem denseSym_sub_smul (D D' : Fin (n + 1) → Mat d d) (S S' : Fin n → Mat d d) (c : ℝ) :
    denseSym (fun b => D b - c • D' b) (fun k => S k - c • S' k) = denseSym D S - c • denseSym D' S' := by
  apply blk_ext
  intro b c'
  have hb : ∀ M N : Matrix (Ix n d) (Ix n d) ℝ, blk (M - c • N) b c' = blk M b c' - c • blk N b c' := fun _ _ => rfl
  rw [hb, blk_denseSym, blk_denseSym, blk_denseSym]
  unfold symBlk
  split
  · rfl
  · split
    · rfl
    · split
      · rw [transpose_sub, transpose_smul]
      · simp

theorem quad_denseSym (D : Fin (n + 1) → Mat d d) (S : Fin n → Mat d d) (hD : ∀ b, (D b)ᵀ = D b)
    (x : Ix n d → ℝ) :
    x ⬝ᵥ (denseSym D S *ᵥ x) = (∑ b, unstk x b ⬝ᵥ (D b *ᵥ unstk x b)) +
      2 * ∑ k : Fin n, unstk x k.succ ⬝ᵥ (S k *ᵥ unstk x k.castSucc) := by
  have h := trace_denseSym_mul D S hD (vecMulVec x x) (by rw [transpose_vecMulVec])
  have e : (denseSym D S * vecMulVec x x).trace = x ⬝ᵥ (denseSym D S *ᵥ x) := by
    rw [mul_vecMulVec, trace_vecMulVec, dotProduct_comm]
  rw [← e, h]
  have q : ∀ (A : Mat d d) (u v : Vec d), u ⬝ᵥ (A *ᵥ v) = ∑ i, ∑ j, A i j * (u i * v j) := by
    intro A u v
    simp only [dotProduct, mulVec, Finset.mul_sum]
    exact Finset.sum_congr rfl fun i _ => Finset.sum_congr rfl fun j _ => by ring
  simp only [q]
  rfl

/-- Prior precision plus sites, through `naturalsToSSM`: it succeeds exactly when the resulting precision is
positive definite, and then gives the prior reweighted by the sites (for a zero-mean prior). -/
theorem naturals_posterior {s : SSM n d} (hs : s.Nondegenerate) (h0 : stk s.mus = 0) (hn : 0 < n) (hd : 0 < d)
    (l : Fin (n + 1) → Vec d) (D : Fin (n + 1) → Mat d d) (S : Fin n → Mat d d) (hD : ∀ b, (D b)ᵀ = D b) :
    ((s.Kd⁻¹ - (2 : ℝ) • denseSym D S).PosDef →
      ∃ q, naturalsToSSM l (fun b => (-(1 / 2) : ℝ) • s.precD b + D b)
          (fun k => -s.precS k + (2 : ℝ) • S k) = .ok q ∧ q.Nondegenerate ∧
        q.Kd⁻¹ = s.Kd⁻¹ - (2 : ℝ) • denseSym D S ∧ stk q.mus = q.Kd *ᵥ stk l ∧
        IsBayesPosterior s.law (fun x => stk l ⬝ᵥ x + x ⬝ᵥ (denseSym D S *ᵥ x)) q.law ∧
        evidence s.law (fun x => stk l ⬝ᵥ x + x ⬝ᵥ (denseSym D S *ᵥ x)) =
          ENNReal.ofReal (Real.exp (siteLogNorm s.Kd q.Kd⁻¹ (stk l)))) ∧
    (¬ (s.Kd⁻¹ - (2 : ℝ) • denseSym D S).PosDef →
      naturalsToSSM l (fun b => (-(1 / 2) : ℝ) • s.precD b + D b)
          (fun k => -s.precS k + (2 : ℝ) • S k) = .error .invalidArgument) := by
  have hsym : ∀ b, ((-(1 / 2) : ℝ) • s.precD b + D b)ᵀ = (-(1 / 2) : ℝ) • s.precD b + D b := fun b => by
    rw [transpose_add, transpose_smul, SSM.precD_symm, hD]
  have hden : denseSym (fun b => (-2 : ℝ) • ((-(1 / 2) : ℝ) • s.precD b + D b))
      (fun k => -(-s.precS k + (2 : ℝ) • S k)) = s.Kd⁻¹ - (2 : ℝ) • denseSym D S := by
    rw [SSM.Kd_inv hs, ← SSM.denseSym_prec hs, ← denseSym_sub_smul]
    congr 1
    · funext b
      rw [smul_add, smul_smul, neg_smul, sub_eq_add_neg]
      norm_num
    · funext k
      rw [neg_add, neg_neg, sub_eq_add_neg]
  constructor
  · intro hP
    obtain ⟨q, hq, hqn, he⟩ := C17_naturals_round_trip l _ _ hn hd hsym (by rw [hden]; exact hP)
    rw [ssmToNaturals_eq q hqn] at he
    simp only [Prod.mk.injEq] at he
    obtain ⟨he1, he2, he3⟩ := he
    have hPd : q.Pd = s.Kd⁻¹ - (2 : ℝ) • denseSym D S := by
      rw [← SSM.denseSym_prec hqn, ← hden]
      congr 1
      · funext b
        rw [← congrFun he2 b, smul_smul]
        norm_num
      · funext k
        rw [← congrFun he3 k, neg_neg]
    have hKq := SSM.Kd_posDef hqn
    have hqi : q.Kd⁻¹ = s.Kd⁻¹ - (2 : ℝ) • denseSym D S := by rw [SSM.Kd_inv hqn, hPd]
    have hqq : (q.Kd⁻¹)⁻¹ = q.Kd := nonsing_inv_nonsing_inv _ (isUnit_det' hKq.isUnit)
    have hmu : stk q.mus = q.Kd *ᵥ stk l := by
      rw [← he1, stk_vblk, mulVec_mulVec, ← SSM.Kd_inv hqn, mul_nonsing_inv _ (isUnit_det' hKq.isUnit), one_mulVec]
    obtain ⟨hb, hev⟩ := sites_bayes (M := denseSym D S) (SSM.Kd_posDef hs) hKq.inv hqi (stk l)
    rw [hqq, ← hmu] at hb
    refine ⟨q, hq, hqn, hqi, hmu, ?_, ?_⟩
    · rw [SSM.law_eq_gauss, SSM.law_eq_gauss, h0]; exact hb
    · rw [SSM.law_eq_gauss, h0]; exact hev
  · intro hP
    exact C17_improper_raises l _ _ hn hsym (by rw [hden]; exact hP)

end MF
