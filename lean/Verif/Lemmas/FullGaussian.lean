import Verif.Lemmas.GlobalOptimum
import Verif.Lemmas.PEP

/-!
# The best Gaussian Markov approximation is the best Gaussian approximation
-/

namespace MF
open Matrix Spec MeasureTheory ProbabilityTheory InformationTheory
variable {ι D : Type*} [Fintype ι] [DecidableEq ι] [Fintype D]

omit [DecidableEq ι] in
theorem quad_sub {A : Matrix ι ι ℝ} (hA : Aᵀ = A) (a b : ι → ℝ) :
    (a - b) ⬝ᵥ (A *ᵥ (a - b)) = a ⬝ᵥ (A *ᵥ a) - 2 * (b ⬝ᵥ (A *ᵥ a)) + b ⬝ᵥ (A *ᵥ b) := by
  have e : a ⬝ᵥ (A *ᵥ b) = b ⬝ᵥ (A *ᵥ a) := by rw [dotProduct_mulVec, ← mulVec_transpose, hA, dotProduct_comm]
  rw [mulVec_sub, sub_dotProduct, dotProduct_sub, dotProduct_sub, e]
  ring

/-- Three-point identity for Gaussians whose natural parameters differ by `(u, M)`. -/
theorem gaussKL_three {K0 K K' M : Matrix ι ι ℝ} (hK0 : K0.PosDef) (hK : K.PosDef) {μ0 μ μ' u : ι → ℝ}
    (h : K⁻¹ = K0⁻¹ - (2 : ℝ) • M) (hm : K⁻¹ *ᵥ μ = K0⁻¹ *ᵥ μ0 + u) :
    gaussKL μ' K' μ0 K0 = gaussKL μ' K' μ K + gaussKL μ K μ0 K0 + (M * K').trace - (M * K).trace +
      (μ' ⬝ᵥ (M *ᵥ μ') - μ ⬝ᵥ (M *ᵥ μ)) + u ⬝ᵥ (μ' - μ) := by
  have h0 : K0⁻¹ = K⁻¹ + (2 : ℝ) • M := by rw [h]; abel
  have hm0 : K0⁻¹ *ᵥ μ0 = K⁻¹ *ᵥ μ - u := by rw [hm]; abel
  have hs0 := posDef_tr hK0.inv
  have hs := posDef_tr hK.inv
  have ht : (K⁻¹ * K).trace = Fintype.card ι := by
    rw [nonsing_inv_mul _ (isUnit_det' hK.isUnit), trace_one]
  unfold gaussKL
  rw [quad_sub hs0, quad_sub hs, quad_sub hs0, hm0, h0, add_mulVec, add_mulVec, smul_mulVec, smul_mulVec, Matrix.add_mul, Matrix.add_mul,
    trace_add, trace_add, ht, Matrix.smul_mul, Matrix.smul_mul, trace_smul, trace_smul]
  simp only [dotProduct_add, dotProduct_sub, dotProduct_smul, smul_eq_mul]
  rw [dotProduct_comm μ' u, dotProduct_comm μ u]
  ring

/-- A stationary point of a bound with concave likelihood terms is the unique best Gaussian. -/
theorem dense_global_max {lik : ScalarLikelihood} (he : ExactLikelihood lik) (hl : LogConcaveLikelihood lik) (hd : DifferentiableVarExp lik)
    {K0 K : Matrix ι ι ℝ} (hK0 : K0.PosDef) (hK : K.PosDef) {μ0 μ : ι → ℝ} (w : D → ι → ℝ) {b y : D → ℝ}
    (hpos : ∀ i, 0 < w i ⬝ᵥ (K *ᵥ w i)) {g : D → ℝ × ℝ}
    (hg1 : ∀ i, (g i).1 = deriv (fun x => lik.varExp x (w i ⬝ᵥ (K *ᵥ w i)) (y i)) (w i ⬝ᵥ μ + b i) -
      2 * deriv (fun x => lik.varExp (w i ⬝ᵥ μ + b i) x (y i)) (w i ⬝ᵥ (K *ᵥ w i)) * (w i ⬝ᵥ μ))
    (hg2 : ∀ i, (g i).2 = deriv (fun x => lik.varExp (w i ⬝ᵥ μ + b i) x (y i)) (w i ⬝ᵥ (K *ᵥ w i)))
    (h : K⁻¹ = K0⁻¹ - (2 : ℝ) • ∑ i, (g i).2 • vecMulVec (w i) (w i)) (hm : K⁻¹ *ᵥ μ = K0⁻¹ *ᵥ μ0 + ∑ i, (g i).1 • w i)
    {μ' : ι → ℝ} {K' : Matrix ι ι ℝ} (hK' : K'.PosDef) :
    gaussKL μ K μ0 K0 - ∑ i, lik.varExp (w i ⬝ᵥ μ + b i) (w i ⬝ᵥ (K *ᵥ w i)) (y i) ≤
      gaussKL μ' K' μ0 K0 - ∑ i, lik.varExp (w i ⬝ᵥ μ' + b i) (w i ⬝ᵥ (K' *ᵥ w i)) (y i) ∧
    (gaussKL μ' K' μ0 K0 - ∑ i, lik.varExp (w i ⬝ᵥ μ' + b i) (w i ⬝ᵥ (K' *ᵥ w i)) (y i) =
      gaussKL μ K μ0 K0 - ∑ i, lik.varExp (w i ⬝ᵥ μ + b i) (w i ⬝ᵥ (K *ᵥ w i)) (y i) → μ' = μ ∧ K' = K) := by
  obtain ⟨c, hc, hc0, hc1⟩ := coupling_kl hK0 hK hK' w (fun i => (g i).2) h μ μ'
  have hnn : ∀ {K : Matrix ι ι ℝ}, K.PosDef → ∀ i, 0 ≤ w i ⬝ᵥ (K *ᵥ w i) := fun hK i => by
    have := hK.posSemidef.dotProduct_mulVec_nonneg (w i)
    rwa [star_trivial] at this
  have h3 := gaussKL_three (K' := K') (μ' := μ') hK0 hK h hm
  rw [trace_sum_vecMulVec, trace_sum_vecMulVec, quad_sum_vecMulVec, quad_sum_vecMulVec, sum_dotProduct] at h3
  have hsum : ∑ i, (g i).2 * (w i ⬝ᵥ (K' *ᵥ w i)) - ∑ i, (g i).2 * (w i ⬝ᵥ (K *ᵥ w i)) +
      (∑ i, (g i).2 * (w i ⬝ᵥ μ') ^ 2 - ∑ i, (g i).2 * (w i ⬝ᵥ μ) ^ 2) + ∑ i, ((g i).1 • w i) ⬝ᵥ (μ' - μ) -
      ∑ i, lik.varExp (w i ⬝ᵥ μ' + b i) (w i ⬝ᵥ (K' *ᵥ w i)) (y i) + ∑ i, lik.varExp (w i ⬝ᵥ μ + b i) (w i ⬝ᵥ (K *ᵥ w i)) (y i) ≥
      ∑ i, (g i).2 * ((w i ⬝ᵥ μ' - w i ⬝ᵥ μ) ^ 2 + w i ⬝ᵥ (K' *ᵥ w i) + w i ⬝ᵥ (K *ᵥ w i) - 2 * c i) := by
    simp only [← Finset.sum_sub_distrib, ← Finset.sum_add_distrib]
    refine Finset.sum_le_sum fun i _ => ?_
    have ht := tangent_ineq he hl hd (m := w i ⬝ᵥ μ + b i) (m' := w i ⬝ᵥ μ' + b i) (y := y i) (hpos i) (hnn hK' i) (hc i)
    rw [smul_dotProduct, smul_eq_mul, dotProduct_sub, hg1, hg2]
    nlinarith [ht]
  refine ⟨by linarith, fun hz => hc1 (by linarith)⟩

/-! ### Gaussians that differ from a prior by a factor that depends on linear functionals only -/

section marginal
variable {κ : Type*} [Fintype κ] [DecidableEq κ]

theorem gaussKL_site {K0 K : Matrix ι ι ℝ} (hK : K.PosDef) {E : Matrix κ ι ℝ} {b : Matrix κ κ ℝ} {g : κ → ℝ} {μ : ι → ℝ}
    (h : K⁻¹ = K0⁻¹ + Eᵀ * b * E) (hm : K⁻¹ *ᵥ μ = Eᵀ *ᵥ g) :
    gaussKL μ K 0 K0 = (1 / 2) * (-(b * (E * K * Eᵀ)).trace + (E *ᵥ μ) ⬝ᵥ g - (E *ᵥ μ) ⬝ᵥ (b *ᵥ (E *ᵥ μ)) +
      Real.log K0.det - Real.log K.det) := by
  have h0 : K0⁻¹ = K⁻¹ - Eᵀ * b * E := by rw [h]; abel
  have ht : (K⁻¹ * K).trace = Fintype.card ι := by
    rw [nonsing_inv_mul _ (isUnit_det' hK.isUnit), trace_one]
  have e1 : (K0⁻¹ * K).trace = Fintype.card ι - (b * (E * K * Eᵀ)).trace := by
    rw [h0, Matrix.sub_mul, trace_sub, ht]
    congr 1
    rw [trace_mul_comm b, Matrix.mul_assoc (Eᵀ * b), trace_mul_comm]
    simp only [Matrix.mul_assoc]
  have e2 : μ ⬝ᵥ (K0⁻¹ *ᵥ μ) = (E *ᵥ μ) ⬝ᵥ g - (E *ᵥ μ) ⬝ᵥ (b *ᵥ (E *ᵥ μ)) := by
    rw [h0, sub_mulVec, hm, dotProduct_sub, dotProduct_mulVec, vecMul_transpose, ← mulVec_mulVec, ← mulVec_mulVec, dotProduct_mulVec μ,
      vecMul_transpose]
  unfold gaussKL
  rw [zero_sub, mulVec_neg, neg_dotProduct_neg, e1, e2]
  ring

theorem det_site {K0 K : Matrix ι ι ℝ} (hK0 : K0.PosDef) (hK : K.PosDef) {E : Matrix κ ι ℝ} {b : Matrix κ κ ℝ}
    (h : K⁻¹ = K0⁻¹ + Eᵀ * b * E) : K0.det = K.det * (1 + b * (E * K0 * Eᵀ)).det := by
  have e : K0 = K * (1 + Eᵀ * (b * E * K0)) := by
    have : K * (K⁻¹ * K0) = K * (1 + Eᵀ * (b * E * K0)) := by
      rw [h, Matrix.add_mul, nonsing_inv_mul _ (isUnit_det' hK0.isUnit)]
      simp only [Matrix.mul_assoc]
    rwa [← Matrix.mul_assoc, mul_nonsing_inv _ (isUnit_det' hK.isUnit), Matrix.one_mul] at this
  have e2 := congrArg Matrix.det e
  rw [det_mul, det_one_add_mul_comm] at e2
  rw [e2]
  simp only [Matrix.mul_assoc]

/-- The divergence from the prior is that of the functionals. -/
theorem gaussKL_marginal {K0 K : Matrix ι ι ℝ} (hK0 : K0.PosDef) (hK : K.PosDef) {E : Matrix κ ι ℝ} {b : Matrix κ κ ℝ} {g : κ → ℝ} {μ : ι → ℝ}
    (h : K⁻¹ = K0⁻¹ + Eᵀ * b * E) (hm : K⁻¹ *ᵥ μ = Eᵀ *ᵥ g) (hG : (E * K0 * Eᵀ).PosDef) (hS : (E * K * Eᵀ).PosDef) :
    (E * K * Eᵀ)⁻¹ = (E * K0 * Eᵀ)⁻¹ + b ∧ (E * K * Eᵀ)⁻¹ *ᵥ (E *ᵥ μ) = g ∧
      gaussKL μ K 0 K0 = gaussKL (E *ᵥ μ) (E * K * Eᵀ) 0 (E * K0 * Eᵀ) := by
  have h1 := marginal_site hK0 hK h hG
  have h2 : (E * K * Eᵀ)⁻¹ *ᵥ (E *ᵥ μ) = g := by
    have : μ = K *ᵥ (Eᵀ *ᵥ g) := by
      rw [← hm, mulVec_mulVec, mul_nonsing_inv _ (isUnit_det' hK.isUnit), one_mulVec]
    rw [this, show E *ᵥ (K *ᵥ (Eᵀ *ᵥ g)) = (E * K * Eᵀ) *ᵥ g by simp only [mulVec_mulVec, Matrix.mul_assoc], mulVec_mulVec, nonsing_inv_mul _ (isUnit_det' hS.isUnit), one_mulVec]
  refine ⟨h1, h2, ?_⟩
  have k1 := det_site hK0 hK h
  have k2 := det_site (E := (1 : Matrix κ κ ℝ)) (b := b) hG hS (by rw [transpose_one, Matrix.one_mul, Matrix.mul_one, h1])
  rw [transpose_one, Matrix.one_mul, Matrix.mul_one] at k2
  have l1 : Real.log K0.det - Real.log K.det = Real.log (1 + b * (E * K0 * Eᵀ)).det := by
    have hne : (1 + b * (E * K0 * Eᵀ)).det ≠ 0 := fun h => hK0.det_pos.ne' (by rw [k1, h, mul_zero])
    rw [k1, Real.log_mul hK.det_pos.ne' hne]
    ring
  have l2 : Real.log (E * K0 * Eᵀ).det - Real.log (E * K * Eᵀ).det = Real.log (1 + b * (E * K0 * Eᵀ)).det := by
    have hne : (1 + b * (E * K0 * Eᵀ)).det ≠ 0 := fun h => hK0.det_pos.ne' (by rw [k1, h, mul_zero])
    rw [k2, Real.log_mul hS.det_pos.ne' hne]
    ring
  rw [gaussKL_site hK h hm, gaussKL_site (E := (1 : Matrix κ κ ℝ)) (b := b) (g := g) hS
    (by rw [transpose_one, Matrix.one_mul, Matrix.mul_one, h1]) (by rw [h2, transpose_one, one_mulVec])]
  rw [transpose_one, Matrix.one_mul, Matrix.mul_one, one_mulVec]
  linarith

end marginal

/-! ### state space models whose natural parameters differ from the prior's by sites on the outputs -/

variable {n o d : ℕ}

theorem stk_siteNaturals (H : Fin (n + 1) → Mat o d) (i : Fin (n + 1) × Fin o) : stk (siteNaturals H (unitSite i) 0).1 = outRow H i := by
  funext ⟨t, c⟩
  show ((H t)ᵀ *ᵥ unitSite i t) c = ((blkSel i.1)ᵀ *ᵥ H i.1 i.2) (t, c)
  by_cases ht : t = i.1
  · subst ht
    simp [unitSite, mulVec, dotProduct, blkSel, Pi.single_apply]
  · have : ¬ i.1 = t := fun e => ht e.symm
    simp [unitSite, mulVec, dotProduct, blkSel, Pi.single_apply, ht, this]

/-- The dense form of: the natural parameters of `q` are those of the zero-mean prior plus sites. -/
theorem dense_of_sites {q p : SSM n d} (hq : q.Nondegenerate) (hp : p.Nondegenerate) (hp0 : stk p.mus = 0) (H : Fin (n + 1) → Mat o d)
    {g : Fin (n + 1) × Fin o → ℝ × ℝ}
    (hst : ssmToNaturals q - ssmToNaturals p =
      ∑ i, ((g i).1 • siteNaturals H (unitSite i) 0 + (g i).2 • siteNaturals H 0 (unitSite i))) :
    q.Kd⁻¹ = p.Kd⁻¹ - (2 : ℝ) • ∑ i, (g i).2 • vecMulVec (outRow H i) (outRow H i) ∧
      q.Kd⁻¹ *ᵥ stk q.mus = ∑ i, (g i).1 • outRow H i := by
  constructor
  · rw [SSM.Kd_inv hq, SSM.Kd_inv hp, ← denseOf_naturals hq, ← denseOf_naturals hp,
      show ssmToNaturals q = ssmToNaturals p + (1 : ℝ) • ∑ i, (1 : ℝ) •
        ((g i).1 • siteNaturals H (unitSite i) 0 + (g i).2 • siteNaturals H 0 (unitSite i)) by
        rw [one_smul]; simp only [one_smul]; rw [← hst]; abel,
      denseOf_add_smul, denseOf_sum, one_smul, sub_eq_add_neg, Finset.smul_sum, ← Finset.sum_neg_distrib]
    congr 1
    refine Finset.sum_congr rfl fun i _ => ?_
    have h0 : denseOf ((g i).1 • siteNaturals H (unitSite i) 0) = 0 := by
      have := denseOf_sum {i} (fun i => (g i).1) fun i => siteNaturals H (unitSite i) 0
      rwa [Finset.sum_singleton, Finset.sum_singleton, denseOf_unitSite1, smul_zero] at this
    rw [one_smul, denseOf_add_smul, h0, denseOf_unitSite, zero_add, smul_smul, smul_smul, ← neg_smul]
    congr 1
    ring
  · have h1 := congrArg (fun x : ExpPar n d => stk x.1) hst
    simp only [Prod.fst_sub, Prod.fst_sum, Prod.fst_add, Prod.smul_fst] at h1
    have e1 : ∀ s : SSM n d, s.Nondegenerate → stk (ssmToNaturals s).1 = s.Kd⁻¹ *ᵥ stk s.mus := fun s hs => by
      rw [ssmToNaturals_eq s hs, SSM.Kd_inv hs]; rfl
    have e2 : ∀ a c : Fin (n + 1) → Vec d, stk (a - c) = stk a - stk c := fun a c => rfl
    rw [e2, e1 q hq, e1 p hp, hp0, mulVec_zero, sub_zero] at h1
    rw [h1]
    funext x
    simp only [stk, Finset.sum_apply, Pi.add_apply, Pi.smul_apply, smul_eq_mul]
    refine Finset.sum_congr rfl fun i _ => ?_
    rw [← stk_siteNaturals H i]
    simp [siteNaturals, stk]

end MF
