import Verif.Spec.SiteNaturals
import Verif.Lemmas.CVINatGrad
import Verif.Lemmas.SparseCVI

/-!
# Sites on pairs of neighbouring states: natural parameters, predicted variances
-/

namespace MF
open Matrix Spec MeasureTheory ProbabilityTheory InformationTheory
variable {n d p : ℕ}

abbrev PairVec (n d : ℕ) := Fin (n + 2) → Fin d ⊕ Fin d → ℝ
abbrev PairMat (n d : ℕ) := Fin (n + 2) → Matrix (Fin d ⊕ Fin d) (Fin d ⊕ Fin d) ℝ

theorem pairSiteNaturals_eq (t1 : PairVec n d) (t2 : PairMat n d) :
    pairSiteNaturals t1 t2 = (siteLin t1, siteDiag t2, fun k => (2 : ℝ) • siteSub t2 k) := rfl

theorem pairSiteNaturals_symDiag {t1 : PairVec n d} {t2 : PairMat n d} (h : ∀ j, (t2 j)ᵀ = t2 j) : SymDiag (pairSiteNaturals t1 t2) :=
  fun m => siteDiag_symm h m

theorem pairSiteNaturals_add (a c : PairVec n d) (b e : PairMat n d) :
    pairSiteNaturals (a + c) (b + e) = pairSiteNaturals a b + pairSiteNaturals c e := by
  refine Prod.ext ?_ (Prod.ext ?_ ?_)
  · funext m i
    show a m.succ (.inl i) + c m.succ (.inl i) + (a m.castSucc (.inr i) + c m.castSucc (.inr i)) = _
    exact add_add_add_comm _ _ _ _
  · funext m
    ext i j
    exact add_add_add_comm _ _ _ _
  · funext k
    ext i j
    exact mul_add _ _ _

theorem pairSiteNaturals_smul (r : ℝ) (a : PairVec n d) (b : PairMat n d) :
    pairSiteNaturals (r • a) (r • b) = r • pairSiteNaturals a b := by
  refine Prod.ext ?_ (Prod.ext ?_ ?_)
  · funext m i
    exact (mul_add _ _ _).symm
  · funext m
    ext i j
    exact (mul_add _ _ _).symm
  · funext k
    ext i j
    exact mul_left_comm _ _ _

theorem pairSiteNaturals_sum {ι : Type*} (S : Finset ι) (a : ι → PairVec n d) (b : ι → PairMat n d) :
    pairSiteNaturals (∑ i ∈ S, a i) (∑ i ∈ S, b i) = ∑ i ∈ S, pairSiteNaturals (a i) (b i) := by
  classical
  induction S using Finset.induction_on with
  | empty =>
    simp only [Finset.sum_empty]
    have := pairSiteNaturals_smul (n := n) (d := d) 0 0 0
    rw [smul_zero, smul_zero, zero_smul] at this
    exact this
  | insert i S hi ih => rw [Finset.sum_insert hi, Finset.sum_insert hi, Finset.sum_insert hi, pairSiteNaturals_add, ih]

theorem pairing_pairSite {t1 : PairVec n d} {t2 : PairMat n d} (h : ∀ j, (t2 j)ᵀ = t2 j) (x : Ix n d → ℝ) :
    pairing (pairSiteNaturals t1 t2) (suffStats (unstk x)) = pairSiteLogLik t1 t2 (unstk x) := by
  rw [← pairSite_quad t1 h, quad_denseSym _ _ (siteDiag_symm h), ← add_assoc]
  unfold pairing suffStats
  rw [pairSiteNaturals_eq]
  have q : ∀ (A : Mat d d) (u v : Vec d), u ⬝ᵥ (A *ᵥ v) = ∑ i, ∑ j, A i j * vecMulVec u v i j := by
    intro A u v
    simp only [dotProduct, mulVec, Finset.mul_sum, vecMulVec_apply]
    exact Finset.sum_congr rfl fun i _ => Finset.sum_congr rfl fun j _ => by ring
  congr 1
  · congr 1
    · simp only [dotProduct, Fintype.sum_prod_type, stk]; rfl
    · exact Finset.sum_congr rfl fun b _ => (q _ _ _).symm
  · rw [Finset.mul_sum]
    refine Finset.sum_congr rfl fun k _ => ?_
    rw [q, Finset.mul_sum]
    refine Finset.sum_congr rfl fun i _ => ?_
    rw [Finset.mul_sum]
    exact Finset.sum_congr rfl fun j _ => mul_assoc _ _ _

/-- Expectation parameters paired with one site. -/
theorem pairing_single (W : Fin d ⊕ Fin d → ℝ) (j : Fin (n + 2)) (s : SSM n d) :
    pairing (pairSiteNaturals (Pi.single j W) 0) (expPar s) = W ⬝ᵥ neighbours s.mus j ∧
    pairing (pairSiteNaturals 0 (Pi.single j (vecMulVec W W))) (expPar s) =
      W ⬝ᵥ ((pickMat (nbIdx d j) * s.Kd * (pickMat (nbIdx d j))ᵀ) *ᵥ W) + (W ⬝ᵥ neighbours s.mus j) ^ 2 := by
  have hs0 : ∀ i, ((0 : PairMat n d) i)ᵀ = (0 : PairMat n d) i := fun i => transpose_zero
  have hs1 : ∀ i, ((Pi.single j (vecMulVec W W) : PairMat n d) i)ᵀ = (Pi.single j (vecMulVec W W) : PairMat n d) i := fun i => by
    by_cases h : i = j
    · subst h; rw [Pi.single_eq_same, transpose_vecMulVec]
    · rw [Pi.single_eq_of_ne h, transpose_zero]
  obtain ⟨hv, hl⟩ := neighbours_law s W j
  have hm := measurable_neighbours (n := n) W j
  have e1 : ∀ x : Ix n d → ℝ, pairSiteLogLik (Pi.single j W : PairVec n d) 0 (unstk x) = W ⬝ᵥ neighbours (unstk x) j := fun x => by
    unfold pairSiteLogLik
    rw [Finset.sum_eq_single j (fun b _ hb => by simp [Pi.single_eq_of_ne hb]) (by simp)]
    simp
  have e2 : ∀ x : Ix n d → ℝ, pairSiteLogLik (0 : PairVec n d) (Pi.single j (vecMulVec W W)) (unstk x) =
      (W ⬝ᵥ neighbours (unstk x) j) ^ 2 := fun x => by
    unfold pairSiteLogLik
    rw [Finset.sum_eq_single j (fun b _ hb => by simp [Pi.single_eq_of_ne hb]) (by simp), Pi.single_eq_same, vecMulVec_mulVec]
    simp only [Pi.zero_apply, zero_dotProduct, zero_add, MulOpposite.smul_eq_mul_unop, MulOpposite.unop_op, dotProduct_smul]
    rw [dotProduct_comm (neighbours (unstk x) j)]
    ring
  constructor
  · rw [← (integral_pairing s _).2]
    simp only [pairing_pairSite hs0, e1]
    have := integral_map (μ := s.law) hm.aemeasurable (f := fun y : ℝ => y) measurable_id.aestronglyMeasurable
    rw [hl, integral_id_gaussianReal] at this
    exact this.symm
  · rw [← (integral_pairing s _).2]
    simp only [pairing_pairSite hs1, e2]
    have := integral_map (μ := s.law) hm.aemeasurable (f := fun y : ℝ => y ^ 2) (by fun_prop : Measurable fun y : ℝ => y ^ 2).aestronglyMeasurable
    rw [hl] at this
    rw [← this]
    have hvar := variance_id_gaussianReal (μ := W ⬝ᵥ neighbours s.mus j)
      (v := (W ⬝ᵥ ((pickMat (nbIdx d j) * s.Kd * (pickMat (nbIdx d j))ᵀ) *ᵥ W)).toNNReal)
    rw [variance_eq_sub (memLp_id_gaussianReal 2), Real.coe_toNNReal _ hv] at hvar
    simp only [id_eq, integral_id_gaussianReal, Pi.pow_apply] at hvar
    linarith

/-! ### predicted variances are positive -/

theorem endCov_quad (P0 : Mat d d) (j : Fin (n + 2)) (W : Fin d ⊕ Fin d → ℝ) : W ⬝ᵥ (endCov P0 j *ᵥ W) =
    (if j = 0 then (fun a => W (.inl a)) ⬝ᵥ (P0 *ᵥ fun a => W (.inl a)) else 0) +
      if j = Fin.last (n + 1) then (fun a => W (.inr a)) ⬝ᵥ (P0 *ᵥ fun a => W (.inr a)) else 0 := by
  have hW : W = Sum.elim (fun a => W (.inl a)) (fun a => W (.inr a)) := by funext s; rcases s with a | a <;> rfl
  conv_lhs => rw [hW]
  unfold endCov
  rw [fromBlocks_mulVec, dotProduct_sumElim]
  simp only [Sum.elim_comp_inl, Sum.elim_comp_inr, Sum.elim_inl, Sum.elim_inr, zero_mulVec, add_zero, zero_add]
  congr 1 <;> split_ifs <;> simp

theorem pickMat_transpose_mulVec (j : Fin (n + 2)) (W : Fin d ⊕ Fin d → ℝ) (s : Fin d ⊕ Fin d) {i : Fin (n + 1) × Fin d}
    (hs : nbIdx d j s = some i) : ((pickMat (nbIdx d j))ᵀ *ᵥ W) i = W s := by
  have hinj : ∀ s', nbIdx d j s' = some i → s' = s := by
    intro s' hs'
    have key : ∀ s, nbIdx d j s = some i → (match s with | .inl a => j = i.1.succ ∧ a = i.2 | .inr a => j = i.1.castSucc ∧ a = i.2) := by
      intro s hs
      rcases s with a | a
      · revert hs
        refine Fin.cases (fun hs => ?_) (fun m hs => ?_) j
        · rw [nbIdx_zero_inl] at hs; cases hs
        · rw [nbIdx_succ_inl] at hs; cases hs; exact ⟨rfl, rfl⟩
      · revert hs
        refine Fin.lastCases (fun hs => ?_) (fun m hs => ?_) j
        · rw [nbIdx_last_inr] at hs; cases hs
        · rw [nbIdx_castSucc_inr] at hs; cases hs; exact ⟨rfl, rfl⟩
    have k1 := key s hs
    have k2 := key s' hs'
    rcases s with a | a <;> rcases s' with b | b <;> simp only at k1 k2
    · rw [k1.2, k2.2]
    · have := k1.1.symm.trans k2.1
      exact absurd (congrArg Fin.val this) (by simp)
    · have := k1.1.symm.trans k2.1
      exact absurd (congrArg Fin.val this) (by simp)
    · rw [k1.2, k2.2]
  simp only [mulVec, dotProduct, transpose_apply, pickMat, of_apply]
  rw [Finset.sum_eq_single s (fun b _ hb => by rw [if_neg fun h => hb (hinj b h), zero_mul]) (by simp), if_pos hs, one_mul]

/-- The quadratic form of the pair of neighbours, stand-ins included, is positive. -/
theorem pair_quad_pos {q : SSM n d} (hq : q.Nondegenerate) {P0 : Mat d d} (hP : P0.PosDef) (j : Fin (n + 2)) {W : Fin d ⊕ Fin d → ℝ}
    (hW : W ≠ 0) :
    0 < W ⬝ᵥ ((pickMat (nbIdx d j) * q.Kd * (pickMat (nbIdx d j))ᵀ) *ᵥ W) + W ⬝ᵥ (endCov P0 j *ᵥ W) := by
  have h1 : W ⬝ᵥ ((pickMat (nbIdx d j) * q.Kd * (pickMat (nbIdx d j))ᵀ) *ᵥ W) =
      ((pickMat (nbIdx d j))ᵀ *ᵥ W) ⬝ᵥ (q.Kd *ᵥ ((pickMat (nbIdx d j))ᵀ *ᵥ W)) := by
    rw [← mulVec_mulVec, ← mulVec_mulVec, dotProduct_mulVec, ← mulVec_transpose]
  have n1 : 0 ≤ W ⬝ᵥ ((pickMat (nbIdx d j) * q.Kd * (pickMat (nbIdx d j))ᵀ) *ᵥ W) := (neighbours_law q W j).1
  have hq0 : ∀ v : Vec d, 0 ≤ v ⬝ᵥ (P0 *ᵥ v) := fun v => by
    have := hP.posSemidef.dotProduct_mulVec_nonneg v
    rwa [star_trivial] at this
  have n2 : 0 ≤ W ⬝ᵥ (endCov P0 j *ᵥ W) := by
    rw [endCov_quad]
    refine add_nonneg ?_ ?_ <;> split_ifs <;> first | exact hq0 _ | exact le_rfl
  rcases eq_or_ne ((pickMat (nbIdx d j))ᵀ *ᵥ W) 0 with hz | hz
  · -- a missing neighbour carries the weight
    refine add_pos_of_nonneg_of_pos n1 (lt_of_le_of_ne n2 fun h0 => hW ?_)
    rw [endCov_quad] at h0
    have hpos : ∀ v : Vec d, v ⬝ᵥ (P0 *ᵥ v) = 0 → v = 0 := fun v hv => by
      by_contra hne
      have := hP.dotProduct_mulVec_pos hne
      rw [star_trivial, hv] at this
      exact lt_irrefl _ this
    funext s
    rcases s with a | a
    · rcases Fin.eq_zero_or_eq_succ j with hj | ⟨m, hj⟩
      · have : (fun a => W (.inl a)) ⬝ᵥ (P0 *ᵥ fun a => W (.inl a)) = 0 := by
          rw [if_pos hj] at h0
          have e1 := hq0 fun a => W (.inl a)
          have e2 : (0 : ℝ) ≤ if j = Fin.last (n + 1) then (fun a => W (.inr a)) ⬝ᵥ (P0 *ᵥ fun a => W (.inr a)) else 0 := by
            split_ifs; exacts [hq0 _, le_rfl]
          linarith
        exact congrFun (hpos _ this) a
      · have := pickMat_transpose_mulVec j W (.inl a) (i := (m, a)) (by rw [hj]; rfl)
        rw [hz] at this
        exact this.symm
    · rcases Fin.eq_castSucc_or_eq_last j with ⟨m, hj⟩ | hj
      · have := pickMat_transpose_mulVec j W (.inr a) (i := (m, a)) (by rw [hj, nbIdx_castSucc_inr])
        rw [hz] at this
        exact this.symm
      · have : (fun a => W (.inr a)) ⬝ᵥ (P0 *ᵥ fun a => W (.inr a)) = 0 := by
          rw [if_pos hj] at h0
          have e1 := hq0 fun a => W (.inr a)
          have e2 : (0 : ℝ) ≤ if j = 0 then (fun a => W (.inl a)) ⬝ᵥ (P0 *ᵥ fun a => W (.inl a)) else 0 := by
            split_ifs; exacts [hq0 _, le_rfl]
          linarith
        exact congrFun (hpos _ this) a
  · refine add_pos_of_pos_of_nonneg ?_ n2
    rw [h1]
    have := (SSM.Kd_posDef hq).dotProduct_mulVec_pos hz
    rwa [star_trivial] at this

/-- Predicted variances at any query between the stand-ins are positive when the emission there is not zero. -/
theorem pair_var_pos {K : Stationary 1 d} {k} (hK : Builds K k) (hN : NoiseTag K true) (hj : K.jitter = 0) {q : SSM n d}
    (hq : q.Nondegenerate) {z : Fin (n + 1) → ℝ} (hz : Monotone z) {X : Fin p → ℝ}
    (h0 : ∀ j, -10000000000 < X j) (h1 : ∀ j, X j ≤ 10000000000) {P T}
    (hst : conditionalStatistics approxInf X z K.trans = .ok (P, T)) (i : Fin p) (hem : K.emission (X i) ≠ 0) :
    0 < projW K X P i ⬝ᵥ ((pickMat (nbIdx d (searchsortedLeft z (X i))) * q.Kd *
      (pickMat (nbIdx d (searchsortedLeft z (X i))))ᵀ) *ᵥ projW K X P i) + restVar K z X P T i := by
  obtain ⟨hc, hreg, -⟩ := Builds.good hK
  have hst' := hst
  unfold conditionalStatistics at hst'
  simp only [bind, Except.bind, pure, Except.pure] at hst'
  split at hst'
  · cases hst'
  rename_i v hv
  obtain ⟨cs, hcs, rfl⟩ := conditionalStatisticsAux_ok hv
  obtain ⟨rfl, rfl⟩ := Prod.mk.inj (Except.ok.inj hst')
  have hb := codeStats_bridges hc hreg hj hz h0 h1 hcs
  have hT : (cs i).T.PosSemidef := codeStats_psd hc hreg hj hz h0 h1 hcs i
  unfold restVar
  have hPd : K.initialCovariance.PosDef := by
    have := (NoiseTag.noisy hN).2.pd
    unfold Stationary.initialCovariance
    rwa [hj, jitterMatrix_zero, add_zero]
  have hW : projW K X (fun j => fromCols (cs j).D (cs j).E) i ≠ 0 := by
    intro hW0
    have hF : K.emission (X i) * fromCols (cs i).D (cs i).E = 0 := by
      funext a
      rw [Subsingleton.elim a 0]; exact hW0
    have hD : K.emission (X i) * (cs i).D = 0 := by
      rw [mul_fromCols] at hF
      ext a b
      exact congrFun (congrFun hF a) (.inl b)
    have hE : K.emission (X i) * (cs i).E = 0 := by
      rw [mul_fromCols] at hF
      ext a b
      exact congrFun (congrFun hF a) (.inr b)
    have := hb.D i
    rw [this, Matrix.mul_sub, ← Matrix.mul_assoc, ← Matrix.mul_assoc, hE, Matrix.zero_mul, Matrix.zero_mul, sub_zero] at hD
    set δ := X i - augmentedTimes (10000000000 : ℝ) z (searchsortedLeft z (X i)).castSucc with hδ
    have hi : K.stateTransitions 0 δ * K.stateTransitions 0 (-δ) = 1 := by rw [← hc.add, add_neg_cancel, hc.zero]
    refine hem ?_
    rw [← Matrix.mul_one (K.emission (X i)), ← hi, ← Matrix.mul_assoc, hD, Matrix.zero_mul]
  have hp := pair_quad_pos hq hPd (searchsortedLeft z (X i)) hW
  have hn : 0 ≤ (K.emission (X i) * (cs i).T * (K.emission (X i))ᵀ) 0 0 := (posSemidef_conj' hT _).diag_nonneg
  linarith

end MF
