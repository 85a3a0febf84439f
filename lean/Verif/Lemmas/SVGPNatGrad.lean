import Verif.Lemmas.SparseCVIGrad
import Verif.Lemmas.Descent
import Verif.Props.NatGrad
import Verif.Lemmas.SVGP

/-!
# Predictions of a sparse model with several outputs in terms of pairs of inducing states; sites on pairs
-/

namespace MF
open Matrix Spec MeasureTheory ProbabilityTheory InformationTheory
variable {n d o p : ℕ}

/-- The row of output `a` of the projection of the pair of neighbours. -/
noncomputable def projRow (K : Stationary o d) (X : Fin p → ℝ) (P : Fin p → Matrix (Fin d) (Fin d ⊕ Fin d) ℝ) (i : Fin p) (a : Fin o) :
    Fin d ⊕ Fin d → ℝ := (K.emission (X i) * P i) a

/-- The part of the predictive variance of output `a` that does not depend on `q`. -/
noncomputable def restRow (K : Stationary o d) (z : Fin (n + 1) → ℝ) (X : Fin p → ℝ)
    (P : Fin p → Matrix (Fin d) (Fin d ⊕ Fin d) ℝ) (T : Fin p → Mat d d) (i : Fin p) (a : Fin o) : ℝ :=
  (K.emission (X i) * T i * (K.emission (X i))ᵀ) a a +
    projRow K X P i a ⬝ᵥ (endCov K.initialCovariance (searchsortedLeft z (X i)) *ᵥ projRow K X P i a)

theorem row_conj' {S : Type*} [Fintype S] (A : Matrix (Fin o) S ℝ) (M : Matrix S S ℝ) (a : Fin o) :
    (A * M * Aᵀ) a a = A a ⬝ᵥ (M *ᵥ A a) := by
  rw [Matrix.mul_assoc, mul_apply]
  simp only [dotProduct, mulVec, mul_apply, transpose_apply]

theorem row_predict {K : Stationary o d} {k} (hK : Builds K k) {q : SSM n d} (hq : q.Nondegenerate) (hn : 0 < n)
    {z : Fin (n + 1) → ℝ} {mf : ℝ → Vec o} {X : Fin p → ℝ} {P T} (hst : conditionalStatistics approxInf X z K.trans = .ok (P, T)) {f}
    (hf : (⟨q, K, z, mf⟩ : CondProcess n o d).predictFDiag X = .ok f) (i : Fin p) (a : Fin o) :
    (f i).1 a = projRow K X P i a ⬝ᵥ neighbours q.mus (searchsortedLeft z (X i)) + mf (X i) a ∧
    (f i).2 a = projRow K X P i a ⬝ᵥ ((pickMat (nbIdx d (searchsortedLeft z (X i))) * q.Kd *
      (pickMat (nbIdx d (searchsortedLeft z (X i))))ᵀ) *ᵥ projRow K X P i a) + restRow K z X P T i a := by
  obtain ⟨hc, hreg, -⟩ := Builds.good hK
  have hr : ∃ r, (⟨q, K, z, mf⟩ : CondProcess n o d).predictState X = .ok r := by
    unfold CondProcess.predictFDiag at hf
    cases h : (⟨q, K, z, mf⟩ : CondProcess n o d).predictState X with
    | ok r => exact ⟨r, rfl⟩
    | error e => rw [h] at hf; cases hf
  obtain ⟨r, hr⟩ := hr
  obtain ⟨f', _, hf', -, hfv⟩ := (C45_formulas hr 0).2
  obtain rfl : f = f' := Except.ok.inj (hf.symm.trans hf')
  obtain ⟨cs, hcs, mu, C, S, hmu, hC, hS, hrj⟩ := predictState_ok hq hn hc.pos hr
  have hst' : conditionalStatistics approxInf X z K.trans =
      .ok (fun j => fromCols (cs j).D (cs j).E, fun j => (cs j).T) := by
    unfold conditionalStatistics
    rw [conditionalStatisticsAux_of hcs]; rfl
  have hPT := Except.ok.inj (hst.symm.trans hst')
  obtain ⟨rfl, rfl⟩ := Prod.mk.inj hPT
  obtain ⟨e1, e2, -⟩ := hfv i
  rw [hreg.mean] at hmu
  have hm := pair_mean_eq q.mus (searchsortedLeft z (X i))
  have hcv := pair_cov_eq K.initialCovariance (isSymm_of_psd q.Kd_posSemidef) (searchsortedLeft z (X i))
  rw [← hC, ← hS] at hcv
  rw [← hmu] at hm
  constructor
  · rw [e1, hrj, ← hm]
    simp only [projRow]
    have : (K.emission (X i) * fromCols (cs i).D (cs i).E) a ⬝ᵥ
        Sum.elim (mu (searchsortedLeft z (X i)).castSucc) (mu (searchsortedLeft z (X i)).succ) =
        ((K.emission (X i) * fromCols (cs i).D (cs i).E) *ᵥ
        Sum.elim (mu (searchsortedLeft z (X i)).castSucc) (mu (searchsortedLeft z (X i)).succ)) a := rfl
    rw [this, ← mulVec_mulVec, fromCols_mulVec, Pi.add_apply]
    simp
  · rw [e2, hrj]
    dsimp only
    rw [hcv]
    have key : ∀ (H : Mat o d) (F : Matrix (Fin d) (Fin d ⊕ Fin d) ℝ) (T : Mat d d)
        (A E : Matrix (Fin d ⊕ Fin d) (Fin d ⊕ Fin d) ℝ),
        H * (T + F * (A + E) * Fᵀ) * Hᵀ = H * T * Hᵀ + (H * F) * A * (H * F)ᵀ + (H * F) * E * (H * F)ᵀ := by
      intro H F T A E
      simp only [transpose_mul, Matrix.mul_add, Matrix.add_mul, Matrix.mul_assoc, add_assoc]
    rw [key, Matrix.add_apply, Matrix.add_apply, row_conj' (_ * _), row_conj' (_ * _)]
    simp only [projRow, restRow]
    ring

theorem row_var_pos {K : Stationary o d} {k} (hK : Builds K k) (hN : NoiseTag K true) (hj : K.jitter = 0) {q : SSM n d}
    (hq : q.Nondegenerate) {z : Fin (n + 1) → ℝ} (hz : Monotone z) {X : Fin p → ℝ}
    (h0 : ∀ j, -10000000000 < X j) (h1 : ∀ j, X j ≤ 10000000000) {P T}
    (hst : conditionalStatistics approxInf X z K.trans = .ok (P, T)) (i : Fin p) (a : Fin o) (hem : K.emission (X i) a ≠ 0) :
    0 < projRow K X P i a ⬝ᵥ ((pickMat (nbIdx d (searchsortedLeft z (X i))) * q.Kd *
      (pickMat (nbIdx d (searchsortedLeft z (X i))))ᵀ) *ᵥ projRow K X P i a) + restRow K z X P T i a := by
  obtain ⟨hc, hreg, -⟩ := Builds.good hK
  have hst' := hst
  unfold conditionalStatistics at hst'
  simp only [bind, Except.bind, pure, Except.pure] at hst'
  split at hst'
  · cases hst'
  rename_i v hv
  obtain ⟨cs, hcs, rfl⟩ := conditionalStatisticsAux_ok hv
  obtain ⟨rfl, rfl⟩ := Prod.mk.inj (Except.ok.inj hst')
  have hb := codeStats_bridges hc hreg hj hz h0 h1 hcs
  have hT : (cs i).T.PosSemidef := codeStats_psd hc hreg hj hz h0 h1 hcs i
  unfold restRow
  have hPd : K.initialCovariance.PosDef := by
    have := (NoiseTag.noisy hN).2.pd
    unfold Stationary.initialCovariance
    rwa [hj, jitterMatrix_zero, add_zero]
  have hW : projRow K X (fun j => fromCols (cs j).D (cs j).E) i a ≠ 0 := by
    intro hW0
    have hF : K.emission (X i) a ᵥ* fromCols (cs i).D (cs i).E = 0 := hW0
    have hD : K.emission (X i) a ᵥ* (cs i).D = 0 := by
      funext b; exact congrFun hF (.inl b)
    have hE : K.emission (X i) a ᵥ* (cs i).E = 0 := by
      funext b; exact congrFun hF (.inr b)
    have := hb.D i
    rw [this, vecMul_sub, ← vecMul_vecMul, ← vecMul_vecMul, hE, zero_vecMul, zero_vecMul, sub_zero] at hD
    set δ := X i - augmentedTimes (10000000000 : ℝ) z (searchsortedLeft z (X i)).castSucc with hδ
    have hi : K.stateTransitions 0 δ * K.stateTransitions 0 (-δ) = 1 := by rw [← hc.add, add_neg_cancel, hc.zero]
    refine hem ?_
    rw [← vecMul_one (K.emission (X i) a), ← hi, ← vecMul_vecMul, hD, zero_vecMul]
  have hp := pair_quad_pos hq hPd (searchsortedLeft z (X i)) hW
  have hn : 0 ≤ (K.emission (X i) * (cs i).T * (K.emission (X i))ᵀ) a a := (posSemidef_conj' hT _).diag_nonneg
  linarith

/-! ### pairs of states -/

theorem denseOf_pairSites {t1 : PairVec n d} {t2 : PairMat n d} :
    denseOf (pairSiteNaturals t1 t2) = (-2 : ℝ) • denseSym (siteDiag t2) (siteSub t2) := by
  have := denseSym_sub_smul (fun _ => (0 : Mat d d)) (siteDiag t2) (fun _ => 0) (siteSub t2) 2
  have z0 : denseSym (fun _ : Fin (n + 1) => (0 : Mat d d)) (fun _ => 0) = 0 := by
    apply blk_ext
    intro b c
    rw [blk_denseSym]
    unfold symBlk
    split_ifs <;> simp [blk] <;> rfl
  rw [z0, zero_sub, ← neg_smul] at this
  rw [← this]
  unfold denseOf
  congr 1
  · funext b
    show (-2 : ℝ) • siteDiag t2 b = _
    rw [zero_sub, neg_smul]
  · funext k
    show -((2 : ℝ) • siteSub t2 k) = _
    rw [zero_sub]

/-- A proper Gaussian times sites that are bounded above is a proper Gaussian. -/
theorem proper_pairSites {s : SSM n d} (hs : s.Nondegenerate) (t1 : PairVec n d) {t2 : PairMat n d} (h : ∀ j, (t2 j)ᵀ = t2 j)
    (hneg : ∀ j v, v ⬝ᵥ (t2 j *ᵥ v) ≤ 0) : ProperNaturals (ssmToNaturals s + pairSiteNaturals t1 t2) := by
  have e := denseOf_add_smul (ssmToNaturals s) (pairSiteNaturals t1 t2) 1
  rw [one_smul, one_smul, denseOf_naturals hs, denseOf_pairSites, neg_smul, ← sub_eq_add_neg] at e
  show (denseOf (ssmToNaturals s + pairSiteNaturals t1 t2)).PosDef
  rw [e]
  refine posDef_sub_quad (by rw [← SSM.Kd_inv hs]; exact (SSM.Kd_posDef hs).inv) (denseSym_isSymm (siteDiag_symm h)) fun x => ?_
  have := pairSite_quad (0 : PairVec n d) h x
  have z : stk (siteLin (0 : PairVec n d)) = 0 := by
    funext i; show (0 : ℝ) + 0 = 0; rw [add_zero]
  rw [z, zero_dotProduct, zero_add] at this
  rw [this]
  unfold pairSiteLogLik
  refine Finset.sum_nonpos fun j _ => ?_
  rw [Pi.zero_apply, zero_dotProduct, zero_add]
  exact hneg j _

/-- The model with given proper natural parameters. -/
theorem exists_of_proper {θ : ExpPar n d} (hs : SymDiag θ) (hp : ProperNaturals θ) : ∃ s : SSM n d, s.Nondegenerate ∧ ssmToNaturals s = θ := by
  obtain ⟨s, h1, -, h2, h3, h4⟩ := exists_ssm_of_naturals θ.1 (fun b => (-2 : ℝ) • θ.2.1 b) (fun k => -θ.2.2 k)
    (fun b => by rw [transpose_smul, hs b]) hp
  refine ⟨s, h1, ?_⟩
  rw [ssmToNaturals_eq s h1, h2, h3, h4]
  refine Prod.ext rfl (Prod.ext ?_ ?_)
  · funext b
    show (-(1 / 2) : ℝ) • (-2 : ℝ) • θ.2.1 b = _
    rw [smul_smul]; norm_num
  · funext k
    show -(-θ.2.2 k) = _
    rw [neg_neg]

end MF
