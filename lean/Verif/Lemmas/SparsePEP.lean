import Verif.Model.SparsePEP
import Verif.Lemmas.PEP
import Verif.Lemmas.ListMat
import Verif.Props.SparseCVI

/-!
# Lemmas for sparse power expectation propagation (`Model/SparsePEP`)
-/

namespace MF
open Matrix Spec MeasureTheory ProbabilityTheory
variable {n d p : ℕ}

section linalg
variable {ι κ : Type*} [Fintype ι] [DecidableEq ι] [Fintype κ] [DecidableEq κ]

omit [DecidableEq ι] in
/-- Symmetric matrices with the same quadratic form are equal. -/
theorem symm_ext_quad {A B : Matrix ι ι ℝ} (hA : Aᵀ = A) (hB : Bᵀ = B)
    (h : ∀ x, x ⬝ᵥ (A *ᵥ x) = x ⬝ᵥ (B *ᵥ x)) : A = B := by
  classical
  have hp : ∀ (M : Matrix ι ι ℝ), Mᵀ = M → ∀ x y, x ⬝ᵥ (M *ᵥ y) =
      1 / 2 * ((x + y) ⬝ᵥ (M *ᵥ (x + y)) - x ⬝ᵥ (M *ᵥ x) - y ⬝ᵥ (M *ᵥ y)) := by
    intro M hM x y
    have e : y ⬝ᵥ (M *ᵥ x) = x ⬝ᵥ (M *ᵥ y) := by
      rw [dotProduct_mulVec, ← mulVec_transpose, hM, dotProduct_comm]
    rw [mulVec_add, add_dotProduct, dotProduct_add, dotProduct_add, e]
    ring
  ext i j
  have := (hp A hA (Pi.single i 1) (Pi.single j 1)).trans
    ((by rw [h, h, h] : _ = _).trans (hp B hB (Pi.single i 1) (Pi.single j 1)).symm)
  simpa using this

/-- The mean of a marginal after a change of the joint distribution that involves that marginal only. -/
theorem marginal_site_mean {K K' : Matrix ι ι ℝ} (hK : K.PosDef) (hK' : K'.PosDef)
    {E : Matrix κ ι ℝ} {b : Matrix κ κ ℝ} (h : K'⁻¹ = K⁻¹ + Eᵀ * b * E) (hC : (E * K * Eᵀ).PosDef)
    {μ μ' : ι → ℝ} {l : κ → ℝ} (hm : K'⁻¹ *ᵥ μ' = K⁻¹ *ᵥ μ + Eᵀ *ᵥ l) :
    (E * K' * Eᵀ)⁻¹ *ᵥ (E *ᵥ μ') = (E * K * Eᵀ)⁻¹ *ᵥ (E *ᵥ μ) + l := by
  have hKu := isUnit_det' hK.isUnit
  have hCu := isUnit_det' hC.isUnit
  have e : μ = μ' + K *ᵥ (Eᵀ *ᵥ (b *ᵥ (E *ᵥ μ') - l)) := by
    have : K⁻¹ *ᵥ μ = K⁻¹ *ᵥ μ' + Eᵀ *ᵥ (b *ᵥ (E *ᵥ μ') - l) := by
      rw [mulVec_sub, ← add_sub_assoc, eq_sub_iff_add_eq, ← hm, h, add_mulVec]
      simp only [← mulVec_mulVec]
    have := congrArg (fun x => K *ᵥ x) this
    simpa only [mulVec_add, mulVec_mulVec, mul_nonsing_inv _ hKu, one_mulVec] using this
  have e2 : (E * K * Eᵀ)⁻¹ *ᵥ (E *ᵥ μ) = (E * K * Eᵀ)⁻¹ *ᵥ (E *ᵥ μ') + (b *ᵥ (E *ᵥ μ') - l) := by
    conv_lhs => rw [e]
    rw [mulVec_add, mulVec_add]
    congr 1
    have : E *ᵥ (K *ᵥ (Eᵀ *ᵥ (b *ᵥ (E *ᵥ μ') - l))) = (E * K * Eᵀ) *ᵥ (b *ᵥ (E *ᵥ μ') - l) := by
      simp only [mulVec_mulVec, Matrix.mul_assoc]
    rw [this, mulVec_mulVec, nonsing_inv_mul _ hCu, one_mulVec]
  rw [marginal_site hK hK' h hC, add_mulVec, e2]
  abel

end linalg

/-- All sites together are one quadratic form in the inducing states. -/
theorem sites_dense {θ₂ : Fin (n + 2) → Matrix (Fin d ⊕ Fin d) (Fin d ⊕ Fin d) ℝ} (h : ∀ j, (θ₂ j)ᵀ = θ₂ j) :
    denseSym (siteDiag θ₂) (siteSub θ₂) = ∑ j, (pickMat (nbIdx d j))ᵀ * θ₂ j * pickMat (nbIdx d j) := by
  refine symm_ext_quad (denseSym_isSymm (siteDiag_symm h)) ?_ fun x => ?_
  · rw [transpose_sum]
    refine Finset.sum_congr rfl fun j _ => ?_
    rw [transpose_mul, transpose_mul, transpose_transpose, h, Matrix.mul_assoc]
  · have e := pairSite_quad (0 : Fin (n + 2) → Fin d ⊕ Fin d → ℝ) h x
    rw [show stk (siteLin (0 : Fin (n + 2) → Fin d ⊕ Fin d → ℝ)) = 0 from by funext i; simp [stk, siteLin],
      zero_dotProduct, zero_add] at e
    rw [e, sum_mulVec, dotProduct_sum]
    unfold pairSiteLogLik
    refine Finset.sum_congr rfl fun j _ => ?_
    rw [neighbours_eq, Pi.zero_apply, zero_dotProduct, zero_add, ← mulVec_mulVec, ← mulVec_mulVec, dotProduct_mulVec x,
      vecMul_transpose]

theorem lin_dense (θ₁ : Fin (n + 2) → Fin d ⊕ Fin d → ℝ) :
    stk (siteLin θ₁) = ∑ j, (pickMat (nbIdx d j))ᵀ *ᵥ θ₁ j := by
  have key : ∀ x, stk (siteLin θ₁) ⬝ᵥ x = (∑ j, (pickMat (nbIdx d j))ᵀ *ᵥ θ₁ j) ⬝ᵥ x := by
    intro x
    have e := pairSite_quad θ₁ (θ₂ := 0) (fun _ => transpose_zero) x
    have e0 : denseSym (siteDiag (0 : Fin (n + 2) → Matrix (Fin d ⊕ Fin d) (Fin d ⊕ Fin d) ℝ)) (siteSub 0) = 0 := by
      rw [sites_dense (θ₂ := 0) fun _ => transpose_zero]
      simp
    rw [e0, zero_mulVec, dotProduct_zero, add_zero] at e
    rw [e, sum_dotProduct]
    unfold pairSiteLogLik
    refine Finset.sum_congr rfl fun j _ => ?_
    rw [Pi.zero_apply, zero_mulVec, dotProduct_zero, add_zero, neighbours_eq, mulVec_transpose, dotProduct_mulVec]
  exact dotProduct_eq _ _ key

/-- The covariance of the two neighbouring states: independent stationary states beyond the ends. -/
theorem pairCov_posDef {P0 : Mat d d} (hP : P0.PosDef) {K : Matrix (Ix n d) (Ix n d) ℝ} (hK : K.PosDef)
    (j : Fin (n + 2)) : (pickMat (nbIdx d j) * K * (pickMat (nbIdx d j))ᵀ + endCov P0 j).PosDef := by
  refine Fin.cases ?_ (fun m => ?_) j
  · have : pickMat (nbIdx d (0 : Fin (n + 2))) * K * (pickMat (nbIdx d (0 : Fin (n + 2))))ᵀ + endCov P0 (0 : Fin (n + 2)) =
        fromBlocks P0 0 0 (blk K 0 0) := by
      ext s s'
      rw [Matrix.add_apply, pickMat_conj, endCov, if_pos rfl, if_neg (Fin.last_pos.ne)]
      rw [show (0 : Fin (n + 2)) = (0 : Fin (n + 1)).castSucc from rfl]
      rcases s with a | a <;> rcases s' with b | b <;>
        simp only [fromBlocks_apply₁₁, fromBlocks_apply₁₂, fromBlocks_apply₂₁, fromBlocks_apply₂₂, nbIdx_castSucc_inr,
          Option.elim_some] <;> simp [nbIdx, blk]
    rw [this]
    exact posDef_fromBlocks hP (posDef_blk hK 0)
  · refine Fin.lastCases ?_ (fun k => ?_) m
    · have : pickMat (nbIdx d (Fin.last n).succ) * K * (pickMat (nbIdx d (Fin.last n).succ))ᵀ +
          endCov P0 (Fin.last n).succ = fromBlocks (blk K (Fin.last n) (Fin.last n)) 0 0 P0 := by
        ext s s'
        rw [Matrix.add_apply, pickMat_conj, endCov, if_neg (Fin.succ_ne_zero _), if_pos (Fin.succ_last n)]
        have hl : ∀ a, nbIdx d (Fin.last n).succ (.inr a) = none := fun a => by
          rw [Fin.succ_last]; exact nbIdx_last_inr a
        rcases s with a | a <;> rcases s' with b | b <;>
          simp only [fromBlocks_apply₁₁, fromBlocks_apply₁₂, fromBlocks_apply₂₁, fromBlocks_apply₂₂, nbIdx_succ_inl, hl,
            Option.elim_some, Option.elim_none] <;> simp [blk]
      rw [this]
      exact posDef_fromBlocks (posDef_blk hK _) hP
    · have h0 : k.castSucc.succ ≠ (0 : Fin (n + 2)) := Fin.succ_ne_zero _
      have h1 : k.castSucc.succ ≠ Fin.last (n + 1) := by
        rw [← Fin.succ_last]
        exact fun h => (Fin.castSucc_lt_last k).ne (Fin.succ_injective _ h)
      have f1 : ∀ a, nbIdx d k.castSucc.succ (.inl a) = some (k.castSucc, a) := fun a => nbIdx_succ_inl _ _
      have f2 : ∀ a, nbIdx d k.castSucc.succ (.inr a) = some (k.succ, a) := fun a => nbIdx_castSucc_inr k.succ a
      have : pickMat (nbIdx d k.castSucc.succ) * K * (pickMat (nbIdx d k.castSucc.succ))ᵀ + endCov P0 k.castSucc.succ =
          K.submatrix (Sum.elim (fun a => (k.castSucc, a)) fun a => (k.succ, a))
            (Sum.elim (fun a => (k.castSucc, a)) fun a => (k.succ, a)) := by
        ext s s'
        rw [Matrix.add_apply, pickMat_conj, endCov, if_neg h0, if_neg h1]
        rcases s with a | a <;> rcases s' with b | b <;> simp [f1, f2, fromBlocks]
      rw [this]
      refine hK.submatrix ?_
      have hne : k.castSucc ≠ k.succ := (Fin.castSucc_lt_succ).ne
      rintro (a | a) (b | b) h <;> simp_all [Prod.ext_iff]

namespace SparsePEP

/-- The part of the model shared with `SparseCVIGaussianProcess`. -/
def toSparse (c : SparsePEP n d) (lr : ℝ) : SparseCVI n d :=
  ⟨c.kernel, c.inducing, c.likelihood.base, c.meanFunction, lr, c.nat1, c.nat2⟩

/-- The covariance of the neighbouring states of interval `j` under `q`. -/
noncomputable def pairCov (c : SparsePEP n d) (q : SSM n d) (j : Fin (n + 2)) :
    Matrix (Fin d ⊕ Fin d) (Fin d ⊕ Fin d) ℝ :=
  pickMat (nbIdx d j) * q.Kd * (pickMat (nbIdx d j))ᵀ + endCov c.kernel.initialCovariance j

/-- Precision of the neighbouring states when the `a`-fraction of the site is removed. -/
noncomputable def cavPrec (c : SparsePEP n d) (q : SSM n d) (a : ℝ) (j : Fin (n + 2)) :
    Matrix (Fin d ⊕ Fin d) (Fin d ⊕ Fin d) ℝ := (c.pairCov q j)⁻¹ + (2 * a) • c.nat2 j

/-- Linear natural parameter of the neighbouring states when the `a`-fraction of the site is removed. -/
noncomputable def cavLin (c : SparsePEP n d) (q : SSM n d) (a : ℝ) (j : Fin (n + 2)) : Fin d ⊕ Fin d → ℝ :=
  (c.pairCov q j)⁻¹ *ᵥ neighbours q.mus j - a • c.nat1 j

/-- The fraction of its interval's site that belongs to datum `t`, times `alpha`. -/
noncomputable def frac (c : SparsePEP n d) (X : Fin p → ℝ) (t : Fin p) : ℝ :=
  c.alpha * c.fractionSites X (searchsortedLeft c.inducing (X t))

theorem computeMarginals_eq {c : SparsePEP n d} {k} (hK : Builds c.kernel k) (hn : 0 < n) {q} (hq : c.distQ = .ok q)
    (hqn : q.Nondegenerate) : c.computeMarginals = .ok (neighbours q.mus, c.pairCov q) := by
  obtain ⟨hc, hreg, -⟩ := Builds.good hK
  obtain ⟨mu, C, S, hpw, hmu, hC, hS⟩ := pairwiseMarginals_eq hqn hn hc.pos c.kernel.initialMean
    c.kernel.initialCovariance
  unfold computeMarginals
  rw [hq]
  simp only [bind, Except.bind]
  rw [hpw]
  congr 2
  · funext j
    rw [hmu, hreg.mean]
    exact pair_mean_eq q.mus j
  · funext j
    rw [hC, hS]
    exact pair_cov_eq c.kernel.initialCovariance (isSymm_of_psd q.Kd_posSemidef) j

theorem cavity_cases {c : SparsePEP n d} {q : SSM n d} (hpd : ∀ j, (c.pairCov q j).PosDef)
    (hsym : ∀ j, (c.nat2 j)ᵀ = c.nat2 j) {X : Fin p → ℝ} {P T}
    (hst : conditionalStatistics approxInf X c.inducing c.kernel.trans = .ok (P, T)) :
    ((∀ t, (c.cavPrec q (c.frac X t) (searchsortedLeft c.inducing (X t))).PosDef) →
      c.removeCavityFromMarginals X (neighbours q.mus, c.pairCov q) = .ok fun t =>
        (P t *ᵥ ((c.cavPrec q (c.frac X t) (searchsortedLeft c.inducing (X t)))⁻¹ *ᵥ
          c.cavLin q (c.frac X t) (searchsortedLeft c.inducing (X t))),
         T t + P t * (c.cavPrec q (c.frac X t) (searchsortedLeft c.inducing (X t)))⁻¹ * (P t)ᵀ)) ∧
    (¬ (∀ t, (c.cavPrec q (c.frac X t) (searchsortedLeft c.inducing (X t))).PosDef) →
      c.removeCavityFromMarginals X (neighbours q.mus, c.pairCov q) = .error .invalidArgument) := by
  obtain ⟨L, hL, hLc⟩ := seqFin_cholesky_ok (S := fun j => (c.pairCov q j).submatrix finSumFinEquiv.symm finSumFinEquiv.symm)
    fun j => (hpd j).submatrix finSumFinEquiv.symm.injective
  have hS : ∃ x, conditionalStatisticsAux approxInf X c.inducing c.kernel.trans = .ok (P, T, x) := by
    unfold conditionalStatistics at hst
    cases h : conditionalStatisticsAux approxInf X c.inducing c.kernel.trans with
    | error e => rw [h] at hst; cases hst
    | ok r =>
      rw [h] at hst
      cases hst
      exact ⟨r.2.2, rfl⟩
  obtain ⟨x, hS⟩ := hS
  have hn2 : ∀ t, -((-(1 / 2) : ℝ) • cholSolve (L (searchsortedLeft c.inducing (X t))) (1 : Mat (d + d) (d + d)) -
      c.alpha • (c.fractionSites X (searchsortedLeft c.inducing (X t)) • (c.nat2 (searchsortedLeft c.inducing (X t))).submatrix finSumFinEquiv.symm finSumFinEquiv.symm)) =
      (1 / 2 : ℝ) • (c.cavPrec q (c.frac X t) (searchsortedLeft c.inducing (X t))).submatrix finSumFinEquiv.symm finSumFinEquiv.symm := by
    intro t
    rw [cholSolve_eq (hLc (searchsortedLeft c.inducing (X t))), Matrix.mul_one, inv_submatrix_equiv, cavPrec, frac]
    ext i j
    simp only [Matrix.neg_apply, Matrix.sub_apply, Matrix.smul_apply, Matrix.add_apply, submatrix_apply, smul_eq_mul]
    ring
  have hn1 : ∀ t, (cholSolve (L (searchsortedLeft c.inducing (X t))) (replicateCol Unit (neighbours q.mus (searchsortedLeft c.inducing (X t)) ∘ finSumFinEquiv.symm))).col () -
      c.alpha • (c.fractionSites X (searchsortedLeft c.inducing (X t)) • (c.nat1 (searchsortedLeft c.inducing (X t)) ∘ finSumFinEquiv.symm)) = c.cavLin q (c.frac X t) (searchsortedLeft c.inducing (X t)) ∘ finSumFinEquiv.symm := by
    intro t
    rw [cholSolve_eq (hLc (searchsortedLeft c.inducing (X t))), inv_submatrix_equiv, cavLin, frac]
    funext i
    have h1 : ((c.pairCov q (searchsortedLeft c.inducing (X t)))⁻¹.submatrix finSumFinEquiv.symm finSumFinEquiv.symm *ᵥ (neighbours q.mus (searchsortedLeft c.inducing (X t)) ∘ finSumFinEquiv.symm)) i =
        ((c.pairCov q (searchsortedLeft c.inducing (X t)))⁻¹ *ᵥ neighbours q.mus (searchsortedLeft c.inducing (X t))) (finSumFinEquiv.symm i) := by
      rw [submatrix_mulVec_equiv]
      simp only [Function.comp_assoc, Equiv.symm_symm, Equiv.symm_comp_self, Function.comp_id, Function.comp_apply]
    rw [Pi.sub_apply, show ∀ (A : Mat (d + d) (d + d)) (v : Vec (d + d)), (A * replicateCol Unit v).col () i = (A *ᵥ v) i
      from fun A v => rfl, h1]
    simp only [Pi.sub_apply, Pi.smul_apply, smul_eq_mul, Function.comp_apply]
    ring
  have hhalf : ∀ t, ((1 / 2 : ℝ) • (c.cavPrec q (c.frac X t) (searchsortedLeft c.inducing (X t))).submatrix finSumFinEquiv.symm finSumFinEquiv.symm).PosDef ↔
      (c.cavPrec q (c.frac X t) (searchsortedLeft c.inducing (X t))).PosDef := fun t => by
    refine ⟨fun h => ?_, fun h => (h.submatrix finSumFinEquiv.symm.injective).smul (by norm_num)⟩
    have := (h.smul (show (0 : ℝ) < 2 by norm_num))
    rw [smul_smul, show (2 : ℝ) * (1 / 2) = 1 by norm_num, one_smul] at this
    have := this.submatrix finSumFinEquiv.injective
    simpa using this
  constructor
  · intro hp
    obtain ⟨L', hL', hLc'⟩ := seqFin_cholesky_ok
      (S := fun t => (1 / 2 : ℝ) • (c.cavPrec q (c.frac X t) (searchsortedLeft c.inducing (X t))).submatrix finSumFinEquiv.symm finSumFinEquiv.symm) fun t => (hhalf t).2 (hp t)
    have hinv : ∀ t, (1 / 2 : ℝ) • ((1 / 2 : ℝ) • (c.cavPrec q (c.frac X t) (searchsortedLeft c.inducing (X t))).submatrix finSumFinEquiv.symm finSumFinEquiv.symm)⁻¹ =
        (c.cavPrec q (c.frac X t) (searchsortedLeft c.inducing (X t)))⁻¹.submatrix finSumFinEquiv.symm finSumFinEquiv.symm := fun t => by
      rw [← inv_submatrix_equiv]
      symm
      apply inv_eq_right_inv
      have := mul_nonsing_inv _ (isUnit_det' ((hhalf t).2 (hp t)).isUnit)
      rw [Matrix.mul_smul, ← Matrix.smul_mul]
      exact this
    unfold removeCavityFromMarginals
    simp only [hL, bind, Except.bind, pure, Except.pure, hn2, hn1, hL', hS]
    congr 1
    funext t
    have hc2 : (1 / 2 : ℝ) • cholSolve (L' t) (1 : Mat (d + d) (d + d)) =
        (c.cavPrec q (c.frac X t) (searchsortedLeft c.inducing (X t)))⁻¹.submatrix finSumFinEquiv.symm
          finSumFinEquiv.symm := by
      rw [cholSolve_eq (hLc' t), Matrix.mul_one, hinv]
    have hc1 : ((1 / 2 : ℝ) • (cholSolve (L' t) (replicateCol Unit
        (c.cavLin q (c.frac X t) (searchsortedLeft c.inducing (X t)) ∘ finSumFinEquiv.symm))).col ()) ∘ finSumFinEquiv =
        (c.cavPrec q (c.frac X t) (searchsortedLeft c.inducing (X t)))⁻¹ *ᵥ
          c.cavLin q (c.frac X t) (searchsortedLeft c.inducing (X t)) := by
      rw [cholSolve_eq (hLc' t)]
      have h1 : ∀ (A : Mat (d + d) (d + d)) (v : Vec (d + d)), (1 / 2 : ℝ) • (A * replicateCol Unit v).col () =
          ((1 / 2 : ℝ) • A) *ᵥ v := fun A v => by rw [smul_mulVec]; rfl
      rw [h1, hinv, submatrix_mulVec_equiv]
      simp only [Function.comp_assoc, Equiv.symm_symm, Equiv.symm_comp_self, Function.comp_id]
    unfold baseConditionalPredict
    simp only [hc2, hc1, submatrix_submatrix, Equiv.symm_comp_self, submatrix_id_id]
  · intro hp
    push Not at hp
    have hsym' : ∀ t, (c.cavPrec q (c.frac X t) (searchsortedLeft c.inducing (X t)))ᵀ = c.cavPrec q (c.frac X t) (searchsortedLeft c.inducing (X t)) := fun t => by
      unfold cavPrec
      rw [transpose_add, transpose_smul, hsym, posDef_tr (hpd _).inv]
    have he' := seqFin_cholesky_error
      (S := fun t => (1 / 2 : ℝ) • (c.cavPrec q (c.frac X t) (searchsortedLeft c.inducing (X t))).submatrix finSumFinEquiv.symm finSumFinEquiv.symm)
      (fun t => by rw [transpose_smul, transpose_submatrix, hsym']) (hp.imp fun t ht h => ht ((hhalf t).1 h))
    unfold removeCavityFromMarginals
    simp only [hL, bind, Except.bind, hn2, he']

end SparsePEP
end MF
