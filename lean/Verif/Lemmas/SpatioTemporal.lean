import Verif.Model.SpatioTemporal
import Verif.Spec.SpatioTemporal
import Verif.Props.SparseCVI
import Mathlib.LinearAlgebra.Matrix.SchurComplement
import Mathlib.Analysis.Matrix.Order

/-!
# Lemmas for C43: Gaussian conditioning, the spatio-temporal prior
-/

namespace MF
open Matrix Spec MeasureTheory ProbabilityTheory InformationTheory

section cond
variable {ι κ : Type*} [Fintype ι] [Fintype κ] [DecidableEq ι] [DecidableEq κ]

/-- `x ~ N(m, K)`, `y = P x + c + N(0, R)`: the law of `y`. -/
theorem gauss_push {K : Matrix ι ι ℝ} (hK : K.PosSemidef) {R : Matrix κ κ ℝ} (hR : R.PosSemidef) (m : ι → ℝ)
    (P : Matrix κ ι ℝ) :
    ((gaussLaw m K).prod (gaussLaw 0 R)).map (fun x => P *ᵥ x.1 + x.2) = gaussLaw (P *ᵥ m) (P * K * Pᵀ + R) := by
  have hm : Measurable fun x : (ι → ℝ) × (κ → ℝ) => P *ᵥ x.1 + x.2 :=
    (measurable_mulVec' P measurable_fst).add measurable_snd
  rw [gaussLaw_prod hK hR, Measure.map_map hm measurable_splitV]
  have h := gaussLaw_map_affine (posSemidef_blockdiag hK hR) (Sum.elim m 0) (0 : κ → ℝ) (fromCols P 1)
  have e : ((fun x : (ι → ℝ) × (κ → ℝ) => P *ᵥ x.1 + x.2) ∘ splitV) = fun x => 0 + fromCols P (1 : Matrix κ κ ℝ) *ᵥ x := by
    funext x
    rw [← Sum.elim_comp_inl_inr x, fromCols_mulVec_sumElim, one_mulVec, zero_add]
    rfl
  rw [e, h]
  congr 1
  · rw [fromCols_mulVec_sumElim, mulVec_zero, add_zero, zero_add]
  · rw [fromCols_mul_fromBlocks, transpose_fromCols, fromCols_mul_fromRows]
    simp

/-- The joint law of `x ~ N(0, K)` and `y = P x + N(0, R)`. -/
theorem gauss_joint {K : Matrix ι ι ℝ} (hK : K.PosSemidef) {R : Matrix κ κ ℝ} (hR : R.PosSemidef)
    (P : Matrix κ ι ℝ) :
    ((gaussLaw 0 K).prod (gaussLaw 0 R)).map (fun x => (x.1, P *ᵥ x.1 + x.2)) =
      (gaussLaw 0 (fromBlocks K (K * Pᵀ) (P * K) (P * K * Pᵀ + R))).map splitV := by
  have hm : Measurable fun x : (ι → ℝ) × (κ → ℝ) => (x.1, P *ᵥ x.1 + x.2) :=
    measurable_fst.prodMk ((measurable_mulVec' P measurable_fst).add measurable_snd)
  have hpsd := posSemidef_blockdiag hK hR
  have h := gaussLaw_map_affine hpsd (Sum.elim 0 0) (0 : ι ⊕ κ → ℝ) (fromBlocks 1 0 P 1)
  rw [gaussLaw_prod hK hR, Measure.map_map hm measurable_splitV]
  have e : ((fun x : (ι → ℝ) × (κ → ℝ) => (x.1, P *ᵥ x.1 + x.2)) ∘ splitV) =
      splitV ∘ fun x => 0 + fromBlocks 1 0 P (1 : Matrix κ κ ℝ) *ᵥ x := by
    funext x
    simp only [Function.comp, zero_add]
    rw [← Sum.elim_comp_inl_inr x, fromBlocks_mulVec]
    simp [splitV]
    constructor <;> rfl
  rw [e, ← Measure.map_map measurable_splitV (measurable_affine _ _), h]
  congr 2
  · rw [show (Sum.elim 0 0 : ι ⊕ κ → ℝ) = 0 from by funext i; cases i <;> rfl, mulVec_zero, zero_add]
  · rw [fromBlocks_transpose, fromBlocks_multiply, fromBlocks_multiply]
    simp

/-- Gaussian conditioning. -/
theorem gauss_predictive {K : Matrix ι ι ℝ} (hK : K.PosDef) {B : Matrix ι κ ℝ} {C : Matrix κ κ ℝ}
    (h : (fromBlocks K B Bᵀ C).PosSemidef) :
    (C - Bᵀ * K⁻¹ * B).PosSemidef ∧ ∀ q : Measure (ι → ℝ), IsProbabilityMeasure q →
      IsPredictive ((gaussLaw 0 (fromBlocks K B Bᵀ C)).map splitV) q
        ((q.prod (gaussLaw 0 (C - Bᵀ * K⁻¹ * B))).map fun x => (x.1, (Bᵀ * K⁻¹) *ᵥ x.1 + x.2)) := by
  have hu : IsUnit K.det := hK.det_pos.ne'.isUnit
  have hinv : Invertible K := invertibleOfIsUnitDet _ hu
  have hKs : Kᵀ = K := posDef_transpose hK
  have hKi : (K⁻¹)ᵀ = K⁻¹ := by rw [transpose_nonsing_inv, hKs]
  have hR : (C - Bᵀ * K⁻¹ * B).PosSemidef := by
    have := (PosDef.fromBlocks₁₁ B C hK).1 (by rwa [conjTranspose_eq_transpose_of_trivial])
    rwa [conjTranspose_eq_transpose_of_trivial] at this
  refine ⟨hR, fun q hq => ?_⟩
  obtain ⟨k, hk, hkq⟩ := exists_kernel (Bᵀ * K⁻¹) (C - Bᵀ * K⁻¹ * B)
  have hj := gauss_joint hK.posSemidef hR (Bᵀ * K⁻¹)
  have e1 : K * (Bᵀ * K⁻¹)ᵀ = B := by
    rw [transpose_mul, transpose_transpose, hKi, ← Matrix.mul_assoc, mul_nonsing_inv _ hu, Matrix.one_mul]
  have e2 : Bᵀ * K⁻¹ * K = Bᵀ := by rw [Matrix.mul_assoc, nonsing_inv_mul _ hu, Matrix.mul_one]
  have e3 : Bᵀ * K⁻¹ * K * (Bᵀ * K⁻¹)ᵀ + (C - Bᵀ * K⁻¹ * B) = C := by
    rw [e2, transpose_mul, transpose_transpose, hKi, ← Matrix.mul_assoc]; abel
  rw [e1, e2] at hj
  rw [e2] at e3
  rw [e3] at hj
  refine ⟨k, hk, ?_, (hkq q hq).symm⟩
  have hfst : ((gaussLaw 0 (fromBlocks K B Bᵀ C)).map splitV).map Prod.fst = gaussLaw (0 : ι → ℝ) K := by
    rw [Measure.map_map measurable_fst measurable_splitV]
    exact gaussLaw_comp h 0 Sum.inl
  rw [hfst, hkq _ inferInstance, hj]

theorem gaussLaw_zero_cov (m : ι → ℝ) : gaussLaw m 0 = Measure.dirac m := by
  have h := gaussLaw_map_affine (K := (0 : Matrix ι ι ℝ)) PosSemidef.zero 0 m (0 : Matrix ι ι ℝ)
  simp only [Matrix.zero_mulVec, add_zero, Matrix.zero_mul] at h
  rw [← h, Measure.map_const]
  simp

end cond

/-! ### `batch_base_conditional` -/

section base
variable {M N : ℕ}

theorem chol_inverse {K L : Mat M M} (h : IsCholesky K L) : IsUnit L.det ∧ K⁻¹ = (Lᵀ)⁻¹ * L⁻¹ := by
  have hu : IsUnit L.det := by
    rw [LowerTri.det h.lower]
    exact (Finset.prod_pos fun i _ => h.diag_pos i).ne'.isUnit
  exact ⟨hu, by rw [← h.mul_transpose, Matrix.mul_inv_rev]⟩

/-- The projection of a data point: on `g₂`, or on the whitened `g₂`. -/
noncomputable def baseWeights (Kmm Lm : Mat M M) (white : Bool) (k : Vec M) : Vec M :=
  if white then Lm⁻¹ *ᵥ k else Kmm⁻¹ *ᵥ k

/-- The variance that the code adds for `q_sqrt`. -/
def codeExtra (qs : QSqrt M N) (w : Vec M) (j : Fin N) : ℝ :=
  match qs with
  | .none => 0
  | .diag q => ∑ m, (q m j * w m) ^ 2
  | .full q => (tril (q j) *ᵥ w) ⬝ᵥ (tril (q j) *ᵥ w)

theorem batch_value {Kmm Lm : Mat M M} (hc : tfCholesky Kmm = .ok Lm) (hL : IsCholesky Kmm Lm) (Kmn : Mat M N)
    (Knn : Vec N) (f : Mat M N) (qs : QSqrt M N) (white : Bool) :
    batchBaseConditional Kmn Kmm Knn f qs white = .ok
      (fun j => baseWeights Kmm Lm white (Kmn.col j) ⬝ᵥ f.col j,
       fun j => Knn j - Kmn.col j ⬝ᵥ (Kmm⁻¹ *ᵥ Kmn.col j) + codeExtra qs (baseWeights Kmm Lm white (Kmn.col j)) j) := by
  obtain ⟨hu, hinv⟩ := chol_inverse hL
  have hA0 : ∀ m j, triSolve Lm Kmn false m j = (Lm⁻¹ *ᵥ Kmn.col j) m := by
    intro m j
    simp only [triSolve, Bool.false_eq_true, if_false, hL.lower.tril_eq]
    rw [Matrix.mul_apply]; rfl
  have hA1 : ∀ m j, triSolve Lm (triSolve Lm Kmn) true m j = (Kmm⁻¹ *ᵥ Kmn.col j) m := by
    intro m j
    rw [hinv, ← mulVec_mulVec]
    simp only [triSolve, if_true, Bool.false_eq_true, if_false, hL.lower.tril_eq]
    rw [Matrix.mul_apply]
    simp only [mulVec, dotProduct, Matrix.mul_apply]
    rfl
  have hA : ∀ m j, (if white then triSolve Lm Kmn else triSolve Lm (triSolve Lm Kmn) true) m j =
      baseWeights Kmm Lm white (Kmn.col j) m := by
    intro m j
    unfold baseWeights
    cases white
    · simp only [Bool.false_eq_true, if_false]; exact hA1 m j
    · simp only [if_true]; exact hA0 m j
  have hsq : ∀ j, ∑ m, triSolve Lm Kmn false m j ^ 2 = Kmn.col j ⬝ᵥ (Kmm⁻¹ *ᵥ Kmn.col j) := by
    intro j
    rw [hinv, ← mulVec_mulVec, dotProduct_mulVec, ← mulVec_transpose, transpose_nonsing_inv, transpose_transpose]
    simp only [hA0, sq]
    rfl
  unfold batchBaseConditional
  rw [hc]
  simp only [bind, Except.bind, pure, Except.pure, hsq]
  congr 1
  refine Prod.ext ?_ ?_
  · funext j
    simp only [hA]
    rfl
  · funext j
    cases qs with
    | none => simp [codeExtra]
    | diag q => simp only [codeExtra, of_apply, hA]
    | full q => simp only [codeExtra, of_apply, hA, dotProduct, mulVec, sq]

end base

/-! ### the kernel -/

section kernel
variable {M d : ℕ} {S : Type}

theorem copyRows_bijective (M : ℕ) (kt : Stationary 1 d) : Function.Bijective (copyRows M kt) :=
  (finCongr (by simp)).bijective

theorem stKernel_eq {ks : S → S → ℝ} {kt : Stationary 1 d} {Z : Fin M → S} {K} (h : sparseSpatioTemporalKernel ks kt Z = .ok K) :
    ∃ base L, independentMultiOutput (copies M kt) 0 = .ok base ∧ tfCholesky (crossGram ks Z Z) = .ok L ∧
      K = { base with emission := fun t => L * (base.emission t).submatrix (copyRows M kt) id } ∧
      factorAnalysis (copies M kt) (fun _ => L.submatrix id (Fin.cast (by simp))) 1 0 = .ok K := by
  unfold sparseSpatioTemporalKernel at h
  cases hb : independentMultiOutput (copies M kt) 0 with
  | error e => rw [hb] at h; cases h
  | ok base =>
    cases hL : tfCholesky (crossGram ks Z Z) with
    | error e => rw [hb, hL] at h; cases h
    | ok L =>
      rw [hb, hL] at h
      cases h
      refine ⟨base, L, rfl, rfl, rfl, ?_⟩
      unfold independentMultiOutput at hb
      obtain ⟨h1, h2, rfl⟩ := combineInit_ok hb
      unfold factorAnalysis combineInit
      rw [if_neg h1, if_neg (by simp)]
      congr 1
      simp only [concatKernel, Stationary.base, Stationary.mk.injEq, true_and, and_true]
      funext t
      ext i j
      rw [Matrix.mul_one]
      simp only [composedEmission, of_apply, Matrix.mul_apply, submatrix_apply, id_eq]
      rw [← (copyRows_bijective M kt).sum_comp]
      rfl


theorem copies_get (M : ℕ) (kt : Stationary 1 d) (a : Fin (copies M kt).length) : (copies M kt).get a = ⟨d, kt⟩ := by
  simp [copies]

theorem stKernel_builds {ks : S → S → ℝ} {kt : Stationary 1 d} {k} (hkt : Builds kt k) {Z : Fin M → S} {K}
    (hsym : (crossGram ks Z Z)ᵀ = crossGram ks Z Z) (h : sparseSpatioTemporalKernel ks kt Z = .ok K) :
    Builds K (fun t t' => k t t' 0 0 • crossGram ks Z Z) ∧ K.jitter = 0 ∧
      (∀ b, NoiseTag kt b → NoiseTag K b) ∧ (crossGram ks Z Z).PosDef ∧ 0 < M := by
  obtain ⟨base, L, hb, hL, hK, hf⟩ := stKernel_eq h
  have hLc : IsCholesky (crossGram ks Z Z) L := by
    have := tfCholesky_eq_ok_iff.1 hL
    rwa [symLower_eq hsym] at this
  have hc : ∀ a, Builds ((copies M kt).get a).2 k := by
    intro a; rw [copies_get]; exact hkt
  refine ⟨?_, ?_, fun b hb => ?_, ?_, ?_⟩
  · have := Builds.factor (c := fun _ => k) hc hf
    convert this using 2
    rename_i t
    funext t'
    rw [Matrix.mul_one]
    ext i j
    rw [← hLc.mul_transpose]
    simp only [Matrix.smul_apply, smul_eq_mul, Matrix.mul_apply, transpose_apply, submatrix_apply, id_eq, independent,
      of_apply, Finset.mul_sum, Finset.sum_mul]
    rw [← (copyRows_bijective M kt).sum_comp]
    refine Finset.sum_congr rfl fun m _ => ?_
    rw [← (copyRows_bijective M kt).sum_comp, Finset.sum_eq_single m]
    · rw [if_pos rfl]
      have e : ∀ i : Fin 1, i = 0 := fun i => Subsingleton.elim _ _
      rw [e (finProdFinEquiv.symm (copyRows M kt m)).2]
      simp only [copyRows, Fin.cast_cast, Fin.cast_eq_self]
      ring
    · intro b _ hbm
      rw [if_neg]
      · simp
      · intro he
        apply hbm
        have e2 : finProdFinEquiv.symm (copyRows M kt b) = finProdFinEquiv.symm (copyRows M kt m) :=
          Prod.ext he (Subsingleton.elim _ _)
        exact (copyRows_bijective M kt).1 (finProdFinEquiv.symm.injective e2)
    · simp
  · obtain ⟨-, -, rfl⟩ := combineInit_ok hf; rfl
  · exact NoiseTag.factor (fun a => by rw [copies_get]; exact hb) hf
  · rw [← hLc.mul_transpose]
    have hu := (chol_inverse hLc).1
    have := (Matrix.IsUnit.posDef_star_right_conjugate_iff (U := L) (x := (1 : Mat M M))
      ((isUnit_iff_isUnit_det _).2 hu)).2 PosDef.one
    rw [Matrix.mul_one] at this
    rwa [star_eq_conjTranspose, conjTranspose_eq_transpose_of_trivial] at this
  · obtain ⟨h1, -, -⟩ := combineInit_ok hf
    rcases Nat.eq_zero_or_pos M with rfl | hM
    · exact absurd rfl h1
    · exact hM

theorem stKernel_succeeds {ks : S → S → ℝ} (kt : Stationary 1 d) {Z : Fin M → S}
    (hpd : (crossGram ks Z Z).PosDef) (hM : 0 < M) : ∃ K, sparseSpatioTemporalKernel ks kt Z = .ok K := by
  obtain ⟨L, hL, -⟩ := tfCholesky_posDef hpd
  unfold sparseSpatioTemporalKernel
  rw [hL]
  have : ∃ b, independentMultiOutput (copies M kt) 0 = .ok b := by
    unfold independentMultiOutput combineInit
    rw [if_neg (by
      intro h
      have := congrArg List.length h
      simp at this
      omega), if_neg (by simp)]
    exact ⟨_, rfl⟩
  obtain ⟨b, hb⟩ := this
  rw [hb]
  exact ⟨_, rfl⟩

end kernel

/-! ### the prior -/

section lift
variable {U S W V : Type*} [MeasurableSpace U] [MeasurableSpace S] [MeasurableSpace W] [MeasurableSpace V]

/-- Adding independent noise to the predicted part. -/
theorem predictive_extend {prior : Measure (U × S)} [IsProbabilityMeasure prior] {q : Measure U}
    [IsProbabilityMeasure q] {ν : Measure (U × S)} (h : IsPredictive prior q ν) (R : Measure W)
    [IsProbabilityMeasure R] {g : S × W → V} (hg : Measurable g) :
    IsPredictive ((prior.prod R).map fun w => (w.1.1, g (w.1.2, w.2))) q
      ((ν.prod R).map fun w => (w.1.1, g (w.1.2, w.2))) := by
  obtain ⟨κ, hκ, hp, rfl⟩ := h
  have : IsProbabilityMeasure (prior.map Prod.fst) :=
    Measure.isProbabilityMeasure_map measurable_fst.aemeasurable
  have hG : Measurable fun w : (U × S) × W => (w.1.1, g (w.1.2, w.2)) := by fun_prop
  have key : ∀ q : Measure U, IsProbabilityMeasure q →
      q.compProd ((κ ×ₖ Kernel.const U R).map g) = ((q.compProd κ).prod R).map fun w => (w.1.1, g (w.1.2, w.2)) := by
    intro q _
    ext s hs
    rw [Measure.compProd_apply hs, Measure.map_apply hG hs, Measure.prod_apply (hG hs),
      Measure.lintegral_compProd (measurable_measure_prodMk_left (hG hs))]
    refine lintegral_congr fun u => ?_
    have hsu : MeasurableSet (Prod.mk u ⁻¹' s) := measurable_prodMk_left hs
    rw [Kernel.map_apply' _ hg _ hsu, Kernel.prod_apply, Kernel.const_apply, Measure.prod_apply (hg hsu)]
    rfl
  have hM : IsMarkovKernel ((κ ×ₖ Kernel.const U R).map g) := Kernel.IsMarkovKernel.map _ hg
  refine ⟨(κ ×ₖ Kernel.const U R).map g, hM, ?_, (key q inferInstance).symm⟩
  have hfst : ((prior.prod R).map fun w => (w.1.1, g (w.1.2, w.2))).map Prod.fst = prior.map Prod.fst := by
    rw [Measure.map_map measurable_fst hG]
    rw [show (Prod.fst ∘ fun w : (U × S) × W => (w.1.1, g (w.1.2, w.2))) = Prod.fst ∘ (Prod.fst : (U × S) × W → U × S)
      from rfl, ← Measure.map_map measurable_fst measurable_fst, Measure.map_fst_prod, measure_univ, one_smul]
  rw [hfst, key _ inferInstance, ← hp]

theorem map_fst_extend {prior : Measure (U × S)} (R : Measure W)
    [IsProbabilityMeasure R] {g : S × W → V} (hg : Measurable g) [SFinite prior] :
    ((prior.prod R).map fun w => (w.1.1, g (w.1.2, w.2))).map Prod.fst = prior.map Prod.fst := by
  have hG : Measurable fun w : (U × S) × W => (w.1.1, g (w.1.2, w.2)) := by fun_prop
  rw [Measure.map_map measurable_fst hG]
  rw [show (Prod.fst ∘ fun w : (U × S) × W => (w.1.1, g (w.1.2, w.2))) = Prod.fst ∘ (Prod.fst : (U × S) × W → U × S)
      from rfl, ← Measure.map_map measurable_fst measurable_fst, Measure.map_fst_prod, measure_univ, one_smul]

end lift

section prior
variable {n M p D d : ℕ} {S : Type}

/-- Covariance of the values at the inputs given everything at the inducing locations. -/
noncomputable def stResidual (ks : S → S → ℝ) (Z : Fin M → S) (kt : ℝ → ℝ → ℝ) (X : Fin p → S × ℝ) : Mat p p :=
  Matrix.of fun i j => spaceResidual ks Z (X i).1 (X j).1 * kt (X i).2 (X j).2

/-- The values `f(xᵢ, tᵢ)` from the states at the times `tᵢ` and the residuals. -/
noncomputable def stValues (K : Stationary M D) (ks : S → S → ℝ) (Z : Fin M → S) (X : Fin p → S × ℝ)
    (w : (Fin p × Fin D → ℝ) × (Fin p → ℝ)) : Fin p → ℝ := fun i =>
  spaceWeights ks Z (X i).1 ⬝ᵥ (K.emission (X i).2 *ᵥ fun a => w.1 (i, a)) + w.2 i

/-- The prior law of the states at the inducing times and of the values at the inputs. -/
noncomputable def stPrior (K : Stationary M D) (ks : S → S → ℝ) (Z : Fin M → S) (kt : ℝ → ℝ → ℝ)
    (z : Fin (n + 1) → ℝ) (X : Fin p → S × ℝ) : Measure ((Fin (n + 1) × Fin D → ℝ) × (Fin p → ℝ)) :=
  ((priorLaw K z fun i => (X i).2).prod (gaussLaw 0 (stResidual ks Z kt X))).map
    fun w => (w.1.1, stValues K ks Z X (w.1.2, w.2))

theorem measurable_stValues (K : Stationary M D) (ks : S → S → ℝ) (Z : Fin M → S) (X : Fin p → S × ℝ) :
    Measurable (stValues K ks Z X) := by
  unfold stValues
  refine measurable_pi_lambda _ fun i => ?_
  simp only [dotProduct, mulVec]
  fun_prop

theorem crossGram_psd {ks : S → S → ℝ} (hks : IsCovariance ks) {T : Type} [Fintype T] [DecidableEq T] (x : T → S) :
    (crossGram ks x x).PosSemidef := hks T x

theorem cov_symm {ks : S → S → ℝ} (hks : IsCovariance ks) (x y : S) : ks x y = ks y x := by
  have h := isSymm_of_psd (hks (Fin 2) ![x, y])
  exact congrFun (congrFun h 1) 0

theorem crossGram_symm {ks : S → S → ℝ} (hks : IsCovariance ks) {T : Type} (x : T → S) :
    (crossGram ks x x)ᵀ = crossGram ks x x := by
  ext i j; exact cov_symm hks _ _

/-- The spatial residual covariances are positive semidefinite. -/
theorem spaceResidual_psd {ks : S → S → ℝ} (hks : IsCovariance ks) {Z : Fin M → S}
    (hpd : (crossGram ks Z Z).PosDef) {T : Type} [Fintype T] [DecidableEq T] (x : T → S) :
    (Matrix.of fun i j => spaceResidual ks Z (x i) (x j)).PosSemidef := by
  have hj : (fromBlocks (crossGram ks Z Z) (crossGram ks Z x) (crossGram ks Z x)ᵀ (crossGram ks x x)).PosSemidef := by
    have := hks (Fin M ⊕ T) (Sum.elim Z x)
    convert this using 1
    ext i j
    rcases i with i | i <;> rcases j with j | j <;> simp [crossGram, cov_symm hks]
  have h := (gauss_predictive hpd hj).1
  convert h using 1
  ext i j
  have hKs : (crossGram ks Z Z)ᵀ = crossGram ks Z Z := crossGram_symm hks Z
  rw [Matrix.sub_apply, Matrix.mul_apply]
  unfold spaceResidual
  simp only [of_apply, crossGram, dotProduct]
  congr 1
  refine Finset.sum_congr rfl fun m _ => ?_
  congr 1
  rw [Matrix.mul_apply]
  unfold spaceWeights
  rw [mulVec, dotProduct]
  refine Finset.sum_congr rfl fun l _ => ?_
  have : ((crossGram ks Z Z)⁻¹)ᵀ = (crossGram ks Z Z)⁻¹ := by rw [transpose_nonsing_inv, hKs]
  have := congrFun (congrFun this l) m
  simp only [transpose_apply, of_apply] at this ⊢
  rw [mul_comm]
  congr 1

theorem stResidual_psd {ks : S → S → ℝ} (hks : IsCovariance ks) {Z : Fin M → S} (hpd : (crossGram ks Z Z).PosDef)
    {kt : Stationary 1 d} {k} (hkt : Builds kt k) (X : Fin p → S × ℝ) :
    (stResidual ks Z (fun t t' => k t t' 0 0) X).PosSemidef := by
  have h1 := spaceResidual_psd hks hpd fun i => (X i).1
  have h2 := (gpGram_psd hkt fun i => (X i).2).submatrix fun i : Fin p => (i, (0 : Fin 1))
  exact h1.hadamard h2

instance stPrior_isProb (K : Stationary M D) (ks : S → S → ℝ) (Z : Fin M → S) (kt : ℝ → ℝ → ℝ)
    (z : Fin (n + 1) → ℝ) (X : Fin p → S × ℝ) : IsProbabilityMeasure (stPrior K ks Z kt z X) := by
  have := measurable_stValues K ks Z X
  refine Measure.isProbabilityMeasure_map (Measurable.aemeasurable ?_)
  fun_prop

/-- The rows: an output at an inducing time, or the spatial interpolation of the outputs at an input's time. -/
noncomputable def stRows (ks : S → S → ℝ) (Z : Fin M → S) (X : Fin p → S × ℝ) :
    Matrix ((Fin (n + 1) × Fin M) ⊕ Fin p) ((Fin (n + 1) ⊕ Fin p) × Fin M) ℝ :=
  Matrix.of fun α r => match α with
    | .inl i => if r = (.inl i.1, i.2) then 1 else 0
    | .inr j => if r.1 = .inr j then spaceWeights ks Z (X j).1 r.2 else 0

theorem stRows_sum (ks : S → S → ℝ) (Z : Fin M → S) (X : Fin p → S × ℝ) (x : (Fin (n + 1) ⊕ Fin p) × Fin M → ℝ)
    (α : (Fin (n + 1) × Fin M) ⊕ Fin p) :
    ∑ r, stRows ks Z X α r * x r = match α with
      | .inl i => x (.inl i.1, i.2)
      | .inr j => spaceWeights ks Z (X j).1 ⬝ᵥ fun a => x (.inr j, a) := by
  rcases α with i | j
  · simp [stRows]
  · simp only [stRows, of_apply, ite_mul, zero_mul, Fintype.sum_prod_type]
    rw [Finset.sum_eq_single (Sum.inr j)]
    · simp [dotProduct]
    · intro b _ hb; simp [hb]
    · simp

/-- The law of the outputs at the inducing times and locations, and of the values at the inputs, is that of the
spatio-temporal Gaussian process. -/
theorem stPrior_law {ks : S → S → ℝ} (hks : IsCovariance ks) {Z : Fin M → S} {kt : Stationary 1 d} {k}
    (hkt : Builds kt k) {K} (hK : sparseSpatioTemporalKernel ks kt Z = .ok K) (z : Fin (n + 1) → ℝ)
    (X : Fin p → S × ℝ) :
    (stPrior K ks Z (fun t t' => k t t' 0 0) z X).map (fun w => Sum.elim
        (fun i : Fin (n + 1) × Fin M => (K.emission (z i.1) *ᵥ fun a => w.1 (i.1, a)) i.2) w.2) =
      stLaw (fun _ => 0) ks (fun t t' => k t t' 0 0) (Sum.elim (fun i => (Z i.2, z i.1)) X) := by
  obtain ⟨hB, hj, -, hpd, hM⟩ := stKernel_builds hkt (crossGram_symm hks Z) hK
  obtain ⟨hc, -, hD⟩ := Builds.good hB
  set τ : Fin (n + 1) ⊕ Fin p → ℝ := Sum.elim z fun i => (X i).2 with hτ
  have hR := stResidual_psd hks hpd hkt X
  have hC := hc.statProc.psd_any τ
  have hmv := measurable_stValues K ks Z X
  have hm1 : Measurable fun w : ((Fin (n + 1) × Fin (stDim M kt) → ℝ) × (Fin p × Fin (stDim M kt) → ℝ)) × (Fin p → ℝ) =>
      (w.1.1, stValues K ks Z X (w.1.2, w.2)) := by fun_prop
  have hm2 : Measurable fun w : (Fin (n + 1) × Fin (stDim M kt) → ℝ) × (Fin p → ℝ) => (Sum.elim
        (fun i : Fin (n + 1) × Fin M => (K.emission (z i.1) *ᵥ fun a => w.1 (i.1, a)) i.2) w.2 :
          (Fin (n + 1) × Fin M) ⊕ Fin p → ℝ) := by
    refine measurable_pi_lambda _ fun α => ?_
    rcases α with i | j
    · simp only [Sum.elim_inl, mulVec, dotProduct]; fun_prop
    · simp only [Sum.elim_inr]; fun_prop
  -- everything as one affine image of a Gaussian
  have hprod : (priorLaw K z fun i => (X i).2).prod (gaussLaw 0 (stResidual ks Z (fun t t' => k t t' 0 0) X)) =
      ((gaussLaw 0 (Matrix.of fun i j : (Fin (n + 1) ⊕ Fin p) × Fin (stDim M kt) =>
        stateCov (K.stateTransitions 0) K.Pinf (τ i.1) (τ j.1) i.2 j.2)).prod
        (gaussLaw 0 (stResidual ks Z (fun t t' => k t t' 0 0) X))).map (Prod.map atTimes id) := by
    have := Measure.map_prod_map (gaussLaw 0 (Matrix.of fun i j : (Fin (n + 1) ⊕ Fin p) × Fin (stDim M kt) =>
        stateCov (K.stateTransitions 0) K.Pinf (τ i.1) (τ j.1) i.2 j.2))
        (gaussLaw 0 (stResidual ks Z (fun t t' => k t t' 0 0) X)) (measurable_atTimes) measurable_id
    rw [Measure.map_id] at this
    rw [← this]
    rfl
  have hma : Measurable (Prod.map (atTimes : ((Fin (n + 1) ⊕ Fin p) × Fin (stDim M kt) → ℝ) → _)
      (id : (Fin p → ℝ) → _)) := measurable_atTimes.prodMap measurable_id
  set G : Matrix ((Fin (n + 1) × Fin M) ⊕ Fin p) ((Fin (n + 1) ⊕ Fin p) × Fin M) ℝ := stRows ks Z X with hG
  set E : Matrix ((Fin (n + 1) × Fin M) ⊕ Fin p) (Fin p) ℝ := fromRows 0 1 with hE
  have hmap : ((fun w : (Fin (n + 1) × Fin (stDim M kt) → ℝ) × (Fin p → ℝ) => (Sum.elim
        (fun i : Fin (n + 1) × Fin M => (K.emission (z i.1) *ᵥ fun a => w.1 (i.1, a)) i.2) w.2 :
          (Fin (n + 1) × Fin M) ⊕ Fin p → ℝ)) ∘ (fun w => (w.1.1, stValues K ks Z X (w.1.2, w.2))) ∘
        Prod.map atTimes id) ∘ splitV = fun x => 0 + fromCols (G * outMat K τ) E *ᵥ x := by
    funext x
    rw [zero_add]
    conv_rhs => rw [← Sum.elim_comp_inl_inr x, fromCols_mulVec_sumElim, ← mulVec_mulVec, outMat_mulVec]
    funext α
    rw [Pi.add_apply]
    have h1 := stRows_sum ks Z X (fun i : (Fin (n + 1) ⊕ Fin p) × Fin M =>
      (K.emission (τ i.1) *ᵥ fun a => (x ∘ Sum.inl) (i.1, a)) i.2) α
    rw [show (G *ᵥ fun i : (Fin (n + 1) ⊕ Fin p) × Fin M =>
      (K.emission (τ i.1) *ᵥ fun a => (x ∘ Sum.inl) (i.1, a)) i.2) α = _ from h1]
    rcases α with i | j
    · simp [hE, Function.comp, splitV, atTimes, hτ]
    · simp [hE, Function.comp, splitV, atTimes, hτ, stValues]
  unfold stPrior
  rw [Measure.map_map hm2 hm1, hprod, Measure.map_map (hm2.comp hm1) hma, gaussLaw_prod hC hR,
    Measure.map_map ((hm2.comp hm1).comp hma) measurable_splitV]
  rw [show (((fun w : (Fin (n + 1) × Fin (stDim M kt) → ℝ) × (Fin p → ℝ) => (Sum.elim
        (fun i : Fin (n + 1) × Fin M => (K.emission (z i.1) *ᵥ fun a => w.1 (i.1, a)) i.2) w.2 :
          (Fin (n + 1) × Fin M) ⊕ Fin p → ℝ)) ∘ fun w => (w.1.1, stValues K ks Z X (w.1.2, w.2))) ∘
        Prod.map atTimes id) ∘ splitV = _ from hmap, gaussLaw_map_affine (posSemidef_blockdiag hC hR)]
  unfold stLaw
  congr 1
  · rw [show (Sum.elim 0 0 : ((Fin (n + 1) ⊕ Fin p) × Fin (stDim M kt)) ⊕ Fin p → ℝ) = 0 from by
      funext i; cases i <;> rfl, mulVec_zero, zero_add]
    rfl
  · rw [fromCols_mul_fromBlocks, transpose_fromCols, fromCols_mul_fromRows]
    simp only [Matrix.mul_zero, add_zero, zero_add, transpose_mul]
    have e1 : G * outMat K τ * (Matrix.of fun i j : (Fin (n + 1) ⊕ Fin p) × Fin (stDim M kt) =>
        stateCov (K.stateTransitions 0) K.Pinf (τ i.1) (τ j.1) i.2 j.2) * ((outMat K τ)ᵀ * Gᵀ) =
        G * gpGram (fun t t' => k t t' 0 0 • crossGram ks Z Z) τ * Gᵀ := by
      rw [← outMat_conj hD]
      simp only [Matrix.mul_assoc]
    rw [e1]
    have hent : ∀ α β, (G * gpGram (fun t t' => k t t' 0 0 • crossGram ks Z Z) τ * Gᵀ) α β =
        ∑ r, G β r * ∑ r', G α r' * gpGram (fun t t' => k t t' 0 0 • crossGram ks Z Z) τ r' r := by
      intro α β
      rw [Matrix.mul_apply]
      refine Finset.sum_congr rfl fun r _ => ?_
      rw [Matrix.mul_apply, transpose_apply, mul_comm]
    have hE' : ∀ α β, (E * stResidual ks Z (fun t t' => k t t' 0 0) X * Eᵀ) α β = match α, β with
        | .inr i, .inr j => stResidual ks Z (fun t t' => k t t' 0 0) X i j
        | _, _ => 0 := by
      intro α β
      rw [hE, fromRows_mul, transpose_fromRows, Matrix.zero_mul, Matrix.one_mul, transpose_zero, transpose_one,
        fromRows_mul_fromCols]
      rcases α with i | i <;> rcases β with j | j <;> simp
    have hKu : ∀ x, crossGram ks Z Z *ᵥ spaceWeights ks Z x = fun m => ks (Z m) x := by
      intro x
      unfold spaceWeights
      rw [show (Matrix.of fun a b => ks (Z a) (Z b)) = crossGram ks Z Z from rfl, mulVec_mulVec,
        mul_nonsing_inv _ hpd.det_pos.ne'.isUnit, one_mulVec]
    ext α β
    rw [Matrix.add_apply, hent, hE']
    simp only [stRows_sum, hG]
    have hgp : ∀ a b : Fin (n + 1) ⊕ Fin p, ∀ i j, gpGram (fun t t' => k t t' 0 0 • crossGram ks Z Z) τ (a, i) (b, j) =
        k (τ a) (τ b) 0 0 * ks (Z i) (Z j) := fun _ _ _ _ => rfl
    have hw1 : ∀ x m, ∑ l, spaceWeights ks Z x l * ks (Z m) (Z l) = ks (Z m) x := by
      intro x m
      rw [← congrFun (hKu x) m, mulVec, dotProduct]
      exact Finset.sum_congr rfl fun l _ => mul_comm _ _
    have hw2 : ∀ x m, ∑ l, spaceWeights ks Z x l * ks (Z l) (Z m) = ks x (Z m) := by
      intro x m
      rw [cov_symm hks x, ← hw1]
      exact Finset.sum_congr rfl fun l _ => by rw [cov_symm hks (Z l)]
    have hs1 : ∀ (x : S) (c : ℝ) (m : Fin M), ∑ l, spaceWeights ks Z x l * (c * ks (Z m) (Z l)) = c * ks (Z m) x := by
      intro x c m
      rw [← hw1 x m, Finset.mul_sum]
      exact Finset.sum_congr rfl fun l _ => by ring
    have hs2 : ∀ (x : S) (c : ℝ) (m : Fin M), ∑ l, spaceWeights ks Z x l * (c * ks (Z l) (Z m)) = c * ks x (Z m) := by
      intro x c m
      rw [← hw2 x m, Finset.mul_sum]
      exact Finset.sum_congr rfl fun l _ => by ring
    rcases α with i | i <;> rcases β with j | j
    · simp only [hgp]
      simp [hτ, mul_comm]
    · simp only [hgp, dotProduct, hs1]
      simp [hτ, mul_comm]
    · simp only [hgp, dotProduct, hs2]
      simp [hτ, mul_comm]
    · simp only [hgp, dotProduct, hs2]
      simp only [stResidual, spaceResidual, hτ, Sum.elim_inr, of_apply, dotProduct]
      have h1 : ∀ x x', ∑ l, spaceWeights ks Z x l * ks (Z l) x' = ∑ l, spaceWeights ks Z x' l * ks x (Z l) := by
        intro x x'
        calc ∑ l, spaceWeights ks Z x l * ks (Z l) x'
            = ∑ l, spaceWeights ks Z x l * ∑ m, spaceWeights ks Z x' m * ks (Z l) (Z m) :=
              Finset.sum_congr rfl fun l _ => by rw [hw1]
          _ = ∑ m, spaceWeights ks Z x' m * ∑ l, spaceWeights ks Z x l * ks (Z l) (Z m) := by
              simp only [Finset.mul_sum]
              rw [Finset.sum_comm]
              exact Finset.sum_congr rfl fun _ _ => Finset.sum_congr rfl fun _ _ => by ring
          _ = _ := Finset.sum_congr rfl fun m _ => by rw [hw2]
      rw [h1]
      have h2 : ∀ (c : ℝ) (x x' : S), ∑ l, spaceWeights ks Z x' l * (c * ks x (Z l)) =
          c * ∑ l, spaceWeights ks Z x' l * ks x (Z l) := by
        intro c x x'
        rw [Finset.mul_sum]
        exact Finset.sum_congr rfl fun _ _ => by ring
      rw [h2]
      ring

end prior
end MF
