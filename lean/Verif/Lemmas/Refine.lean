import Verif.Lemmas.MarkovProjection
import Verif.Lemmas.GPBridge

/-!
# A Gaussian prior at more times: `q(u)` extended by the prior's conditional
-/

namespace MF
open Matrix Spec

section alg
variable {U V W : Type*} [Fintype U] [Fintype V] [Fintype W] [DecidableEq U] [DecidableEq V] [DecidableEq W]
  {K : Matrix U U ℝ} {K' : Matrix V V ℝ} {E : Matrix U V ℝ} {S : Matrix U U ℝ}

/-- The regression matrix of `x'` on `x = E x'` under `N(0, K')`. -/
noncomputable def regMat (K : Matrix U U ℝ) (K' : Matrix V V ℝ) (E : Matrix U V ℝ) : Matrix V U ℝ := K' * Eᵀ * K⁻¹

/-- The covariance of `x'` when `x` has covariance `S` and `x'` given `x` follows the prior. -/
noncomputable def extCov (K : Matrix U U ℝ) (K' : Matrix V V ℝ) (E : Matrix U V ℝ) (S : Matrix U U ℝ) : Matrix V V ℝ :=
  regMat K K' E * S * (regMat K K' E)ᵀ + (K' - regMat K K' E * K * (regMat K K' E)ᵀ)

theorem E_mul_regMat (hK : K.PosDef) (hE : E * K' * Eᵀ = K) : E * regMat K K' E = 1 := by
  rw [regMat, ← Matrix.mul_assoc, ← Matrix.mul_assoc, hE, mul_nonsing_inv _ (isUnit_det hK.isUnit)]

theorem regMat_mul (hK : K.PosDef) : regMat K K' E * K = K' * Eᵀ := by
  rw [regMat, nonsing_inv_mul_cancel_right _ _ (isUnit_det hK.isUnit)]

theorem inv_mul_regMat (hK' : K'.PosDef) : K'⁻¹ * regMat K K' E = Eᵀ * K⁻¹ := by
  rw [regMat, Matrix.mul_assoc, nonsing_inv_mul_cancel_left _ _ (isUnit_det hK'.isUnit)]

/-- The residual is a congruence of the prior. -/
theorem resid_eq (hK : K.PosDef) (hK' : K'.PosDef) (hE : E * K' * Eᵀ = K) :
    K' - regMat K K' E * K * (regMat K K' E)ᵀ =
      (1 - regMat K K' E * E) * K' * (1 - regMat K K' E * E)ᵀ := by
  have h1 := regMat_mul (K' := K') (E := E) hK
  have hs := posDef_transpose hK'
  have hsK := posDef_transpose hK
  have h2 : K * (regMat K K' E)ᵀ = E * K' := by
    have := congrArg transpose h1
    rw [transpose_mul, transpose_mul, transpose_transpose, hs, hsK] at this
    exact this
  generalize regMat K K' E = B at h1 h2 ⊢
  rw [transpose_sub, transpose_one, transpose_mul, Matrix.sub_mul, Matrix.one_mul, Matrix.mul_sub, Matrix.mul_one,
    Matrix.sub_mul, Matrix.mul_assoc B K, h2, ← Matrix.mul_assoc K', ← h1]
  rw [show B * E * K' * (Eᵀ * Bᵀ) = B * (E * K' * Eᵀ) * Bᵀ by simp only [Matrix.mul_assoc], hE, sub_self, sub_zero,
    Matrix.mul_assoc]

theorem extCov_posDef (hK : K.PosDef) (hK' : K'.PosDef) (hE : E * K' * Eᵀ = K) (hS : S.PosDef) :
    (extCov K K' E S).PosDef := by
  rw [extCov, resid_eq hK hK' hE]
  generalize regMat K K' E = B
  have h1 : (B * S * Bᵀ).PosSemidef := by
    rw [← conjTranspose_eq_transpose_of_trivial]
    exact hS.posSemidef.mul_mul_conjTranspose_same _
  have h2 : ((1 - B * E) * K' * (1 - B * E)ᵀ).PosSemidef := by
    rw [← conjTranspose_eq_transpose_of_trivial]
    exact hK'.posSemidef.mul_mul_conjTranspose_same _
  refine PosDef.of_dotProduct_mulVec_pos (h1.isHermitian.add h2.isHermitian) fun x hx => ?_
  have e1 : star x ⬝ᵥ (B * S * Bᵀ) *ᵥ x = star (Bᵀ *ᵥ x) ⬝ᵥ S *ᵥ (Bᵀ *ᵥ x) := by
    simp only [star_trivial, ← mulVec_mulVec]
    rw [dotProduct_mulVec, ← mulVec_transpose]
  have e2 : star x ⬝ᵥ ((1 - B * E) * K' * (1 - B * E)ᵀ) *ᵥ x =
      star ((1 - B * E)ᵀ *ᵥ x) ⬝ᵥ K' *ᵥ ((1 - B * E)ᵀ *ᵥ x) := by
    simp only [star_trivial, ← mulVec_mulVec]
    rw [dotProduct_mulVec, ← mulVec_transpose]
  rw [add_mulVec, dotProduct_add, e1, e2]
  by_cases hB : Bᵀ *ᵥ x = 0
  · have hR : (1 - B * E)ᵀ *ᵥ x = x := by
      rw [transpose_sub, transpose_mul, transpose_one, sub_mulVec, one_mulVec, ← mulVec_mulVec, hB, mulVec_zero, sub_zero]
    rw [hB, hR, mulVec_zero, dotProduct_zero, zero_add]
    exact hK'.dotProduct_mulVec_pos hx
  · exact add_pos_of_pos_of_nonneg (hS.dotProduct_mulVec_pos hB) (hK'.posSemidef.dotProduct_mulVec_nonneg _)

/-- Extending `q` by the prior's conditional keeps the divergence from the prior. -/
theorem gaussKL_ext (hK : K.PosDef) (hK' : K'.PosDef) (hE : E * K' * Eᵀ = K) (hS : S.PosDef) (m : U → ℝ) :
    gaussKL (regMat K K' E *ᵥ m) (extCov K K' E S) 0 K' = gaussKL m S 0 K := by
  have hEB := E_mul_regMat hK hE
  have hEB' : (regMat K K' E)ᵀ * Eᵀ = 1 := by rw [← transpose_mul, hEB, transpose_one]
  have hiB := inv_mul_regMat (K := K) (E := E) hK'
  have hu := isUnit_det hK.isUnit
  have hu' := isUnit_det hK'.isUnit
  have hS' := extCov_posDef hK hK' hE hS
  have hM : K'⁻¹ * extCov K K' E S = 1 + Eᵀ * (K⁻¹ * (S - K) * (regMat K K' E)ᵀ) := by
    rw [extCov, Matrix.mul_add, Matrix.mul_sub, nonsing_inv_mul _ hu']
    rw [show K'⁻¹ * (regMat K K' E * S * (regMat K K' E)ᵀ) = (K'⁻¹ * regMat K K' E) * S * (regMat K K' E)ᵀ by
      simp only [Matrix.mul_assoc],
      show K'⁻¹ * (regMat K K' E * K * (regMat K K' E)ᵀ) = (K'⁻¹ * regMat K K' E) * K * (regMat K K' E)ᵀ by
      simp only [Matrix.mul_assoc], hiB]
    rw [Matrix.mul_sub, Matrix.sub_mul, Matrix.mul_sub]
    simp only [Matrix.mul_assoc]
    abel
  have htr : (K'⁻¹ * extCov K K' E S).trace = Fintype.card V + ((K⁻¹ * S).trace - Fintype.card U) := by
    rw [hM, trace_add, trace_one, Matrix.trace_mul_comm Eᵀ, Matrix.mul_assoc, hEB', Matrix.mul_one, Matrix.mul_sub,
      trace_sub, nonsing_inv_mul _ hu, trace_one]
  have hdet : (K'⁻¹ * extCov K K' E S).det = (K⁻¹ * S).det := by
    rw [hM, det_one_add_mul_comm, Matrix.mul_assoc, hEB', Matrix.mul_one, Matrix.mul_sub, nonsing_inv_mul _ hu,
      add_sub_cancel]
  rw [det_mul, det_mul, det_nonsing_inv, det_nonsing_inv, Ring.inverse_eq_inv'] at hdet
  have hlog := congrArg Real.log hdet
  rw [Real.log_mul (inv_ne_zero hK'.det_pos.ne') hS'.det_pos.ne', Real.log_mul (inv_ne_zero hK.det_pos.ne') hS.det_pos.ne',
    Real.log_inv, Real.log_inv] at hlog
  have hq : (0 - regMat K K' E *ᵥ m) ⬝ᵥ (K'⁻¹ *ᵥ (0 - regMat K K' E *ᵥ m)) = (0 - m) ⬝ᵥ (K⁻¹ *ᵥ (0 - m)) := by
    simp only [zero_sub, mulVec_neg, neg_dotProduct, dotProduct_neg, neg_neg]
    rw [mulVec_mulVec, hiB, ← mulVec_mulVec, dotProduct_mulVec, ← mulVec_transpose, transpose_transpose, mulVec_mulVec,
      hEB, one_mulVec]
  unfold gaussKL
  rw [htr]
  rw [hq]
  linarith

/-- A linear predictor from the larger vector, composed with the regression, is the predictor from the smaller one. -/
theorem predictor_comp (hK : K.PosDef) {Q : Matrix W V ℝ} {Q₀ : Matrix W U ℝ} {C : Matrix W V ℝ} (h' : Q * K' = C)
    (h0 : Q₀ * K = C * Eᵀ) : Q * regMat K K' E = Q₀ := by
  rw [regMat, ← Matrix.mul_assoc, ← Matrix.mul_assoc, h', ← h0, mul_nonsing_inv_cancel_right _ _ (isUnit_det hK.isUnit)]

theorem predictor_cov (hK : K.PosDef) {Q : Matrix W V ℝ} {Q₀ : Matrix W U ℝ} {C : Matrix W V ℝ} (h' : Q * K' = C)
    (h0 : Q₀ * K = C * Eᵀ) (Kx : Matrix W W ℝ) :
    Q * extCov K K' E S * Qᵀ + (Kx - Q * K' * Qᵀ) = Q₀ * S * Q₀ᵀ + (Kx - Q₀ * K * Q₀ᵀ) := by
  have hc := predictor_comp hK h' h0
  have hct : (regMat K K' E)ᵀ * Qᵀ = Q₀ᵀ := by rw [← transpose_mul, hc]
  rw [extCov, Matrix.mul_add, Matrix.add_mul, Matrix.mul_sub, Matrix.sub_mul]
  rw [show Q * (regMat K K' E * S * (regMat K K' E)ᵀ) * Qᵀ = (Q * regMat K K' E) * S * ((regMat K K' E)ᵀ * Qᵀ) by
      simp only [Matrix.mul_assoc],
    show Q * (regMat K K' E * K * (regMat K K' E)ᵀ) * Qᵀ = (Q * regMat K K' E) * K * ((regMat K K' E)ᵀ * Qᵀ) by
      simp only [Matrix.mul_assoc], hc, hct]
  abel

end alg

/-! ### Processes -/
section proc
open MeasureTheory
variable {d m m' : ℕ} {S : Type} [Fintype S] [DecidableEq S] {A : ℝ → Mat d d} {P : Mat d d} {g : Fin (m + 1) → ℝ}
  {g' : Fin (m' + 1) → ℝ} {new : S → ℝ} {k : S → Fin m} {c : S → CondStats d} {k' : S → Fin m'} {c' : S → CondStats d}

/-- Selection of coordinates. -/
def pickTimes (d : ℕ) (e : Fin (m + 1) → Fin (m' + 1)) : Matrix (Fin (m + 1) × Fin d) (Fin (m' + 1) × Fin d) ℝ :=
  (1 : Matrix (Fin (m' + 1) × Fin d) (Fin (m' + 1) × Fin d) ℝ).submatrix (fun i => (e i.1, i.2)) id

theorem pickTimes_mulVec (e : Fin (m + 1) → Fin (m' + 1)) (x : Fin (m' + 1) × Fin d → ℝ) :
    pickTimes d e *ᵥ x = fun i => x (e i.1, i.2) := by
  funext i
  show (1 : Matrix (Fin (m' + 1) × Fin d) (Fin (m' + 1) × Fin d) ℝ) (e i.1, i.2) ⬝ᵥ x = _
  exact congrFun (one_mulVec x) (e i.1, i.2)

theorem pickTimes_mul {W : Type*} (e : Fin (m + 1) → Fin (m' + 1)) (M : Matrix (Fin (m' + 1) × Fin d) W ℝ) :
    pickTimes d e * M = M.submatrix (fun i => (e i.1, i.2)) id := by
  ext i j
  exact congrFun (pickTimes_mulVec e fun l => M l j) i

theorem mul_pickTimes {W : Type*} (e : Fin (m + 1) → Fin (m' + 1)) (M : Matrix W (Fin (m' + 1) × Fin d) ℝ) :
    M * (pickTimes d e)ᵀ = M.submatrix id (fun i => (e i.1, i.2)) := by
  have := congrArg transpose (pickTimes_mul e Mᵀ)
  rw [transpose_mul, transpose_transpose] at this
  rw [this]; rfl

theorem pick_cov {e : Fin (m + 1) → Fin (m' + 1)} (he : ∀ i, g' (e i) = g i) :
    pickTimes d e * covMat A P g' * (pickTimes d e)ᵀ = covMat A P g := by
  rw [pickTimes_mul, mul_pickTimes]
  ext i j
  simp only [submatrix_apply, covMat, of_apply, he, id]

theorem pick_cross {e : Fin (m + 1) → Fin (m' + 1)} (he : ∀ i, g' (e i) = g i) {T : Type} (t : T → ℝ) :
    crossMat A P t g' * (pickTimes d e)ᵀ = crossMat A P t g := by
  rw [mul_pickTimes]
  ext i j
  simp only [submatrix_apply, crossMat, of_apply, he, id]

/-- The joint law of the states at all new times. -/
theorem Bridges.joint (h : StatProc A P) (hg : Monotone g) (hb : Bridges A P g new k c)
    {μ : Fin (m + 1) × Fin d → ℝ} {K : Matrix (Fin (m + 1) × Fin d) (Fin (m + 1) × Fin d) ℝ} (hK : K.PosSemidef) :
    (predLaw A P g new k c (gaussLaw μ K)).map Prod.snd =
      gaussLaw (projMat k c *ᵥ μ) (projMat k c * K * (projMat k c)ᵀ + residCov A P g new k c) := by
  have hR := hb.resid_psd h hg
  unfold predLaw
  rw [gaussLaw_prod hK hR, Measure.map_map measurable_snd (measurable_predLaw k c),
    Measure.map_map _ measurable_splitV]
  swap
  · exact measurable_snd.comp (measurable_predLaw k c)
  have hf : (Prod.snd ∘ fun x : (Fin (m + 1) × Fin d → ℝ) × (S × Fin d → ℝ) => (x.1, projMat k c *ᵥ x.1 + x.2)) ∘ splitV =
      fun x => (0 : S × Fin d → ℝ) + fromCols (projMat k c) (1 : Matrix (S × Fin d) (S × Fin d) ℝ) *ᵥ x := by
    funext x
    rw [zero_add]
    have hx : x = Sum.elim (fun i => x (.inl i)) (fun i => x (.inr i)) := by
      funext i; cases i <;> rfl
    conv_rhs => rw [hx]
    rw [fromCols_mulVec]
    simp only [Sum.elim_comp_inl, Sum.elim_comp_inr, one_mulVec]
    rfl
  rw [hf, gaussLaw_map_affine (posSemidef_blockdiag hK hR)]
  congr 1
  · rw [zero_add, fromCols_mulVec]
    simp only [Sum.elim_comp_inl, Sum.elim_comp_inr, mulVec_zero, add_zero]
  · rw [fromCols_mul_fromBlocks, transpose_fromCols, fromCols_mul_fromRows]
    simp

/-- The law at one new time depends on the pair marginals of `q` only. -/
theorem Bridges.marginal_congr (h : StatProc A P) (hg : Monotone g) (hb : Bridges A P g new k c)
    {μ : Fin (m + 1) × Fin d → ℝ} {K L : Matrix (Fin (m + 1) × Fin d) (Fin (m + 1) × Fin d) ℝ} (hK : K.PosSemidef)
    (hL : L.PosSemidef) (h1 : ∀ b, blk L b b = blk K b b)
    (h2 : ∀ i : Fin m, blk L i.succ i.castSucc = blk K i.succ i.castSucc) (j : S) :
    (predLaw A P g new k c (gaussLaw μ L)).map (fun x => fun a : Fin d => x.2 (j, a)) =
      (predLaw A P g new k c (gaussLaw μ K)).map (fun x => fun a : Fin d => x.2 (j, a)) := by
  have h3 : ∀ i : Fin m, blk L i.castSucc i.succ = blk K i.castSucc i.succ := fun i => by
    have e1 : ∀ M : Matrix (Fin (m + 1) × Fin d) (Fin (m + 1) × Fin d) ℝ, M.PosSemidef →
        blk M i.castSucc i.succ = (blk M i.succ i.castSucc)ᵀ := fun M hM => by
      ext a b
      exact congrFun (congrFun (isSymm_of_psd hM) _) _
    rw [e1 L hL, e1 K hK, h2]
  rw [hb.marginal h hg hK, hb.marginal h hg hL, h1, h1, h2, h3]

/-- Predictions from `q` on the times `g`, and from its extension by the prior on more times `g'`. -/
theorem Bridges.refine (h : StatProc A P) (hg : Monotone g) (hb : Bridges A P g new k c) (hg' : Monotone g')
    (hb' : Bridges A P g' new k' c') {e : Fin (m + 1) → Fin (m' + 1)} (he : ∀ i, g' (e i) = g i)
    (hK : (covMat A P g).PosDef) (hK' : (covMat A P g').PosDef)
    {μ : Fin (m + 1) × Fin d → ℝ} {Q : Matrix (Fin (m + 1) × Fin d) (Fin (m + 1) × Fin d) ℝ} (hQ : Q.PosDef) :
    (predLaw A P g' new k' c' (gaussLaw (regMat (covMat A P g) (covMat A P g') (pickTimes d e) *ᵥ μ)
        (extCov (covMat A P g) (covMat A P g') (pickTimes d e) Q))).map Prod.snd =
      (predLaw A P g new k c (gaussLaw μ Q)).map Prod.snd := by
  have hx := hb.cross h hg
  have hx' := hb'.cross h hg'
  rw [← pick_cross he] at hx
  rw [hb.joint h hg hQ.posSemidef, hb'.joint h hg' (extCov_posDef hK hK' (pick_cov he) hQ).posSemidef, mulVec_mulVec,
    predictor_comp hK hx' hx]
  congr 1
  exact predictor_cov hK hx' hx _

/-- The law of the states at the times `g'` under the extension of `q` by the prior. -/
theorem ext_predictive (h : StatProc A P) {e : Fin (m + 1) → Fin (m' + 1)} (he : ∀ i, g' (e i) = g i)
    (hK : (covMat A P g).PosDef) (hK' : (covMat A P g').PosDef)
    {μ : Fin (m + 1) × Fin d → ℝ} {Q : Matrix (Fin (m + 1) × Fin d) (Fin (m + 1) × Fin d) ℝ} (hQ : Q.PosDef) :
    ∃ ν, IsPredictive ((gpLaw (fun _ => 0) (stateCov A P) (Sum.elim g g')).map atTimes) (gaussLaw μ Q) ν ∧
      ν.map Prod.snd = gaussLaw (regMat (covMat A P g) (covMat A P g') (pickTimes d e) *ᵥ μ)
        (extCov (covMat A P g) (covMat A P g') (pickTimes d e) Q) := by
  set B := regMat (covMat A P g) (covMat A P g') (pickTimes d e) with hB
  set R := covMat A P g' - B * covMat A P g * Bᵀ with hR
  have hcr : B * covMat A P g = crossMat A P g' g := by
    rw [hB, regMat_mul hK, ← pick_cross he]; rfl
  have hRp : R.PosSemidef := by
    rw [hR, hB, resid_eq hK hK' (pick_cov he), ← conjTranspose_eq_transpose_of_trivial]
    exact hK'.posSemidef.mul_mul_conjTranspose_same _
  have hJ : (fromBlocks (covMat A P g) (B * covMat A P g)ᵀ (B * covMat A P g) (covMat A P g')).PosSemidef := by
    have := (h.psd_any (Sum.elim g g')).submatrix (sumIdx (d := d))
    convert this using 1
    rw [hcr]
    ext i j
    cases i <;> cases j <;> simp [covMat, crossMat, sumIdx]
    rw [← h.cov_symm, transpose_apply]
  have hmeas : Measurable fun x : (Fin (m + 1) × Fin d → ℝ) × (Fin (m' + 1) × Fin d → ℝ) => (x.1, B *ᵥ x.1 + x.2) :=
    measurable_fst.prodMk ((measurable_mulVec' _ measurable_fst).add measurable_snd)
  have hprior : (gpLaw (fun _ => 0) (stateCov A P) (Sum.elim g g')).map atTimes =
      ((gpLaw (fun _ => 0) (stateCov A P) g).prod (gaussLaw 0 R)).map fun x => (x.1, B *ᵥ x.1 + x.2) := by
    have hd := gauss_disintegrate hJ (h.psd_any g) (0 : Fin (m + 1) × Fin d → ℝ) (0 : Fin (m' + 1) × Fin d → ℝ)
    simp only [sub_zero, zero_add] at hd
    have e1 : gpLaw (fun _ => 0) (stateCov A P) g = gaussLaw 0 (covMat A P g) := rfl
    rw [e1]
    refine Eq.trans ?_ hd
    rw [atTimes_eq, ← Function.comp_def splitV, ← Measure.map_map measurable_splitV (measurable_comp_idx _)]
    congr 1
    unfold gpLaw
    rw [gaussLaw_comp (h.psd_any (Sum.elim g g'))]
    congr 1
    · funext i; cases i <;> rfl
    · rw [hcr]
      ext i j
      cases i <;> cases j <;> simp [covMat, crossMat, sumIdx]
      rw [← h.cov_symm, transpose_apply]
  obtain ⟨κ, hκ, hq⟩ := exists_kernel B R
  refine ⟨((gaussLaw μ Q).prod (gaussLaw 0 R)).map fun x => (x.1, B *ᵥ x.1 + x.2), ⟨κ, hκ, ?_, (hq _ inferInstance).symm⟩, ?_⟩
  · have hp := gpLaw_isProb (fun _ => (0 : Vec d)) (stateCov A P) g
    have hfst : ((gpLaw (fun _ => 0) (stateCov A P) (Sum.elim g g')).map atTimes).map Prod.fst =
        gpLaw (fun _ => 0) (stateCov A P) g := by
      rw [hprior, Measure.map_map measurable_fst hmeas]
      exact measurePreserving_fst.map_eq
    rw [hfst, hq _ inferInstance, hprior]
  · rw [gaussLaw_prod hQ.posSemidef hRp, Measure.map_map measurable_snd hmeas, Measure.map_map _ measurable_splitV]
    swap
    · exact measurable_snd.comp hmeas
    have hf : (Prod.snd ∘ fun x : (Fin (m + 1) × Fin d → ℝ) × (Fin (m' + 1) × Fin d → ℝ) => (x.1, B *ᵥ x.1 + x.2)) ∘ splitV =
        fun x => (0 : Fin (m' + 1) × Fin d → ℝ) +
          fromCols B (1 : Matrix (Fin (m' + 1) × Fin d) (Fin (m' + 1) × Fin d) ℝ) *ᵥ x := by
      funext x
      rw [zero_add]
      have hx : x = Sum.elim (fun i => x (.inl i)) (fun i => x (.inr i)) := by
        funext i; cases i <;> rfl
      conv_rhs => rw [hx]
      rw [fromCols_mulVec]
      simp only [Sum.elim_comp_inl, Sum.elim_comp_inr, one_mulVec]
      rfl
    rw [hf, gaussLaw_map_affine (posSemidef_blockdiag hQ.posSemidef hRp)]
    congr 1
    · rw [zero_add, fromCols_mulVec]
      simp only [Sum.elim_comp_inl, Sum.elim_comp_inr, mulVec_zero, add_zero]
    · rw [fromCols_mul_fromBlocks, transpose_fromCols, fromCols_mul_fromRows]
      simp [extCov, hR, hB]

end proc

end MF
