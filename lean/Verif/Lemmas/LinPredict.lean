import Verif.Lemmas.GPBridge

/-! # Predictives given by a linear predictor with at most two conditioning times per query -/

namespace MF
open Matrix Spec MeasureTheory ProbabilityTheory
variable {d : ℕ} {T S : Type} [Fintype T] [Fintype S] [DecidableEq T] [DecidableEq S]

/-- The linear map `u ↦ (D_j u_{l j} + E_j u_{r j})_j`. -/
def rowMat (l r : S → T) (D E : S → Mat d d) : Matrix (S × Fin d) (T × Fin d) ℝ :=
  Matrix.of fun j i => (if i.1 = l j.1 then D j.1 j.2 i.2 else 0) + (if i.1 = r j.1 then E j.1 j.2 i.2 else 0)

variable {l r : S → T} {D E : S → Mat d d}

omit [Fintype S] [DecidableEq S] in
theorem rowMat_sum (j : S) (a : Fin d) (f : T × Fin d → ℝ) :
    ∑ i, rowMat l r D E (j, a) i * f i =
      (D j *ᵥ fun b => f (l j, b)) a + (E j *ᵥ fun b => f (r j, b)) a := by
  simp only [rowMat, of_apply, add_mul, Finset.sum_add_distrib, Fintype.sum_prod_type, ite_mul, zero_mul]
  congr 1
  · rw [Finset.sum_eq_single (l j)]
    · simp [mulVec, dotProduct]
    · intro b _ hb; simp [hb]
    · simp
  · rw [Finset.sum_eq_single (r j)]
    · simp [mulVec, dotProduct]
    · intro b _ hb; simp [hb]
    · simp

/-- The predictor reproduces the prior's cross covariances. -/
def Reproduces (A : ℝ → Mat d d) (P : Mat d d) (g : T → ℝ) (new : S → ℝ) (l r : S → T) (D E : S → Mat d d) : Prop :=
  ∀ j i, stateCov A P (new j) (g i) =
    D j * stateCov A P (g (l j)) (g i) + E j * stateCov A P (g (r j)) (g i)

variable {A : ℝ → Mat d d} {P : Mat d d} {g : T → ℝ} {new : S → ℝ}

omit [Fintype S] [DecidableEq S] in
theorem Reproduces.cross (hr : Reproduces A P g new l r D E) :
    rowMat l r D E * covMat A P g = crossMat A P new g := by
  ext ⟨j, a⟩ ⟨i, b⟩
  rw [Matrix.mul_apply, rowMat_sum]
  simp only [crossMat, of_apply]
  rw [hr j i, Matrix.add_apply]
  rfl

theorem Reproduces.psd (h : StatProc A P) (hr : Reproduces A P g new l r D E) :
    (fromBlocks (covMat A P g) (rowMat l r D E * covMat A P g)ᵀ (rowMat l r D E * covMat A P g)
      (covMat A P new)).PosSemidef := by
  have := (h.psd_any (Sum.elim g new)).submatrix (sumIdx (d := d))
  convert this using 1
  rw [hr.cross]
  ext i j
  cases i <;> cases j <;> simp [covMat, crossMat, sumIdx]
  rw [← h.cov_symm, transpose_apply]

/-- Residual covariance. -/
noncomputable def rowResid (A : ℝ → Mat d d) (P : Mat d d) (g : T → ℝ) (new : S → ℝ) (l r : S → T)
    (D E : S → Mat d d) : Matrix (S × Fin d) (S × Fin d) ℝ :=
  covMat A P new - rowMat l r D E * covMat A P g * (rowMat l r D E)ᵀ

theorem Reproduces.resid_psd (h : StatProc A P) (hr : Reproduces A P g new l r D E) :
    (rowResid A P g new l r D E).PosSemidef :=
  residual_psd (hr.psd h) (isSymm_of_psd (h.psd_any g))

/-- The predictive. -/
noncomputable def rowLaw (A : ℝ → Mat d d) (P : Mat d d) (g : T → ℝ) (new : S → ℝ)
    (l r : S → T) (D E : S → Mat d d) (q : Measure (T × Fin d → ℝ)) :
    Measure ((T × Fin d → ℝ) × (S × Fin d → ℝ)) :=
  (q.prod (gaussLaw 0 (rowResid A P g new l r D E))).map fun x => (x.1, rowMat l r D E *ᵥ x.1 + x.2)

theorem measurable_rowLaw (M : Matrix (S × Fin d) (T × Fin d) ℝ) :
    Measurable fun x : (T × Fin d → ℝ) × (S × Fin d → ℝ) => (x.1, M *ᵥ x.1 + x.2) :=
  measurable_fst.prodMk ((measurable_mulVec' _ measurable_fst).add measurable_snd)

theorem Reproduces.prior (h : StatProc A P) (hr : Reproduces A P g new l r D E) :
    (gpLaw (fun _ => 0) (stateCov A P) (Sum.elim g new)).map atTimes =
      rowLaw A P g new l r D E (gpLaw (fun _ => 0) (stateCov A P) g) := by
  have hJ := hr.psd h
  have hd := gauss_disintegrate hJ (h.psd_any g) (0 : T × Fin d → ℝ) (0 : S × Fin d → ℝ)
  simp only [sub_zero, zero_add] at hd
  unfold rowLaw
  have e1 : gpLaw (fun _ => 0) (stateCov A P) g = gaussLaw 0 (covMat A P g) := rfl
  rw [e1]
  refine Eq.trans ?_ hd
  rw [atTimes_eq, ← Function.comp_def splitV, ← Measure.map_map measurable_splitV (measurable_comp_idx _)]
  congr 1
  unfold gpLaw
  rw [gaussLaw_comp (h.psd_any (Sum.elim g new))]
  congr 1
  · funext i; cases i <;> rfl
  · rw [hr.cross]
    ext i j
    cases i <;> cases j <;> simp [covMat, crossMat, sumIdx]
    rw [← h.cov_symm, transpose_apply]

theorem Reproduces.predictive (h : StatProc A P) (hr : Reproduces A P g new l r D E)
    (q : Measure (T × Fin d → ℝ)) [IsProbabilityMeasure q] :
    IsPredictive ((gpLaw (fun _ => 0) (stateCov A P) (Sum.elim g new)).map atTimes) q
      (rowLaw A P g new l r D E q) := by
  obtain ⟨κ, hκ, hq⟩ := exists_kernel (rowMat l r D E) (rowResid A P g new l r D E)
  refine ⟨κ, hκ, ?_, (hq q inferInstance).symm⟩
  have hp := gpLaw_isProb (fun _ => (0 : Vec d)) (stateCov A P) g
  have hpr := hr.prior h
  have hfst : ((gpLaw (fun _ => 0) (stateCov A P) (Sum.elim g new)).map atTimes).map Prod.fst =
      gpLaw (fun _ => 0) (stateCov A P) g := by
    rw [hpr, rowLaw, Measure.map_map measurable_fst (measurable_rowLaw _)]
    exact measurePreserving_fst.map_eq
  rw [hfst, hq _ inferInstance, hpr, rowLaw]

/-- The residual covariance of one query. -/
noncomputable def rowT (A : ℝ → Mat d d) (P : Mat d d) (g : T → ℝ) (new : S → ℝ) (l r : S → T)
    (D E : S → Mat d d) (j : S) : Mat d d :=
  P - (stateCov A P (new j) (g (l j)) * (D j)ᵀ + stateCov A P (new j) (g (r j)) * (E j)ᵀ)

omit [Fintype S] [DecidableEq S] in
theorem Reproduces.resid (h : StatProc A P) (hr : Reproduces A P g new l r D E) (j : S) :
    (rowResid A P g new l r D E).submatrix (fun a : Fin d => (j, a)) (fun a => (j, a)) =
      rowT A P g new l r D E j := by
  ext a b
  rw [submatrix_apply, rowResid, hr.cross, Matrix.sub_apply, Matrix.mul_apply]
  have hs : ∑ i, crossMat A P new g (j, a) i * (rowMat l r D E)ᵀ i (j, b) =
      ∑ i, rowMat l r D E (j, b) i * crossMat A P new g (j, a) i :=
    Finset.sum_congr rfl fun i _ => by rw [transpose_apply, mul_comm]
  rw [hs, rowMat_sum, rowT, Matrix.sub_apply, Matrix.add_apply, Matrix.mul_apply, Matrix.mul_apply]
  simp only [covMat, crossMat, of_apply, mulVec, dotProduct, transpose_apply, h.cov_self]
  congr 2 <;> exact Finset.sum_congr rfl fun i _ => mul_comm _ _

/-- Mean and covariance of the predictive of one query. -/
theorem Reproduces.marginal (h : StatProc A P) (hr : Reproduces A P g new l r D E)
    {μ : T × Fin d → ℝ} {K : Matrix (T × Fin d) (T × Fin d) ℝ} (hK : K.PosSemidef) (j : S) :
    (rowLaw A P g new l r D E (gaussLaw μ K)).map (fun x => fun a : Fin d => x.2 (j, a)) =
      gaussLaw ((D j *ᵥ fun b => μ (l j, b)) + E j *ᵥ fun b => μ (r j, b))
        (rowT A P g new l r D E j + fromCols (D j) (E j) *
          fromBlocks (K.submatrix (fun a => (l j, a)) (fun a => (l j, a)))
            (K.submatrix (fun a => (l j, a)) (fun a => (r j, a)))
            (K.submatrix (fun a => (r j, a)) (fun a => (l j, a)))
            (K.submatrix (fun a => (r j, a)) (fun a => (r j, a))) *
          (fromCols (D j) (E j))ᵀ) ∧
    (rowT A P g new l r D E j + fromCols (D j) (E j) *
          fromBlocks (K.submatrix (fun a => (l j, a)) (fun a => (l j, a)))
            (K.submatrix (fun a => (l j, a)) (fun a => (r j, a)))
            (K.submatrix (fun a => (r j, a)) (fun a => (l j, a)))
            (K.submatrix (fun a => (r j, a)) (fun a => (r j, a))) *
          (fromCols (D j) (E j))ᵀ).PosSemidef := by
  have hR := hr.resid_psd h
  have hrow : (fromCols (rowMat l r D E) (1 : Matrix (S × Fin d) (S × Fin d) ℝ)).submatrix
        (fun a : Fin d => (j, a)) id * fromBlocks K 0 0 (rowResid A P g new l r D E) *
      ((fromCols (rowMat l r D E) (1 : Matrix (S × Fin d) (S × Fin d) ℝ)).submatrix
        (fun a : Fin d => (j, a)) id)ᵀ =
      rowT A P g new l r D E j + fromCols (D j) (E j) *
          fromBlocks (K.submatrix (fun a => (l j, a)) (fun a => (l j, a)))
            (K.submatrix (fun a => (l j, a)) (fun a => (r j, a)))
            (K.submatrix (fun a => (r j, a)) (fun a => (l j, a)))
            (K.submatrix (fun a => (r j, a)) (fun a => (r j, a))) *
          (fromCols (D j) (E j))ᵀ := by
    have hrow' : (fromCols (rowMat l r D E) (1 : Matrix (S × Fin d) (S × Fin d) ℝ)).submatrix
          (fun a : Fin d => (j, a)) id * fromBlocks K 0 0 (rowResid A P g new l r D E) *
        ((fromCols (rowMat l r D E) (1 : Matrix (S × Fin d) (S × Fin d) ℝ)).submatrix
          (fun a : Fin d => (j, a)) id)ᵀ =
        (rowMat l r D E * K * (rowMat l r D E)ᵀ + rowResid A P g new l r D E).submatrix
          (fun a : Fin d => (j, a)) (fun a : Fin d => (j, a)) := by
      have := congrArg (fun M => Matrix.submatrix M (fun a : Fin d => (j, a)) (fun a : Fin d => (j, a)))
        (show fromCols (rowMat l r D E) (1 : Matrix (S × Fin d) (S × Fin d) ℝ) *
          fromBlocks K 0 0 (rowResid A P g new l r D E) *
          (fromCols (rowMat l r D E) (1 : Matrix (S × Fin d) (S × Fin d) ℝ))ᵀ =
            rowMat l r D E * K * (rowMat l r D E)ᵀ + rowResid A P g new l r D E by
          rw [fromCols_mul_fromBlocks, transpose_fromCols, fromCols_mul_fromRows]
          simp)
      exact this
    rw [hrow', Matrix.submatrix_add, Pi.add_apply, Pi.add_apply, hr.resid h j, add_comm]
    congr 1
    ext a b
    rw [submatrix_apply, Matrix.mul_apply]
    have hs : ∑ i, (rowMat l r D E * K) (j, a) i * (rowMat l r D E)ᵀ i (j, b) =
        ∑ i, rowMat l r D E (j, b) i * (rowMat l r D E * K) (j, a) i :=
      Finset.sum_congr rfl fun i _ => by rw [transpose_apply, mul_comm]
    rw [hs, rowMat_sum]
    have hPK : ∀ i b', (rowMat l r D E * K) (j, a) (i, b') =
        (D j * K.submatrix (fun a => (l j, a)) (fun a => (i, a))) a b' +
          (E j * K.submatrix (fun a => (r j, a)) (fun a => (i, a))) a b' := by
      intro i b'
      rw [Matrix.mul_apply, rowMat_sum]; rfl
    simp only [hPK]
    rw [fromCols_mul_fromBlocks, transpose_fromCols, fromCols_mul_fromRows, Matrix.add_apply,
      Matrix.mul_apply, Matrix.mul_apply]
    simp only [mulVec, dotProduct, Matrix.add_apply, transpose_apply]
    congr 1 <;> exact Finset.sum_congr rfl fun i _ => mul_comm _ _
  refine ⟨?_, ?_⟩
  swap
  · rw [← hrow, ← conjTranspose_eq_transpose_of_trivial]
    exact (posSemidef_blockdiag hK hR).mul_mul_conjTranspose_same _
  unfold rowLaw
  rw [gaussLaw_prod hK hR, Measure.map_map _ (measurable_rowLaw _),
    Measure.map_map _ measurable_splitV]
  rotate_left
  · exact Measurable.comp (by fun_prop) (measurable_rowLaw _)
  · fun_prop
  have hf : ((fun x : (T × Fin d → ℝ) × (S × Fin d → ℝ) => fun a : Fin d => x.2 (j, a)) ∘
      fun x => (x.1, rowMat l r D E *ᵥ x.1 + x.2)) ∘ splitV =
      fun x => (0 : Fin d → ℝ) +
        (fromCols (rowMat l r D E) (1 : Matrix (S × Fin d) (S × Fin d) ℝ)).submatrix
          (fun a : Fin d => (j, a)) id *ᵥ x := by
    funext x a
    rw [zero_add]
    show _ = (fromCols (rowMat l r D E) (1 : Matrix (S × Fin d) (S × Fin d) ℝ) *ᵥ x) (j, a)
    have hx : x = Sum.elim (fun i => x (.inl i)) (fun i => x (.inr i)) := by
      funext i; cases i <;> rfl
    conv_rhs => rw [hx]
    rw [fromCols_mulVec]
    simp only [Sum.elim_comp_inl, Sum.elim_comp_inr, one_mulVec]
    rfl
  rw [hf, gaussLaw_map_affine (posSemidef_blockdiag hK hR), hrow]
  congr 1
  rw [zero_add]
  funext a
  show (fromCols (rowMat l r D E) (1 : Matrix (S × Fin d) (S × Fin d) ℝ) *ᵥ (Sum.elim μ 0)) (j, a) = _
  rw [fromCols_mulVec]
  simp only [Sum.elim_comp_inl, Sum.elim_comp_inr, mulVec_zero, add_zero]
  exact rowMat_sum j a μ

end MF
