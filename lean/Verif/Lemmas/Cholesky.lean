import Verif.Model.TF
import Mathlib.Analysis.Matrix.LDL
import Mathlib.LinearAlgebra.Matrix.Block

/-! Existence and uniqueness of the Cholesky factor; when `tf.linalg.cholesky` succeeds. -/

namespace MF
open Matrix

variable {ι : Type*} [LinearOrder ι] [Fintype ι]

omit [Fintype ι] in
theorem lowerTri_iff (M : Matrix ι ι ℝ) : LowerTri M ↔ M.IsLowerTriangular :=
  ⟨fun h _ _ hij => h _ _ hij, fun h _ _ hij => h hij⟩

theorem LowerTri.det {M : Matrix ι ι ℝ} (h : LowerTri M) : M.det = ∏ i, M i i :=
  det_of_isLowerTriangular M ((lowerTri_iff M).1 h)

theorem LowerTri.isUnit {M : Matrix ι ι ℝ} (h : LowerTri M) (hd : ∀ i, M i i ≠ 0) :
    IsUnit M := by
  rw [Matrix.isUnit_iff_isUnit_det, h.det, isUnit_iff_ne_zero]
  exact Finset.prod_ne_zero_iff.2 fun i _ => hd i

theorem LowerTri.mul {M N : Matrix ι ι ℝ} (hM : LowerTri M) (hN : LowerTri N) :
    LowerTri (M * N) := by
  rw [lowerTri_iff] at *
  exact BlockTriangular.mul hM hN

theorem LowerTri.inv {M : Matrix ι ι ℝ} (hM : LowerTri M) (hu : IsUnit M) : LowerTri M⁻¹ := by
  rw [lowerTri_iff] at *
  have := hu.invertible
  exact blockTriangular_inv_of_blockTriangular hM

theorem LowerTri.mul_diag {M N : Matrix ι ι ℝ} (hM : LowerTri M) (hN : LowerTri N) (i : ι) :
    (M * N) i i = M i i * N i i := by
  rw [Matrix.mul_apply, Finset.sum_eq_single i]
  · intro j _ hj
    rcases lt_or_gt_of_ne hj with h | h
    · rw [hN j i h, mul_zero]
    · rw [hM i j h, zero_mul]
  · simp

omit [Fintype ι] in
@[simp] theorem tril_apply (M : Matrix ι ι ℝ) (i j : ι) :
    tril M i j = if j ≤ i then M i j else 0 := rfl

omit [Fintype ι] in
theorem symLower_apply (M : Matrix ι ι ℝ) (i j : ι) :
    symLower M i j = if j ≤ i then M i j else M j i := rfl

omit [Fintype ι] in
theorem tril_lower (M : Matrix ι ι ℝ) : LowerTri (tril M) := fun i j h => by
  simp [not_le.2 h]

omit [Fintype ι] in
theorem LowerTri.tril_eq {M : Matrix ι ι ℝ} (h : LowerTri M) : tril M = M := by
  ext i j
  rw [tril_apply]
  split_ifs with hij
  · rfl
  · exact (h i j (not_le.1 hij)).symm

omit [Fintype ι] in
theorem symLower_eq {M : Matrix ι ι ℝ} (h : Mᵀ = M) : symLower M = M := by
  ext i j
  rw [symLower_apply]
  split_ifs
  · rfl
  · rw [← Matrix.transpose_apply M, h]

omit [LinearOrder ι] [Fintype ι] in
theorem posDef_transpose {M : Matrix ι ι ℝ} (h : M.PosDef) : Mᵀ = M := by
  have := h.isHermitian.eq
  rwa [conjTranspose_eq_transpose_of_trivial] at this

theorem posDef_mul_transpose {κ : Type*} [Fintype κ] [DecidableEq κ] {M : Matrix κ κ ℝ}
    (hu : IsUnit M) : (M * Mᵀ).PosDef := by
  have := PosDef.mul_conjTranspose_self (R := ℝ) M (by
    intro x y hxy
    have hu' := M.isUnit_iff_isUnit_det.1 hu
    have h2 := congrArg (fun v => v ᵥ* M⁻¹) hxy
    simpa [Matrix.vecMul_vecMul, Matrix.mul_nonsing_inv _ hu'] using h2)
  rwa [conjTranspose_eq_transpose_of_trivial] at this

theorem IsCholesky.isUnit {S L : Matrix ι ι ℝ} (h : IsCholesky S L) : IsUnit L :=
  h.lower.isUnit fun i => (h.diag_pos i).ne'

theorem IsCholesky.posDef {S L : Matrix ι ι ℝ} (h : IsCholesky S L) : S.PosDef := by
  rw [← h.mul_transpose]; exact posDef_mul_transpose h.isUnit

/-- A lower triangular factor with non-zero diagonal can be given a positive diagonal. -/
theorem isCholesky_of_lower {M : Matrix ι ι ℝ} (hM : LowerTri M) (hd : ∀ i, M i i ≠ 0) :
    IsCholesky (M * Mᵀ) (M * diagonal fun i => (SignType.sign (M i i) : ℝ)) := by
  refine ⟨?_, ?_, ?_⟩
  · intro i j h
    rw [mul_diagonal, hM i j h, zero_mul]
  · intro i
    rw [mul_diagonal, self_mul_sign]
    exact abs_pos.2 (hd i)
  · rw [transpose_mul, diagonal_transpose, Matrix.mul_assoc, ← Matrix.mul_assoc (diagonal _),
      diagonal_mul_diagonal]
    have : (fun i => (SignType.sign (M i i) : ℝ) * (SignType.sign (M i i) : ℝ)) = fun _ => 1 := by
      funext i
      rcases lt_or_gt_of_ne (hd i) with h | h <;> simp [h]
    rw [this, diagonal_one, Matrix.one_mul]

theorem exists_isCholesky [LocallyFiniteOrderBot ι] {S : Matrix ι ι ℝ} (hS : S.PosDef) :
    ∃ L, IsCholesky S L := by
  have hlow : LowerTri (LDL.lowerInv hS) := fun i j h => LDL.lowerInv_triangular hS h
  have hu : IsUnit (LDL.lowerInv hS) := isUnit_of_invertible _
  have hlow' : LowerTri (LDL.lower hS) := hlow.inv hu
  have hu' : IsUnit (LDL.lower hS) := by
    rw [LDL.lower, Matrix.isUnit_nonsing_inv_iff]; exact hu
  have hpd : (LDL.diag hS).PosDef := by
    rw [LDL.diag_eq_lowerInv_conj]
    apply hS.mul_mul_conjTranspose_same
    intro x y hxy
    have hu'' := (LDL.lowerInv hS).isUnit_iff_isUnit_det.1 hu
    have h2 := congrArg (fun v => v ᵥ* (LDL.lowerInv hS)⁻¹) hxy
    simpa [Matrix.vecMul_vecMul, Matrix.mul_nonsing_inv _ hu''] using h2
  have hpos : ∀ i, 0 < LDL.diagEntries hS i := by
    intro i
    have := hpd.diag_pos (i := i)
    simpa [LDL.diag] using this
  set e := fun i => Real.sqrt (LDL.diagEntries hS i) with he
  have hM : LowerTri (LDL.lower hS * diagonal e) := by
    intro i j h
    rw [mul_diagonal, hlow' i j h, zero_mul]
  have hdl : ∀ i, LDL.lower hS i i ≠ 0 := by
    have h1 := (LDL.lower hS).isUnit_iff_isUnit_det.1 hu'
    rw [hlow'.det, isUnit_iff_ne_zero] at h1
    intro i
    exact Finset.prod_ne_zero_iff.1 h1 i (Finset.mem_univ i)
  have hd : ∀ i, (LDL.lower hS * diagonal e) i i ≠ 0 := by
    intro i
    rw [mul_diagonal]
    exact mul_ne_zero (hdl i) (Real.sqrt_pos.2 (hpos i)).ne'
  have key := isCholesky_of_lower hM hd
  have : (LDL.lower hS * diagonal e) * (LDL.lower hS * diagonal e)ᵀ = S := by
    conv_rhs => rw [← LDL.lower_conj_diag hS]
    rw [transpose_mul, diagonal_transpose, conjTranspose_eq_transpose_of_trivial,
      Matrix.mul_assoc, ← Matrix.mul_assoc (diagonal e), diagonal_mul_diagonal, LDL.diag,
      Matrix.mul_assoc]
    congr 3
    funext i
    exact Real.mul_self_sqrt (hpos i).le
  rw [this] at key
  exact ⟨_, key⟩

theorem IsCholesky.unique {S L M : Matrix ι ι ℝ} (hL : IsCholesky S L) (hM : IsCholesky S M) :
    L = M := by
  have uL := L.isUnit_iff_isUnit_det.1 hL.isUnit
  have uM := M.isUnit_iff_isUnit_det.1 hM.isUnit
  have uMT : IsUnit (Mᵀ).det := by rwa [det_transpose]
  have uLT : IsUnit (Lᵀ).det := by rwa [det_transpose]
  -- N = M⁻¹ L is lower, and N Nᵀ = 1
  set N := M⁻¹ * L with hN
  have hNlow : LowerTri N := (hM.lower.inv hM.isUnit).mul hL.lower
  have hMN : M * N = L := by rw [hN, ← Matrix.mul_assoc, mul_nonsing_inv _ uM, Matrix.one_mul]
  have hNN : N * Nᵀ = 1 := by
    have : M * (N * Nᵀ) * Mᵀ = M * 1 * Mᵀ := by
      have h1 : M * (N * Nᵀ) * Mᵀ = L * Lᵀ := by
        conv_rhs => rw [← hMN, transpose_mul]
        simp only [Matrix.mul_assoc]
      rw [h1, hL.mul_transpose, ← hM.mul_transpose, Matrix.mul_one]
    have h2 := congrArg (fun X => M⁻¹ * X * (Mᵀ)⁻¹) this
    simp only [Matrix.mul_assoc, mul_nonsing_inv _ uMT, Matrix.mul_one] at h2
    simpa only [← Matrix.mul_assoc, nonsing_inv_mul _ uM, Matrix.one_mul] using h2
  have hNd : ∀ i, 0 < N i i := by
    intro i
    have := hM.lower.mul_diag hNlow i
    rw [hMN] at this
    exact pos_of_mul_pos_right (this ▸ hL.diag_pos i) (hM.diag_pos i).le
  -- N is upper: Nᵀ = N⁻¹ lower
  have hNT : LowerTri Nᵀ := by
    have : N⁻¹ = Nᵀ := Matrix.inv_eq_right_inv hNN
    rw [← this]
    exact hNlow.inv (hNlow.isUnit fun i => (hNd i).ne')
  have hN1 : N = 1 := by
    ext i j
    rcases lt_trichotomy i j with h | h | h
    · rw [hNlow i j h, Matrix.one_apply_ne h.ne]
    · subst h
      have := hNlow.mul_diag hNT i
      rw [hNN, Matrix.one_apply_eq, transpose_apply] at this
      have h3 := hNd i
      rw [Matrix.one_apply_eq]
      nlinarith
    · have := hNT j i h
      rw [transpose_apply] at this
      rw [this, Matrix.one_apply_ne h.ne']
  rw [← hMN, hN1, Matrix.mul_one]

/-- `tf.linalg.cholesky` succeeds with `L` iff `L` is the Cholesky factor. -/
theorem tfCholesky_eq_ok_iff {M L : Matrix ι ι ℝ} :
    tfCholesky M = .ok L ↔ IsCholesky (symLower M) L := by
  unfold tfCholesky
  split_ifs with h
  · constructor
    · rintro ⟨⟩; exact h.choose_spec
    · intro hL; rw [h.choose_spec.unique hL]
  · simp only [false_iff]
    exact fun hL => h ⟨L, hL⟩

theorem tfCholesky_of_isCholesky {M L : Matrix ι ι ℝ} (hs : Mᵀ = M) (h : IsCholesky M L) :
    tfCholesky M = .ok L := by
  rw [tfCholesky_eq_ok_iff, symLower_eq hs]; exact h

theorem tfCholesky_posDef [LocallyFiniteOrderBot ι] {S : Matrix ι ι ℝ} (hS : S.PosDef) :
    ∃ L, tfCholesky S = .ok L ∧ IsCholesky S L := by
  obtain ⟨L, hL⟩ := exists_isCholesky hS
  exact ⟨L, tfCholesky_of_isCholesky (posDef_transpose hS) hL, hL⟩

theorem tfCholesky_error_iff [LocallyFiniteOrderBot ι] {S : Matrix ι ι ℝ} :
    tfCholesky S = .error .invalidArgument ↔ ¬ (symLower S).PosDef := by
  constructor
  · intro h hpd
    obtain ⟨L, hL⟩ := exists_isCholesky hpd
    rw [tfCholesky_eq_ok_iff.2 hL] at h
    cases h
  · intro h
    unfold tfCholesky
    rw [dif_neg]
    rintro ⟨L, hL⟩
    exact h hL.posDef

/-- `cholesky_solve` inverts `L Lᵀ`. -/
theorem cholSolve_eq {κ : Type*} {S L : Matrix ι ι ℝ} (hL : IsCholesky S L) (R : Matrix ι κ ℝ) :
    cholSolve L R = S⁻¹ * R := by
  rw [cholSolve, hL.lower.tril_eq, hL.mul_transpose]

end MF
