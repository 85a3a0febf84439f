import Verif.Lemmas.GPR

/-!
# Adding and relabelling data in a Gaussian: Schur complements, the chain rule, changes of units
-/

namespace MF
open Matrix Spec
variable {ι κ α β : Type*} [Fintype ι] [DecidableEq ι] [Fintype κ] [DecidableEq κ]

theorem inv_blocks {A : Matrix ι ι ℝ} {B : Matrix ι κ ℝ} {C : Matrix κ ι ℝ} {D : Matrix κ κ ℝ} (hA : IsUnit A.det)
    (hS : IsUnit (D - C * A⁻¹ * B).det) : (fromBlocks A B C D)⁻¹ =
      fromBlocks (A⁻¹ + A⁻¹ * B * (D - C * A⁻¹ * B)⁻¹ * C * A⁻¹) (-(A⁻¹ * B * (D - C * A⁻¹ * B)⁻¹))
        (-((D - C * A⁻¹ * B)⁻¹ * C * A⁻¹)) (D - C * A⁻¹ * B)⁻¹ := by
  set S := D - C * A⁻¹ * B with hSd
  have hD : D = S + C * A⁻¹ * B := by rw [hSd]; abel
  refine inv_eq_right_inv ?_
  rw [fromBlocks_multiply, ← fromBlocks_one]
  congr 1
  · simp only [Matrix.mul_add, Matrix.mul_assoc, Matrix.mul_neg, mul_nonsing_inv_cancel_left _ _ hA, mul_nonsing_inv _ hA]; abel
  · simp only [Matrix.mul_assoc, Matrix.mul_neg, mul_nonsing_inv_cancel_left _ _ hA]; abel
  · rw [hD]
    simp only [Matrix.mul_add, Matrix.add_mul, Matrix.mul_assoc, Matrix.mul_neg, mul_nonsing_inv_cancel_left _ _ hS]; abel
  · rw [hD]
    simp only [Matrix.add_mul, Matrix.mul_assoc, Matrix.mul_neg, mul_nonsing_inv _ hS]; abel

/-- One more block of data in a quadratic form. -/
theorem quad_blocks {A : Matrix ι ι ℝ} {B : Matrix ι κ ℝ} {C : Matrix κ ι ℝ} {D : Matrix κ κ ℝ} (hA : IsUnit A.det)
    (hS : IsUnit (D - C * A⁻¹ * B).det) (X : Matrix α ι ℝ) (Y : Matrix α κ ℝ) (x : ι → ℝ) (y : κ → ℝ) :
    fromCols X Y *ᵥ ((fromBlocks A B C D)⁻¹ *ᵥ Sum.elim x y) =
      X *ᵥ (A⁻¹ *ᵥ x) + (Y - X * A⁻¹ * B) *ᵥ ((D - C * A⁻¹ * B)⁻¹ *ᵥ (y - C *ᵥ (A⁻¹ *ᵥ x))) := by
  rw [inv_blocks hA hS, fromBlocks_mulVec, fromCols_mulVec]
  generalize (D - C * A⁻¹ * B)⁻¹ = T
  simp only [Matrix.sub_mul, Sum.elim_comp_inl, Sum.elim_comp_inr, Matrix.add_mulVec, Matrix.neg_mulVec, Matrix.sub_mulVec,
    Matrix.mulVec_add, Matrix.mulVec_sub, Matrix.mulVec_neg, Matrix.mulVec_mulVec, Matrix.mul_assoc]
  abel

theorem quad_blocks_mat {A : Matrix ι ι ℝ} {B : Matrix ι κ ℝ} {C : Matrix κ ι ℝ} {D : Matrix κ κ ℝ} (hA : IsUnit A.det)
    (hS : IsUnit (D - C * A⁻¹ * B).det) (X : Matrix α ι ℝ) (Y : Matrix α κ ℝ) (X' : Matrix ι β ℝ) (Y' : Matrix κ β ℝ) :
    fromCols X Y * (fromBlocks A B C D)⁻¹ * fromRows X' Y' =
      X * A⁻¹ * X' + (Y - X * A⁻¹ * B) * (D - C * A⁻¹ * B)⁻¹ * (Y' - C * A⁻¹ * X') := by
  rw [inv_blocks hA hS, Matrix.mul_assoc, fromBlocks_mul_fromRows, fromCols_mul_fromRows]
  simp only [Matrix.add_mul, Matrix.mul_add, Matrix.neg_mul, Matrix.mul_neg, Matrix.sub_mul, Matrix.mul_sub,
    Matrix.mul_assoc]
  abel

/-- The chain rule for a Gaussian density. -/
theorem gaussLogDensity_blocks {A : Matrix ι ι ℝ} {B : Matrix ι κ ℝ} {D : Matrix κ κ ℝ} (hA : A.PosDef)
    (hS : (D - Bᵀ * A⁻¹ * B).PosDef) (m : ι → ℝ) (m' : κ → ℝ) (x : ι → ℝ) (y : κ → ℝ) :
    gaussLogDensity (Sum.elim m m') (fromBlocks A B Bᵀ D) (Sum.elim x y) =
      gaussLogDensity m A x + gaussLogDensity (m' + Bᵀ *ᵥ (A⁻¹ *ᵥ (x - m))) (D - Bᵀ * A⁻¹ * B) y := by
  have hA' : IsUnit A.det := hA.det_pos.ne'.isUnit
  have hS' : IsUnit (D - Bᵀ * A⁻¹ * B).det := hS.det_pos.ne'.isUnit
  have hdet : (fromBlocks A B Bᵀ D).det = A.det * (D - Bᵀ * A⁻¹ * B).det := by
    have := invertibleOfIsUnitDet A hA'
    rw [det_fromBlocks₁₁, ← invOf_eq_nonsing_inv]
  have hAt : A⁻¹ᵀ = A⁻¹ := by
    have := hA.inv.isHermitian
    rwa [IsHermitian, conjTranspose_eq_transpose_of_trivial] at this
  have hz : Sum.elim x y - Sum.elim m m' = Sum.elim (x - m) (y - m') := by
    funext i; cases i <;> rfl
  have hq := quad_blocks (α := Unit) hA' hS' (Matrix.of fun _ => x - m) (Matrix.of fun _ => y - m') (x - m) (y - m')
  have hq0 := congrFun hq ()
  have e0 : (fromCols (Matrix.of fun _ : Unit => x - m) (Matrix.of fun _ => y - m') *ᵥ
      ((fromBlocks A B Bᵀ D)⁻¹ *ᵥ Sum.elim (x - m) (y - m'))) () =
      Sum.elim (x - m) (y - m') ⬝ᵥ ((fromBlocks A B Bᵀ D)⁻¹ *ᵥ Sum.elim (x - m) (y - m')) := by
    unfold mulVec
    congr 1
  have e1 : ((Matrix.of fun _ : Unit => y - m') - (Matrix.of fun _ : Unit => x - m) * A⁻¹ * B) () =
      y - m' - Bᵀ *ᵥ (A⁻¹ *ᵥ (x - m)) := by
    funext j
    simp only [Matrix.sub_apply, Pi.sub_apply, Matrix.of_apply]
    congr 1
    have : ((Matrix.of fun _ : Unit => x - m) * A⁻¹ * B) () j = ((x - m) ᵥ* A⁻¹ ᵥ* B) j := rfl
    rw [this, mulVec_transpose, ← hAt, mulVec_transpose, hAt]
  rw [e0] at hq0
  unfold gaussLogDensity
  rw [hz, hq0, hdet, Real.log_mul hA.det_pos.ne' hS.det_pos.ne', Fintype.card_sum]
  have e2 : ((Matrix.of fun _ : Unit => x - m) *ᵥ (A⁻¹ *ᵥ (x - m)) + ((Matrix.of fun _ : Unit => y - m') -
      (Matrix.of fun _ : Unit => x - m) * A⁻¹ * B) *ᵥ ((D - Bᵀ * A⁻¹ * B)⁻¹ *ᵥ (y - m' - Bᵀ *ᵥ (A⁻¹ *ᵥ (x - m))))) () =
      (x - m) ⬝ᵥ (A⁻¹ *ᵥ (x - m)) + (y - m' - Bᵀ *ᵥ (A⁻¹ *ᵥ (x - m))) ⬝ᵥ
        ((D - Bᵀ * A⁻¹ * B)⁻¹ *ᵥ (y - m' - Bᵀ *ᵥ (A⁻¹ *ᵥ (x - m)))) := by
    rw [Pi.add_apply]
    congr 1
    conv_lhs => rw [mulVec]
    rw [e1]
  rw [e2, ← sub_sub]
  push_cast
  ring

/-- Relabelling the coordinates and changing the units. -/
theorem gaussLogDensity_units (e : ι ≃ κ) {s : ℝ} (hs : s ≠ 0) {K : Matrix ι ι ℝ} {K' : Matrix κ κ ℝ} (hK : K.PosDef)
    (h : K'.submatrix e e = s ^ 2 • K) {m x : ι → ℝ} {m' x' : κ → ℝ} (hx : ∀ i, x' (e i) - m' (e i) = s * (x i - m i)) :
    gaussLogDensity m' K' x' = gaussLogDensity m K x - Fintype.card ι * Real.log |s| := by
  have hK' : K' = (s ^ 2 • K).submatrix e.symm e.symm := by
    rw [← h, submatrix_submatrix]; ext i j; simp
  have hz : x' - m' = (s • (x - m)) ∘ e.symm := by
    funext i
    have := hx (e.symm i)
    simpa using this
  have hs2 : IsUnit (s ^ 2) := (pow_ne_zero 2 hs).isUnit
  have hinv : (s ^ 2 • K)⁻¹ = (s ^ 2)⁻¹ • K⁻¹ := by
    refine inv_eq_right_inv ?_
    rw [smul_mul_smul_comm, mul_inv_cancel₀ (pow_ne_zero 2 hs), one_smul, mul_nonsing_inv _ hK.det_pos.ne'.isUnit]
  unfold gaussLogDensity
  rw [hz, hK', inv_submatrix_equiv, det_submatrix_equiv_self, submatrix_mulVec_equiv, det_smul, hinv,
    Real.log_mul (pow_ne_zero _ (pow_ne_zero 2 hs)) hK.det_pos.ne', Real.log_pow, Real.log_pow, Fintype.card_congr e]
  have : (s • (x - m)) ∘ ⇑e.symm ⬝ᵥ (((s ^ 2)⁻¹ • K⁻¹) *ᵥ ((s • (x - m)) ∘ ⇑e.symm ∘ ⇑e.symm.symm)) ∘ ⇑e.symm =
      (x - m) ⬝ᵥ (K⁻¹ *ᵥ (x - m)) := by
    rw [comp_equiv_dotProduct_comp_equiv]
    have : (s • (x - m)) ∘ ⇑e.symm ∘ ⇑e.symm.symm = s • (x - m) := by funext i; simp
    rw [this, smul_mulVec, mulVec_smul, dotProduct_smul, smul_dotProduct, dotProduct_smul]
    simp only [smul_eq_mul]
    field_simp
  rw [Function.comp_assoc] 
  rw [this, Real.log_abs]
  push_cast
  ring

end MF
