import Verif.Model.Utils
import Mathlib.Analysis.Matrix.Order
import Mathlib.LinearAlgebra.Matrix.SchurComplement

/-! # `block_diag` and Kronecker products of lists of matrices -/

namespace MF
open Matrix

theorem posSemidef_reindex {ι κ : Type*} [Fintype ι] [Fintype κ] {M : Matrix ι ι ℝ}
    (h : M.PosSemidef) (e : κ → ι) : (M.submatrix e e).PosSemidef := h.submatrix e

theorem posDef_reindex {ι κ : Type*} [Fintype ι] [Fintype κ] {M : Matrix ι ι ℝ} (h : M.PosDef)
    (e : κ ≃ ι) : (M.submatrix e e).PosDef := by
  classical
  exact h.submatrix e.injective

theorem posSemidef_fromBlocks {ι κ : Type*} [Fintype ι] [Fintype κ] {M : Matrix ι ι ℝ}
    {N : Matrix κ κ ℝ} (hM : M.PosSemidef) (hN : N.PosSemidef) :
    (fromBlocks M 0 0 N).PosSemidef := by
  refine PosSemidef.of_dotProduct_mulVec_nonneg ?_ fun v => ?_
  · rw [IsHermitian, fromBlocks_conjTranspose, hM.isHermitian.eq, hN.isHermitian.eq]; simp
  · obtain ⟨x, y, rfl⟩ : ∃ x y, v = Sum.elim x y := ⟨v ∘ Sum.inl, v ∘ Sum.inr, (Sum.elim_comp_inl_inr v).symm⟩
    rw [fromBlocks_mulVec]
    have h1 := hM.dotProduct_mulVec_nonneg x
    have h2 := hN.dotProduct_mulVec_nonneg y
    simp only [Sum.elim_comp_inl, Sum.elim_comp_inr, zero_mulVec, add_zero, zero_add]
    rw [show star (Sum.elim x y) = Sum.elim (star x) (star y) by
      funext i; cases i <;> rfl, sumElim_dotProduct_sumElim]
    exact add_nonneg h1 h2

theorem posDef_fromBlocks {ι κ : Type*} [Fintype ι] [Fintype κ] {M : Matrix ι ι ℝ}
    {N : Matrix κ κ ℝ} (hM : M.PosDef) (hN : N.PosDef) : (fromBlocks M 0 0 N).PosDef := by
  refine PosDef.of_dotProduct_mulVec_pos ?_ fun v hv => ?_
  · rw [IsHermitian, fromBlocks_conjTranspose, hM.isHermitian.eq, hN.isHermitian.eq]; simp
  · obtain ⟨x, y, rfl⟩ : ∃ x y, v = Sum.elim x y := ⟨v ∘ Sum.inl, v ∘ Sum.inr, (Sum.elim_comp_inl_inr v).symm⟩
    rw [fromBlocks_mulVec]
    simp only [Sum.elim_comp_inl, Sum.elim_comp_inr, zero_mulVec, add_zero, zero_add]
    rw [show star (Sum.elim x y) = Sum.elim (star x) (star y) by
      funext i; cases i <;> rfl, sumElim_dotProduct_sumElim]
    by_cases hx : x = 0
    · have hy : y ≠ 0 := by
        rintro rfl; apply hv; subst hx; funext i; cases i <;> rfl
      have h1 := hM.posSemidef.dotProduct_mulVec_nonneg x
      have h2 := hN.dotProduct_mulVec_pos hy
      exact add_pos_of_nonneg_of_pos h1 h2
    · have h1 := hM.dotProduct_mulVec_pos hx
      have h2 := hN.posSemidef.dotProduct_mulVec_nonneg y
      exact add_pos_of_pos_of_nonneg h1 h2

section lists
variable {α : ℕ → Type*} {ks : List (Σ d, α d)} {f g : (d : ℕ) → α d → Mat d d}

theorem blockDiag_congr (h : ∀ k ∈ ks, f k.1 k.2 = g k.1 k.2) : blockDiag f ks = blockDiag g ks := by
  induction ks with
  | nil => rfl
  | cons k ks ih =>
    rw [blockDiag, blockDiag, ih fun k' hk => h k' (List.mem_cons_of_mem _ hk), h k (by simp)]

theorem blockDiag_mul : blockDiag f ks * blockDiag g ks = blockDiag (fun d k => f d k * g d k) ks := by
  induction ks with
  | nil => ext i; exact i.elim0
  | cons k ks ih =>
    rw [blockDiag, blockDiag, blockDiag, submatrix_mul_equiv, fromBlocks_multiply, ih]
    simp

theorem blockDiag_transpose : (blockDiag f ks)ᵀ = blockDiag (fun d k => (f d k)ᵀ) ks := by
  induction ks with
  | nil => ext i; exact i.elim0
  | cons k ks ih =>
    rw [blockDiag, blockDiag, transpose_submatrix, fromBlocks_transpose, ih]
    simp

theorem blockDiag_sub : blockDiag f ks - blockDiag g ks = blockDiag (fun d k => f d k - g d k) ks := by
  induction ks with
  | nil => ext i; exact i.elim0
  | cons k ks ih =>
    rw [blockDiag, blockDiag, blockDiag, ← ih]
    ext i j
    simp only [Matrix.sub_apply, submatrix_apply]
    rcases splitSum k ks i with a | a <;> rcases splitSum k ks j with b | b <;> simp

theorem blockDiag_one : blockDiag (fun _ (_ : α _) => 1) ks = 1 := by
  induction ks with
  | nil => ext i; exact i.elim0
  | cons k ks ih =>
    rw [blockDiag, ih, fromBlocks_one, submatrix_one_equiv]

theorem blockDiag_zero : blockDiag (fun _ (_ : α _) => 0) ks = 0 := by
  induction ks with
  | nil => rfl
  | cons k ks ih =>
    rw [blockDiag, ih, fromBlocks_zero]; rfl

theorem blockDiag_posSemidef (h : ∀ k ∈ ks, (f k.1 k.2).PosSemidef) :
    (blockDiag f ks).PosSemidef := by
  induction ks with
  | nil => exact PosSemidef.zero
  | cons k ks ih =>
    rw [blockDiag]
    exact posSemidef_reindex (posSemidef_fromBlocks (h k (by simp))
      (ih fun k' hk => h k' (List.mem_cons_of_mem _ hk))) _

theorem blockDiag_posDef (h : ∀ k ∈ ks, (f k.1 k.2).PosDef) : (blockDiag f ks).PosDef := by
  induction ks with
  | nil =>
    refine PosDef.of_dotProduct_mulVec_pos (by ext i; exact i.elim0) fun v hv => ?_
    exact absurd (funext fun i => i.elim0) hv
  | cons k ks ih =>
    rw [blockDiag]
    exact posDef_reindex (posDef_fromBlocks (h k (by simp))
      (ih fun k' hk => h k' (List.mem_cons_of_mem _ hk))) _

theorem concatCols_mul_blockDiag {o : ℕ} (h : (d : ℕ) → α d → Mat o d) :
    concatCols h ks * blockDiag f ks = concatCols (fun d k => h d k * f d k) ks := by
  induction ks with
  | nil => ext i j; exact j.elim0
  | cons k ks ih =>
    rw [concatCols, concatCols, blockDiag, submatrix_mul_equiv, fromCols_mul_fromBlocks, ih]
    simp

theorem concatCols_mul_transpose {o : ℕ} (h h' : (d : ℕ) → α d → Mat o d) :
    concatCols h ks * (concatCols h' ks)ᵀ = (ks.map fun k => h k.1 k.2 * (h' k.1 k.2)ᵀ).sum := by
  induction ks with
  | nil => ext i j; simp only [Matrix.mul_apply]; exact Finset.sum_of_isEmpty (ι := Fin 0) _
  | cons k ks ih =>
    rw [concatCols, concatCols, transpose_submatrix, submatrix_mul_equiv, transpose_fromCols,
      fromCols_mul_fromRows, ih]
    simp

theorem concatVec_zero {v : (d : ℕ) → α d → Vec d} (h : ∀ k ∈ ks, v k.1 k.2 = 0) :
    concatVec v ks = 0 := by
  induction ks with
  | nil => funext i; exact i.elim0
  | cons k ks ih =>
    rw [concatVec, ih fun k' hk => h k' (List.mem_cons_of_mem _ hk), h k (by simp)]
    funext i
    simp only [Function.comp]
    rcases splitSum k ks i with a | a <;> rfl

theorem blockDiag_mulVec {v : (d : ℕ) → α d → Vec d} :
    blockDiag f ks *ᵥ concatVec v ks = concatVec (fun d k => f d k *ᵥ v d k) ks := by
  induction ks with
  | nil => funext i; exact i.elim0
  | cons k ks ih =>
    rw [blockDiag, concatVec, concatVec, ← ih, submatrix_mulVec_equiv]
    congr 1
    rw [Function.comp_assoc, Equiv.self_comp_symm, Function.comp_id, fromBlocks_mulVec]
    simp

/-! ### Kronecker products -/

theorem kron_congr (h : ∀ k ∈ ks, f k.1 k.2 = g k.1 k.2) : kron f ks = kron g ks := by
  induction ks with
  | nil => rfl
  | cons k ks ih =>
    rw [kron, kron, ih fun k' hk => h k' (List.mem_cons_of_mem _ hk), h k (by simp)]

theorem kron_mul : kron f ks * kron g ks = kron (fun d k => f d k * g d k) ks := by
  induction ks with
  | nil => simp [kron]
  | cons k ks ih =>
    rw [kron, kron, kron, submatrix_mul_equiv, ← Matrix.mul_kronecker_mul, ih]

theorem kron_transpose : (kron f ks)ᵀ = kron (fun d k => (f d k)ᵀ) ks := by
  induction ks with
  | nil => simp [kron]
  | cons k ks ih =>
    rw [kron, kron, transpose_submatrix, ← ih]
    rfl

theorem kron_one : kron (fun _ (_ : α _) => 1) ks = 1 := by
  induction ks with
  | nil => rfl
  | cons k ks ih =>
    rw [kron, ih, Matrix.one_kronecker_one, submatrix_one_equiv]

theorem kron_posSemidef (h : ∀ k ∈ ks, (f k.1 k.2).PosSemidef) : (kron f ks).PosSemidef := by
  induction ks with
  | nil => exact PosSemidef.one
  | cons k ks ih =>
    rw [kron]
    exact posSemidef_reindex ((h k (by simp)).kronecker
      (ih fun k' hk => h k' (List.mem_cons_of_mem _ hk))) _

theorem kron_posDef (h : ∀ k ∈ ks, (f k.1 k.2).PosDef) : (kron f ks).PosDef := by
  induction ks with
  | nil => exact PosDef.one
  | cons k ks ih =>
    rw [kron]
    exact posDef_reindex ((h k (by simp)).kronecker
      (ih fun k' hk => h k' (List.mem_cons_of_mem _ hk))) _

/-- `⊗P - ⊗B` telescopes. -/
theorem kron_sub_cons (k : Σ d, α d) :
    kron f (k :: ks) - kron g (k :: ks) =
      (kroneckerMap (· * ·) (f k.1 k.2 - g k.1 k.2) (kron f ks)).submatrix
          (splitProd k ks) (splitProd k ks) +
      (kroneckerMap (· * ·) (g k.1 k.2) (kron f ks - kron g ks)).submatrix
          (splitProd k ks) (splitProd k ks) := by
  ext i j
  simp only [kron, Matrix.sub_apply, submatrix_apply, kroneckerMap_apply, Matrix.add_apply]
  ring

theorem kron_sub_posSemidef (hf : ∀ k ∈ ks, (f k.1 k.2).PosSemidef)
    (hg : ∀ k ∈ ks, (g k.1 k.2).PosSemidef)
    (h : ∀ k ∈ ks, (f k.1 k.2 - g k.1 k.2).PosSemidef) : (kron f ks - kron g ks).PosSemidef := by
  induction ks with
  | nil => simp only [kron, sub_self]; exact PosSemidef.zero
  | cons k ks ih =>
    rw [kron_sub_cons]
    refine PosSemidef.add (posSemidef_reindex ((h k (by simp)).kronecker
      (kron_posSemidef fun k' hk => hf k' (List.mem_cons_of_mem _ hk))) _)
      (posSemidef_reindex ((hg k (by simp)).kronecker
        (ih (fun k' hk => hf k' (List.mem_cons_of_mem _ hk))
          (fun k' hk => hg k' (List.mem_cons_of_mem _ hk))
          (fun k' hk => h k' (List.mem_cons_of_mem _ hk)))) _)

theorem kron_sub_posDef (hf : ∀ k ∈ ks, (f k.1 k.2).PosDef)
    (hg : ∀ k ∈ ks, (g k.1 k.2).PosDef)
    (h : ∀ k ∈ ks, (f k.1 k.2 - g k.1 k.2).PosSemidef)
    (hs : ∃ k ∈ ks, (f k.1 k.2 - g k.1 k.2).PosDef) : (kron f ks - kron g ks).PosDef := by
  induction ks with
  | nil => obtain ⟨k, hk, -⟩ := hs; simp at hk
  | cons k ks ih =>
    rw [kron_sub_cons]
    have hf' : ∀ k ∈ ks, (f k.1 k.2).PosDef := fun k' hk => hf k' (List.mem_cons_of_mem _ hk)
    have hg' : ∀ k ∈ ks, (g k.1 k.2).PosDef := fun k' hk => hg k' (List.mem_cons_of_mem _ hk)
    have h' : ∀ k ∈ ks, (f k.1 k.2 - g k.1 k.2).PosSemidef :=
      fun k' hk => h k' (List.mem_cons_of_mem _ hk)
    obtain ⟨k', hk', hkd⟩ := hs
    rcases List.mem_cons.1 hk' with rfl | hk'
    · refine PosDef.add_posSemidef (posDef_reindex (hkd.kronecker (kron_posDef hf')) _)
        (posSemidef_reindex ((hg _ (by simp)).posSemidef.kronecker
          (kron_sub_posSemidef (fun k hk => (hf' k hk).posSemidef)
            (fun k hk => (hg' k hk).posSemidef) h')) _)
    · refine PosDef.posSemidef_add (posSemidef_reindex ((h k (by simp)).kronecker
        (kron_posDef hf').posSemidef) _)
        (posDef_reindex ((hg _ (by simp)).kronecker (ih hf' hg' h' ⟨k', hk', hkd⟩)) _)

theorem sum_prodFin (k : Σ d, α d) (f : Fin k.1 × Fin (prodDim ks) → ℝ) :
    ∑ j : Fin (prodDim (k :: ks)), f (splitProd k ks j) = ∑ p, f p :=
  Equiv.sum_comp (splitProd k ks) f

theorem kronRow_mul_kron (h : (d : ℕ) → α d → Mat 1 d) :
    kronRow h ks * kron f ks = kronRow (fun d k => h d k * f d k) ks := by
  induction ks with
  | nil =>
    ext i j
    simp only [kron, kronRow, Matrix.mul_one]
  | cons k ks ih =>
    ext i j
    rw [Matrix.mul_apply]
    simp only [kronRow, of_apply, kron, submatrix_apply, kroneckerMap_apply]
    rw [sum_prodFin k (fun p : Fin k.1 × Fin (prodDim ks) => h k.1 k.2 0 p.1 * kronRow h ks 0 p.2 *
        (f k.1 k.2 p.1 (splitProd k ks j).1 * kron f ks p.2 (splitProd k ks j).2)),
      ← ih, Fintype.sum_prod_type, Matrix.mul_apply, Matrix.mul_apply, Finset.sum_mul_sum]
    refine Finset.sum_congr rfl fun x _ => Finset.sum_congr rfl fun y _ => by ring

theorem kronRow_mul_transpose (h h' : (d : ℕ) → α d → Mat 1 d) :
    (kronRow h ks * (kronRow h' ks)ᵀ) 0 0 = (ks.map fun k => (h k.1 k.2 * (h' k.1 k.2)ᵀ) 0 0).prod := by
  induction ks with
  | nil =>
    simp only [Matrix.mul_apply, kronRow, of_apply, transpose_apply, List.map_nil, List.prod_nil]
    exact (Fintype.sum_unique (ι := Fin 1) _).trans (by simp)
  | cons k ks ih =>
    rw [List.map_cons, List.prod_cons, ← ih, Matrix.mul_apply]
    simp only [kronRow, of_apply, transpose_apply]
    rw [sum_prodFin k (fun p : Fin k.1 × Fin (prodDim ks) => h k.1 k.2 0 p.1 * kronRow h ks 0 p.2 *
        (h' k.1 k.2 0 p.1 * kronRow h' ks 0 p.2)), Fintype.sum_prod_type,
      Matrix.mul_apply, Matrix.mul_apply, Finset.sum_mul_sum]
    refine Finset.sum_congr rfl fun x _ => Finset.sum_congr rfl fun y _ => ?_
    simp only [transpose_apply]; ring

/-! ### Independent outputs -/

theorem padConcatRows_mul_blockDiag {o : ℕ} (h : (d : ℕ) → α d → Mat o d) :
    padConcatRows o h ks * blockDiag f ks = padConcatRows o (fun d k => h d k * f d k) ks := by
  induction ks with
  | nil => ext i j; exact j.elim0
  | cons k ks ih =>
    rw [padConcatRows, padConcatRows, blockDiag, submatrix_mul_equiv, fromBlocks_multiply, ih]
    simp

/-- Row `(a, r)` (output `r` of child `a`). -/
theorem padConcatRows_mul_transpose {o : ℕ} (h h' : (d : ℕ) → α d → Mat o d)
    (a b : Fin ks.length) (r s : Fin o) :
    (padConcatRows o h ks * (padConcatRows o h' ks)ᵀ) (finProdFinEquiv (a, r))
        (finProdFinEquiv (b, s)) =
      if a = b then (h (ks.get a).1 (ks.get a).2 * (h' (ks.get a).1 (ks.get a).2)ᵀ) r s else 0 := by
  induction ks with
  | nil => exact a.elim0
  | cons k ks ih =>
    rw [padConcatRows, padConcatRows, transpose_submatrix, submatrix_mul_equiv, fromBlocks_transpose, fromBlocks_multiply]
    have e0 : ∀ r : Fin o, splitRows o k ks (finProdFinEquiv ((0 : Fin (ks.length + 1)), r)) =
        Sum.inl r := by
      intro r
      rw [splitRows, Equiv.trans_apply, Equiv.symm_apply_eq]
      ext; simp
    have e1 : ∀ (c : Fin ks.length) (r : Fin o), splitRows o k ks (finProdFinEquiv (c.succ, r)) =
        Sum.inr (finProdFinEquiv (c, r)) := by
      intro c r
      rw [splitRows, Equiv.trans_apply, Equiv.symm_apply_eq]
      ext; simp; ring
    simp only [submatrix_apply, Function.comp]
    refine Fin.cases ?_ (fun a => ?_) a <;> refine Fin.cases ?_ (fun b => ?_) b
    · rw [e0, e0]; simp only [fromBlocks_apply₁₁]; simp; rfl
    · rw [e0, e1]; simp [Fin.succ_ne_zero, eq_comm]
    · rw [e0, e1]; simp [Fin.succ_ne_zero]
    · rw [e1, e1]; simp [ih]

end lists
end MF
