import Verif.Lemmas.Transformations
import Verif.Lemmas.SSM2
import Verif.Lemmas.GaussKL
import Mathlib.Analysis.Matrix.Order

/-!
# The Markov chain with the pair marginals of a Gaussian vector
-/

namespace MF
open Matrix Spec
variable {n d : ℕ}

/-- A pair of blocks of a positive definite matrix. -/
theorem posDef_pair {S : Matrix (Ix n d) (Ix n d) ℝ} (hS : S.PosDef) {i j : Fin (n + 1)} (hij : i ≠ j) :
    (fromBlocks (blk S i i) (blk S i j) (blk S j i) (blk S j j)).PosDef := by
  have hinj : Function.Injective (Sum.elim (fun a : Fin d => (i, a)) (fun a : Fin d => (j, a))) := by
    rintro (a | a) (b | b) h <;> simp only [Sum.elim_inl, Sum.elim_inr, Prod.mk.injEq] at h
    · rw [h.2]
    · exact absurd h.1 hij
    · exact absurd h.1.symm hij
    · rw [h.2]
  convert hS.submatrix hinj using 1
  ext (a | a) (b | b) <;> rfl

/-- The conditional covariance of one block given another. -/
theorem posDef_cond {S : Matrix (Ix n d) (Ix n d) ℝ} (hS : S.PosDef) {i j : Fin (n + 1)} (hij : i ≠ j) :
    (blk S j j - blk S j i * (blk S i i)⁻¹ * blk S i j).PosDef := by
  have hp := posDef_pair hS hij
  have hi : (blk S i i).PosDef := posDef_blk hS i
  have hsy : (blk S i j)ᴴ = blk S j i := by
    ext a b
    have := congrFun (congrFun (posDef_transpose hS) (j, a)) (i, b)
    simpa [blk] using this
  have := invertibleOfIsUnitDet _ (isUnit_det hi.isUnit)
  rw [← hsy] at hp ⊢
  have hps : (blk S j j - (blk S i j)ᴴ * (blk S i i)⁻¹ * blk S i j).PosSemidef :=
    (PosDef.fromBlocks₁₁ _ _ hi).1 hp.posSemidef
  refine (PosSemidef.posDef_iff_det_ne_zero hps).2 ?_
  have hdet := hp.det_pos.ne'
  rw [det_fromBlocks₁₁, invOf_eq_nonsing_inv] at hdet
  exact right_ne_zero_of_mul hdet

/-- The conversion from expectations succeeds on the moments of any non-degenerate Gaussian vector. -/
theorem expectationsToSSM_of_posDef {S : Matrix (Ix n d) (Ix n d) ℝ} (hS : S.PosDef) (m : Fin (n + 1) → Vec d) :
    ∃ s, expectationsToSSM m (fun b => blk S b b + vecMulVec (m b) (m b))
        (fun k => blk S k.succ k.castSucc + vecMulVec (m k.succ) (m k.castSucc)) = .ok s ∧
      s.Nondegenerate ∧ s.mus = m ∧ (∀ b, blk s.Kd b b = blk S b b) ∧
      ∀ k : Fin n, blk s.Kd k.succ k.castSucc = blk S k.succ k.castSucc := by
  have hst := posDef_transpose hS
  have hblk : ∀ i j, (blk S i j)ᵀ = blk S j i := fun i j => by
    ext a b
    exact congrFun (congrFun hst (j, a)) (i, b)
  obtain ⟨L, hL, hL2⟩ := seqFin_cholesky_ok (posDef_blk hS)
  have hcov : ∀ b, (blk S b b + vecMulVec (m b) (m b)) - vecMulVec (m b) (m b) = blk S b b :=
    fun b => add_sub_cancel_right _ _
  have hsub : ∀ k : Fin n, (blk S k.succ k.castSucc + vecMulVec (m k.succ) (m k.castSucc))ᵀ -
      vecMulVec (m k.castSucc) (m k.succ) = blk S k.castSucc k.succ := by
    intro k
    rw [transpose_add, transpose_vecMulVec, add_sub_cancel_right, hblk]
  have hcond : ∀ k : Fin n, blk S k.succ k.succ -
      (cholSolve (L k.castSucc) (blk S k.castSucc k.succ))ᵀ *
        (blk S k.castSucc k.castSucc * ((cholSolve (L k.castSucc) (blk S k.castSucc k.succ))ᵀ)ᵀ) =
      blk S k.succ k.succ - blk S k.succ k.castSucc * (blk S k.castSucc k.castSucc)⁻¹ * blk S k.castSucc k.succ := by
    intro k
    have hu := isUnit_det (posDef_blk hS k.castSucc).isUnit
    rw [transpose_transpose, cholSolve_eq (hL2 _), mul_nonsing_inv_cancel_left _ _ hu, transpose_mul, hblk,
      transpose_nonsing_inv, hblk]
  obtain ⟨C, hC, -⟩ := seqFin_cholesky_ok (fun k : Fin n => posDef_cond hS (Fin.castSucc_lt_succ (i := k)).ne)
  have hok : ∃ s, expectationsToSSM m (fun b => blk S b b + vecMulVec (m b) (m b))
        (fun k => blk S k.succ k.castSucc + vecMulVec (m k.succ) (m k.castSucc)) = .ok s := by
    unfold expectationsToSSM
    simp only [hcov, hsub, hL, bind, Except.bind, hcond, hC]
    exact ⟨_, rfl⟩
  obtain ⟨s, hs⟩ := hok
  obtain ⟨h1, h2, h3, h4⟩ := expectations_of_ok (fun b => by
    rw [transpose_add, transpose_vecMulVec, hblk]) hs
  exact ⟨s, hs, h1, h2, fun b => add_right_cancel (h3 b), fun k => add_right_cancel (h4 k)⟩

/-- Only the blocks on and next to the diagonal enter a trace against the precision of a chain. -/
theorem trace_prec_congr {t : SSM n d} (ht : t.Nondegenerate) {S M : Matrix (Ix n d) (Ix n d) ℝ} (hS : Sᵀ = S)
    (hM : Mᵀ = M) (h1 : ∀ b, blk M b b = blk S b b)
    (h2 : ∀ k : Fin n, blk M k.succ k.castSucc = blk S k.succ k.castSucc) :
    (t.Kd⁻¹ * M).trace = (t.Kd⁻¹ * S).trace := by
  have hsym : ∀ b, (t.precD b)ᵀ = t.precD b := SSM.precD_symm
  rw [SSM.Kd_inv ht, ← SSM.denseSym_prec ht, trace_denseSym_mul _ _ hsym _ hS, trace_denseSym_mul _ _ hsym _ hM]
  simp only [h1, h2]

/-- Pythagoras: the chain `s` with the pair marginals of `N(m, S)` splits the divergence to every chain `t`. -/
theorem gaussKL_pythagoras {s t : SSM n d} (hs : s.Nondegenerate) (ht : t.Nondegenerate)
    {S : Matrix (Ix n d) (Ix n d) ℝ} (hS : S.PosDef) (h1 : ∀ b, blk s.Kd b b = blk S b b)
    (h2 : ∀ k : Fin n, blk s.Kd k.succ k.castSucc = blk S k.succ k.castSucc) :
    gaussKL (stk s.mus) S (stk t.mus) t.Kd =
      gaussKL (stk s.mus) S (stk s.mus) s.Kd + gaussKL (stk s.mus) s.Kd (stk t.mus) t.Kd := by
  have hSs := posDef_transpose hS
  have hMs := posDef_transpose (SSM.Kd_posDef hs)
  have e1 := trace_prec_congr ht hSs hMs h1 h2
  have e2 := trace_prec_congr hs hSs hMs h1 h2
  rw [nonsing_inv_mul _ (isUnit_det (SSM.Kd_posDef hs).isUnit), trace_one] at e2
  unfold gaussKL
  rw [e1, ← e2, sub_self, zero_dotProduct]
  ring

end MF
