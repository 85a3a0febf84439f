import Verif.Lemmas.NatGrad
import Mathlib.Topology.Instances.Matrix
import Mathlib.Algebra.Order.Chebyshev
import Mathlib.Analysis.Calculus.Deriv.Slope

/-!
# The expectation parameters form an open set, on which the natural parameters are continuous
-/

namespace MF
open Matrix Spec MeasureTheory ProbabilityTheory InformationTheory Topology Filter
variable {n d : ℕ}

/-- A symmetric matrix close to the identity is positive definite. -/
theorem posDef_near_one {N : Mat d d} (hs : Nᵀ = N) (h : ∀ i j, |N i j - (1 : Mat d d) i j| * (d + 1) ≤ 1) : N.PosDef := by
  refine PosDef.of_dotProduct_mulVec_pos hs fun x hx => ?_
  have hd : (0 : ℝ) < d + 1 := by positivity
  have hx2 : 0 < ∑ i, x i ^ 2 := by
    refine lt_of_le_of_ne (Finset.sum_nonneg fun i _ => sq_nonneg _) fun h0 => hx ?_
    funext i
    have := (Finset.sum_eq_zero_iff_of_nonneg (fun i _ => sq_nonneg (x i))).1 h0.symm i (Finset.mem_univ _)
    exact pow_eq_zero_iff (two_ne_zero) |>.1 this
  have e : star x ⬝ᵥ N *ᵥ x = ∑ i, x i ^ 2 + ∑ i, ∑ j, (N i j - (1 : Mat d d) i j) * (x i * x j) := by
    have : ∀ i, ∑ j, (1 : Mat d d) i j * (x i * x j) = x i ^ 2 := fun i => by
      simp only [Matrix.one_apply, ite_mul, one_mul, zero_mul, Finset.sum_ite_eq, Finset.mem_univ, if_true]; ring
    simp only [sub_mul, Finset.sum_sub_distrib, this, star_trivial, dotProduct, mulVec, Finset.mul_sum]
    rw [add_sub_cancel]
    exact Finset.sum_congr rfl fun i _ => Finset.sum_congr rfl fun j _ => by ring
  have b : |∑ i, ∑ j, (N i j - (1 : Mat d d) i j) * (x i * x j)| ≤ (1 / (d + 1)) * (∑ i, |x i|) ^ 2 := by
    rw [sq, Finset.sum_mul_sum, Finset.mul_sum]
    refine (Finset.abs_sum_le_sum_abs _ _).trans (Finset.sum_le_sum fun i _ => ?_)
    rw [Finset.mul_sum]
    refine (Finset.abs_sum_le_sum_abs _ _).trans (Finset.sum_le_sum fun j _ => ?_)
    rw [abs_mul, abs_mul]
    refine mul_le_mul_of_nonneg_right ?_ (by positivity)
    rw [le_div_iff₀ hd]; exact h i j
  have c : (∑ i, |x i|) ^ 2 ≤ d * ∑ i, x i ^ 2 := by
    have := sq_sum_le_card_mul_sum_sq (s := (Finset.univ : Finset (Fin d))) (f := fun i => |x i|)
    simpa using this
  rw [e]
  have b' := (abs_le.1 b).1
  have c' : (1 / ((d : ℝ) + 1)) * (∑ i, |x i|) ^ 2 ≤ (1 / (d + 1)) * (d * ∑ i, x i ^ 2) :=
    mul_le_mul_of_nonneg_left c (by positivity)
  have : (1 / ((d : ℝ) + 1)) * (d * ∑ i, x i ^ 2) < ∑ i, x i ^ 2 := by
    rw [one_div, ← mul_assoc, inv_mul_eq_div]
    have : (d : ℝ) / (d + 1) < 1 := by rw [div_lt_one hd]; linarith
    nlinarith
  linarith

/-- Positive definiteness is an open condition on symmetric matrices. -/
theorem posDef_eventually {M : ℝ → Mat d d} (hM : ContinuousAt M 0) (hs : ∀ t, (M t)ᵀ = M t) (h0 : (M 0).PosDef) :
    ∀ᶠ t in 𝓝 0, (M t).PosDef := by
  obtain ⟨L, -, hL⟩ := tfCholesky_posDef h0
  have hu := hL.isUnit
  have hu' : IsUnit L.det := isUnit_det hu
  set N : ℝ → Mat d d := fun t => L⁻¹ * M t * (L⁻¹)ᵀ with hN
  have hNc : ContinuousAt N 0 := by
    have : Continuous fun X : Mat d d => L⁻¹ * X * (L⁻¹)ᵀ := by fun_prop
    exact this.continuousAt.comp hM
  have hN0 : N 0 = 1 := by
    simp only [hN]
    rw [← hL.mul_transpose, ← Matrix.mul_assoc, nonsing_inv_mul _ hu', Matrix.one_mul, ← transpose_mul,
      nonsing_inv_mul _ hu', transpose_one]
  have hev : ∀ᶠ t in 𝓝 0, ∀ i j, |N t i j - (1 : Mat d d) i j| * (d + 1) ≤ 1 := by
    rw [eventually_all]; intro i
    rw [eventually_all]; intro j
    have : ContinuousAt (fun t => |N t i j - (1 : Mat d d) i j| * (d + 1)) 0 := by
      have c1 : Continuous fun X : Mat d d => |X i j - (1 : Mat d d) i j| * ((d : ℝ) + 1) := by
        have : Continuous fun X : Mat d d => X i j := continuous_id.matrix_elem i j
        fun_prop
      exact c1.continuousAt.comp hNc
    have h1 : (fun t => |N t i j - (1 : Mat d d) i j| * ((d : ℝ) + 1)) 0 < 1 := by simp [hN0]
    exact (this.eventually (gt_mem_nhds h1)).mono fun t ht => le_of_lt ht
  refine hev.mono fun t ht => ?_
  have hNs : (N t)ᵀ = N t := by
    simp only [hN, transpose_mul, transpose_transpose, hs, Matrix.mul_assoc]
  have hp := posDef_near_one hNs ht
  have e : M t = L * N t * Lᵀ := by
    simp only [hN]
    rw [← Matrix.mul_assoc, ← Matrix.mul_assoc, mul_nonsing_inv _ hu', Matrix.one_mul, Matrix.mul_assoc, ← transpose_mul,
      mul_nonsing_inv _ hu', transpose_one, Matrix.mul_one]
  rw [e]
  have := hp.mul_mul_conjTranspose_same (B := L) (Matrix.vecMul_injective_of_isUnit hu)
  rwa [conjTranspose_eq_transpose_of_trivial] at this

/-- The inverse is continuous at invertible matrices. -/
theorem continuousAt_inv {M : ℝ → Mat d d} (hM : ContinuousAt M 0) (h0 : IsUnit (M 0).det) :
    ContinuousAt (fun t => (M t)⁻¹) 0 := by
  have e : (fun t => (M t)⁻¹) = fun t => ((M t).det)⁻¹ • (M t).adjugate := by
    funext t; rw [Matrix.inv_def, Ring.inverse_eq_inv']
  rw [e]
  have c1 : ContinuousAt (fun t => (M t).det) 0 := (continuous_id.matrix_det).continuousAt.comp hM
  have c2 : ContinuousAt (fun t => (M t).adjugate) 0 := (continuous_id.matrix_adjugate).continuousAt.comp hM
  exact (c1.inv₀ h0.ne_zero).smul c2

theorem ContinuousAt.mmul {M N : ℝ → Mat d d} (hM : ContinuousAt M 0) (hN : ContinuousAt N 0) :
    ContinuousAt (fun t => M t * N t) 0 := by
  have : Continuous fun p : Mat d d × Mat d d => p.1 * p.2 := by fun_prop
  exact this.continuousAt.comp (hM.prodMk hN)

theorem ContinuousAt.mtr {M : ℝ → Mat d d} (hM : ContinuousAt M 0) : ContinuousAt (fun t => (M t)ᵀ) 0 :=
  (continuous_id.matrix_transpose).continuousAt.comp hM

/-! ### the natural parameters as a function of the expectation parameters -/

namespace ExpPar
variable (η : ExpPar n d)

def cov (b : Fin (n + 1)) : Mat d d := η.2.1 b - vecMulVec (η.1 b) (η.1 b)
def csub (k : Fin n) : Mat d d := (η.2.2 k)ᵀ - vecMulVec (η.1 k.castSucc) (η.1 k.succ)
noncomputable def trans (k : Fin n) : Mat d d := ((η.cov k.castSucc)⁻¹ * η.csub k)ᵀ
noncomputable def cond (k : Fin n) : Mat d d := η.cov k.succ - η.trans k * (η.cov k.castSucc * (η.trans k)ᵀ)
noncomputable def qc (b : Fin (n + 1)) : Mat d d := Fin.cases (η.cov 0) η.cond b
noncomputable def nd (b : Fin (n + 1)) : Mat d d :=
  (η.qc b)⁻¹ + (Fin.snoc (α := fun _ => Mat d d) (fun k => (η.trans k)ᵀ * ((η.cond k)⁻¹ * η.trans k)) 0) b
noncomputable def ns (k : Fin n) : Mat d d := -((η.cond k)⁻¹ * η.trans k)
noncomputable def nat : ExpPar n d :=
  (vblk (denseSym η.nd η.ns *ᵥ stk η.1), fun b => (-(1 / 2) : ℝ) • η.nd b, fun k => -η.ns k)

theorem cov_symm (h : SymDiag η) (b) : (η.cov b)ᵀ = η.cov b := by
  rw [cov, transpose_sub, h b, transpose_vecMulVec]

theorem cond_symm (h : SymDiag η) (b) : (η.cond b)ᵀ = η.cond b := by
  simp only [cond, transpose_sub, transpose_mul, transpose_transpose, η.cov_symm h, Matrix.mul_assoc]

/-- The conversion succeeds when the covariances are positive definite. -/
theorem toSSM (h : SymDiag η) (h1 : ∀ b, (η.cov b).PosDef) (h2 : ∀ k, (η.cond k).PosDef) :
    ∃ s : SSM n d, expectationsToSSM η.1 η.2.1 η.2.2 = .ok s ∧ s.Nondegenerate ∧ expPar s = η ∧ ssmToNaturals s = η.nat ∧
      s.A = η.trans ∧ ∀ b, s.Qc b = η.qc b := by
  obtain ⟨L, hL, hL2⟩ := seqFin_cholesky_ok h1
  obtain ⟨C, hC, hC2⟩ := seqFin_cholesky_ok h2
  have hA : ∀ k : Fin n, (cholSolve (L k.castSucc) (η.csub k))ᵀ = η.trans k := fun k => by
    rw [cholSolve_eq (hL2 _)]; rfl
  have hok : expectationsToSSM η.1 η.2.1 η.2.2 =
      .ok ⟨η.1 0, L 0, η.trans, fun k => η.1 k.succ - η.trans k *ᵥ η.1 k.castSucc, C⟩ := by
    unfold expectationsToSSM
    have hL' : (seqFin fun b => tfCholesky (η.2.1 b - vecMulVec (η.1 b) (η.1 b))) = .ok L := hL
    have hA' : ∀ k : Fin n, (cholSolve (L k.castSucc) ((η.2.2 k)ᵀ - vecMulVec (η.1 k.castSucc) (η.1 k.succ)))ᵀ = η.trans k := hA
    have hC' : (seqFin fun k : Fin n => tfCholesky (η.2.1 k.succ - vecMulVec (η.1 k.succ) (η.1 k.succ) -
      η.trans k * ((η.2.1 k.castSucc - vecMulVec (η.1 k.castSucc) (η.1 k.castSucc)) * (η.trans k)ᵀ))) = .ok C := hC
    simp only [hL', Bind.bind, Except.bind, hA', hC']
    rfl
  obtain ⟨hnd, hm, e1, e2⟩ := expectations_of_ok h hok
  have hq : ∀ b, SSM.Qc (⟨η.1 0, L 0, η.trans, fun k => η.1 k.succ - η.trans k *ᵥ η.1 k.castSucc, C⟩ : SSM n d) b = η.qc b :=
    Fin.cases (hL2 0).mul_transpose fun k => (hC2 k).mul_transpose
  refine ⟨_, hok, hnd, ?_, ?_, rfl, hq⟩
  · refine Prod.ext hm (Prod.ext ?_ ?_)
    · funext b; rw [← e1 b]; simp only [expPar, hm]
    · funext b; rw [← e2 b]; simp only [expPar, hm]
  · generalize hs : (⟨η.1 0, L 0, η.trans, fun k => η.1 k.succ - η.trans k *ᵥ η.1 k.castSucc, C⟩ : SSM n d) = s at *
    have hA2 : s.A = η.trans := by rw [← hs]
    have hQ : s.Q = η.cond := by funext k; exact hq k.succ
    have hD : s.precD = η.nd := by
      funext b; rw [SSM.precD, hq, hA2, hQ]; rfl
    have hS : s.precS = η.ns := by
      funext k; rw [SSM.precS, hA2, hQ]; rfl
    rw [ssmToNaturals_eq s hnd, ← SSM.denseSym_prec hnd, hD, hS, hm]
    rfl

variable {η}

/-- In a neighbourhood of the expectation parameters of a nondegenerate model, along any continuous curve, the conversion succeeds
and the natural parameters are continuous. -/
theorem path {s : SSM n d} (hs : s.Nondegenerate) (c : ℝ → ExpPar n d) (hc : ContinuousAt c 0) (h0 : c 0 = expPar s)
    (hsym : ∀ t, SymDiag (c t)) :
    (∀ᶠ t in 𝓝 0, ∃ q : SSM n d, expectationsToSSM (c t).1 (c t).2.1 (c t).2.2 = .ok q ∧ q.Nondegenerate ∧ expPar q = c t ∧
      ssmToNaturals q = (c t).nat) ∧ ContinuousAt (fun t => (c t).nat) 0 := by
  have hJ := SSM.Kd_isJointCov (s := s)
  have hKb : ∀ b, (blk s.Kd b b).PosDef := posDef_blk (SSM.Kd_posDef hs)
  have c1 : ContinuousAt (fun t => (c t).1) 0 := hc.fst
  have c2 : ContinuousAt (fun t => (c t).2.1) 0 := hc.snd.fst
  have c3 : ContinuousAt (fun t => (c t).2.2) 0 := hc.snd.snd
  have l1 : ∀ b, ContinuousAt (fun t => (c t).1 b) 0 := fun b => (continuous_apply b).continuousAt.comp c1
  have vm : ∀ a b, ContinuousAt (fun t => vecMulVec ((c t).1 a) ((c t).1 b)) 0 := fun a b => by
    have : Continuous fun p : Vec d × Vec d => vecMulVec p.1 p.2 := by
      refine continuous_matrix fun i j => ?_
      simp only [vecMulVec_apply]; fun_prop
    exact this.continuousAt.comp ((l1 a).prodMk (l1 b))
  have hcov : ∀ b, ContinuousAt (fun t => (c t).cov b) 0 := fun b =>
    ((continuous_apply b).continuousAt.comp c2).sub (vm b b)
  have hcsub : ∀ k, ContinuousAt (fun t => (c t).csub k) 0 := fun k =>
    (ContinuousAt.mtr ((continuous_apply k).continuousAt.comp c3)).sub (vm k.castSucc k.succ)
  have v0 : ∀ b, (c 0).cov b = blk s.Kd b b := fun b => by rw [h0]; exact add_sub_cancel_right _ _
  have t0 : ∀ k, (c 0).trans k = s.A k := fun k => by
    have hsy : (blk s.Kd k.castSucc k.castSucc)ᵀ = blk s.Kd k.castSucc k.castSucc := posDef_transpose (hKb _)
    have e : (c 0).csub k = blk s.Kd k.castSucc k.castSucc * (s.A k)ᵀ := by
      rw [h0]
      show (blk s.Kd k.succ k.castSucc + vecMulVec (s.mus k.succ) (s.mus k.castSucc))ᵀ - vecMulVec (s.mus k.castSucc) (s.mus k.succ) = _
      rw [transpose_add, transpose_vecMulVec, add_sub_cancel_right, hJ.cross k _ le_rfl, transpose_mul, hsy]
    rw [trans, e, v0, ← Matrix.mul_assoc, nonsing_inv_mul _ (isUnit_det (hKb _).isUnit), Matrix.one_mul, transpose_transpose]
  have q0 : ∀ k, (c 0).cond k = s.Q k := fun k => by
    rw [cond, t0, v0, v0, hJ.succ, Matrix.mul_assoc, add_sub_cancel_left]
  have htr : ∀ k, ContinuousAt (fun t => (c t).trans k) 0 := fun k =>
    ContinuousAt.mtr (ContinuousAt.mmul (continuousAt_inv (hcov _) (by
      rw [v0]; exact isUnit_det (hKb _).isUnit)) (hcsub k))
  have hcond : ∀ k, ContinuousAt (fun t => (c t).cond k) 0 := fun k =>
    (hcov k.succ).sub (ContinuousAt.mmul (htr k) (ContinuousAt.mmul (hcov _) (ContinuousAt.mtr (htr k))))
  have hci : ∀ k, ContinuousAt (fun t => ((c t).cond k)⁻¹) 0 := fun k =>
    continuousAt_inv (hcond k) (by rw [q0]; exact isUnit_det (hs.Q_posDef k).isUnit)
  constructor
  · have e1 : ∀ᶠ t in 𝓝 0, ∀ b, ((c t).cov b).PosDef := by
      rw [eventually_all]
      exact fun b => posDef_eventually (hcov b) (fun t => (c t).cov_symm (hsym t) b) (by rw [v0]; exact hKb b)
    have e2 : ∀ᶠ t in 𝓝 0, ∀ k, ((c t).cond k).PosDef := by
      rw [eventually_all]
      exact fun b => posDef_eventually (hcond b) (fun t => (c t).cond_symm (hsym t) b) (by rw [q0]; exact hs.Q_posDef b)
    refine (e1.and e2).mono fun t ht => ?_
    obtain ⟨q, g1, g2, g3, g4, -⟩ := (c t).toSSM (hsym t) ht.1 ht.2
    exact ⟨q, g1, g2, g3, g4⟩
  · have hnd : ContinuousAt (fun t => (c t).nd) 0 := by
      refine continuousAt_pi.2 fun b => ?_
      refine ContinuousAt.add ?_ ?_
      · refine Fin.cases ?_ (fun k => ?_) b
        · exact continuousAt_inv (hcov 0) (by
            show IsUnit ((c 0).cov 0).det
            rw [v0]; exact isUnit_det (hKb _).isUnit)
        · exact hci k
      · refine Fin.lastCases ?_ (fun k => ?_) b
        · simp only [Fin.snoc_last]; exact continuousAt_const
        · simp only [Fin.snoc_castSucc]
          exact ContinuousAt.mmul (ContinuousAt.mtr (htr k)) (ContinuousAt.mmul (hci k) (htr k))
    have hns : ContinuousAt (fun t => (c t).ns) 0 := continuousAt_pi.2 fun k => (ContinuousAt.mmul (hci k) (htr k)).neg
    refine ContinuousAt.prodMk ?_ (ContinuousAt.prodMk ?_ hns.neg)
    · refine continuousAt_pi.2 fun b => continuousAt_pi.2 fun i => ?_
      have hent : ∀ p q : Ix n d, ContinuousAt (fun t => denseSym (c t).nd (c t).ns p q) 0 := by
        intro p q
        have : ∀ b a, ContinuousAt (fun t => symBlk (c t).nd (c t).ns b a) 0 := by
          intro b a
          unfold symBlk
          split_ifs
          · exact (continuous_apply b).continuousAt.comp hnd
          · exact (continuous_apply _).continuousAt.comp hns
          · exact ContinuousAt.mtr ((continuous_apply _).continuousAt.comp hns)
          · exact continuousAt_const
        exact (continuous_id.matrix_elem p.2 q.2).continuousAt.comp (this p.1 q.1)
      show ContinuousAt (fun t => ∑ q : Ix n d, denseSym (c t).nd (c t).ns (b, i) q * stk (c t).1 q) 0
      refine tendsto_finsetSum _ fun q _ => ?_
      exact (hent _ _).mul ((continuous_apply q.2).continuousAt.comp (l1 q.1))
    · refine continuousAt_pi.2 fun b => ?_
      exact ContinuousAt.const_smul ((continuous_apply b).continuousAt.comp hnd) (-(1 / 2) : ℝ)

end ExpPar

theorem SymDiag.add {a b : ExpPar n d} (ha : SymDiag a) (hb : SymDiag b) : SymDiag (a + b) := fun k => by
  show (a.2.1 k + b.2.1 k)ᵀ = a.2.1 k + b.2.1 k
  rw [transpose_add, ha k, hb k]

theorem SymDiag.smul {a : ExpPar n d} (ha : SymDiag a) (t : ℝ) : SymDiag (t • a) := fun k => by
  show (t • a.2.1 k)ᵀ = t • a.2.1 k
  rw [transpose_smul, ha k]

theorem SymDiag.sub {a b : ExpPar n d} (ha : SymDiag a) (hb : SymDiag b) : SymDiag (a - b) := fun k => by
  show (a.2.1 k - b.2.1 k)ᵀ = a.2.1 k - b.2.1 k
  rw [transpose_sub, ha k, hb k]

/-- The law and the natural parameters depend on the covariances only. -/
theorem same_law_naturals {s s' : SSM n d} (h : s.Nondegenerate) (h0 : s'.mu0 = s.mu0) (hA : s'.A = s.A) (hb : s'.b = s.b)
    (hc : ∀ b, s'.Qc b = s.Qc b) :
    s'.law = s.law ∧ (s'.Nondegenerate → ssmToNaturals s' = ssmToNaturals s) := by
  have hQc : SSM.Qc s' = SSM.Qc s := by funext b; exact hc b
  have hQ : s'.Q = s.Q := by funext k; exact congrFun hQc k.succ
  have hm : s'.mus = s.mus := by
    apply SSM.IsMeans.unique SSM.mus_isMeans
    have := SSM.mus_isMeans (s := s)
    rw [← h0, ← hA, ← hb] at this
    exact this
  have hK : s'.Kd = s.Kd := by
    apply SSM.IsJointCov.unique SSM.Kd_isJointCov
    have := SSM.Kd_isJointCov (s := s)
    have e0 : s'.cholP0 * s'.cholP0ᵀ = s.cholP0 * s.cholP0ᵀ := congrFun hQc 0
    have e1 : (fun k => s'.cholQ k * (s'.cholQ k)ᵀ) = fun k => s.cholQ k * (s.cholQ k)ᵀ := hQ
    exact ⟨this.symm, by rw [this.zero]; exact e0.symm, fun k => by rw [this.succ, hA, hQ], fun k b hb => by
      rw [this.cross k b hb, hA]⟩
  refine ⟨by rw [SSM.law_eq_gauss, SSM.law_eq_gauss, hm, hK], fun h' => ?_⟩
  have hD : s'.precD = s.precD := by funext b; rw [SSM.precD, SSM.precD, hQc, hQ, hA]
  have hS : s'.precS = s.precS := by funext b; rw [SSM.precS, SSM.precS, hQ, hA]
  rw [ssmToNaturals_eq s h, ssmToNaturals_eq s' h', ← SSM.denseSym_prec h, ← SSM.denseSym_prec h', hD, hS, hm]

/-! ### total gradients -/

/-- The loss is a property of the distribution, not of the parameters that represent it. -/
def Spec.OfLaw (L : SSM n d → ℝ) : Prop := ∀ s s' : SSM n d, s.Nondegenerate → s'.Nondegenerate → s.law = s'.law → L s = L s'

/-- A product of a continuous and a differentiable function that both vanish has derivative zero. -/
theorem hasDerivAt_mul_zero {u v : ℝ → ℝ} {v' : ℝ} (hu : ContinuousAt u 0) (hu0 : u 0 = 0) (hv : HasDerivAt v v' 0) (hv0 : v 0 = 0) :
    HasDerivAt (fun t => u t * v t) 0 0 := by
  rw [hasDerivAt_iff_tendsto_slope] at hv ⊢
  have h := (hu.tendsto.mono_left (nhdsWithin_le_nhds (s := {0}ᶜ))).mul hv
  rw [hu0, zero_mul] at h
  refine h.congr fun t => ?_
  simp only [slope_def_field, hv0, hu0, zero_mul, sub_zero]
  ring

/-- A function between zero and one with derivative zero has derivative zero. -/
theorem hasDerivAt_squeeze {f r : ℝ → ℝ} (hf : ∀ᶠ t in 𝓝 0, 0 ≤ f t ∧ f t ≤ r t) (hr : HasDerivAt r 0 0) (hr0 : r 0 = 0) :
    HasDerivAt f 0 0 := by
  have hf0 : f 0 = 0 := le_antisymm (hf.self_of_nhds.2.trans hr0.le) hf.self_of_nhds.1
  rw [hasDerivAt_iff_tendsto] at hr ⊢
  refine squeeze_zero' (Eventually.of_forall fun t => by positivity) (hf.mono fun t ht => ?_) hr
  simp only [smul_zero, sub_zero, hf0, hr0, Real.norm_eq_abs]
  refine mul_le_mul_of_nonneg_left ?_ (by positivity)
  rw [abs_of_nonneg ht.1]
  exact ht.2.trans (le_abs_self _)

theorem Spec.HasVelocity.continuousAt {c : ℝ → ExpPar n d} {c' : ExpPar n d} (h : HasVelocity c c') : ContinuousAt c 0 := by
  refine ContinuousAt.prodMk ?_ (ContinuousAt.prodMk ?_ ?_)
  · exact continuousAt_pi.2 fun b => continuousAt_pi.2 fun i => (h.1 b i).continuousAt
  · exact continuousAt_pi.2 fun b => continuousAt_pi.2 fun i => continuousAt_pi.2 fun j => (h.2.1 b i j).continuousAt
  · exact continuousAt_pi.2 fun b => continuousAt_pi.2 fun i => continuousAt_pi.2 fun j => (h.2.2 b i j).continuousAt

theorem Spec.HasVelocity.pairing {c : ℝ → ExpPar n d} {c' : ExpPar n d} (h : HasVelocity c c') (g : ExpPar n d) :
    HasDerivAt (fun t => Spec.pairing g (c t)) (Spec.pairing g c') 0 := by
  unfold Spec.pairing
  refine HasDerivAt.fun_add (HasDerivAt.fun_add ?_ ?_) ?_
  · exact HasDerivAt.fun_sum fun b _ => HasDerivAt.fun_sum fun i _ => (h.1 b i).const_mul _
  · exact HasDerivAt.fun_sum fun b _ => HasDerivAt.fun_sum fun i _ => HasDerivAt.fun_sum fun j _ => (h.2.1 b i j).const_mul _
  · exact HasDerivAt.fun_sum fun b _ => HasDerivAt.fun_sum fun i _ => HasDerivAt.fun_sum fun j _ => (h.2.2 b i j).const_mul _

theorem Spec.HasVelocity.line (η h : ExpPar n d) : HasVelocity (fun t : ℝ => η + t • h) h := by
  have d1 : ∀ a b : ℝ, HasDerivAt (fun t : ℝ => a + t * b) b 0 := fun a b => by
    simpa using ((hasDerivAt_id (0 : ℝ)).mul_const b).const_add a
  exact ⟨fun b i => d1 _ _, fun b i j => d1 _ _, fun b i j => d1 _ _⟩

theorem Spec.IsTotalGradient.isGradient {f : ExpPar n d → ℝ} {η g : ExpPar n d} (hη : SymDiag η) (h : IsTotalGradient f η g) :
    IsGradient f η g :=
  ⟨h.1, fun v hv => h.2 (fun t => η + t • v) v (by rw [zero_smul, add_zero]) (fun t => SymDiag.add hη (SymDiag.smul hv t))
    (HasVelocity.line η v)⟩

theorem isGradient_of_total {q : SSM n d} (hq : q.Nondegenerate) (hn : 0 < n) (hd : 0 < d) {f : ExpPar n d → ℝ} {η g : ExpPar n d}
    (hη : ssmToExpectations q = .ok η) (h : IsTotalGradient f η g) : IsGradient f η g := by
  have e := ssmToExpectations_eq q hq hn hd
  rw [hη] at e
  refine h.isGradient ?_
  rw [Except.ok.inj e]
  exact symDiag_expPar q

theorem continuousAt_entries {u : ℝ → ExpPar n d} (hu : ContinuousAt u 0) :
    (∀ b i, ContinuousAt (fun t => (u t).1 b i) 0) ∧ (∀ b i j, ContinuousAt (fun t => (u t).2.1 b i j) 0) ∧
      ∀ k i j, ContinuousAt (fun t => (u t).2.2 k i j) 0 :=
  ⟨fun b i => continuousAt_pi.1 (continuousAt_pi.1 hu.fst b) i,
    fun b i j => continuousAt_pi.1 (continuousAt_pi.1 (continuousAt_pi.1 hu.snd.fst b) i) j,
    fun b i j => continuousAt_pi.1 (continuousAt_pi.1 (continuousAt_pi.1 hu.snd.snd b) i) j⟩

/-- The value at the expectation parameters of a model of a loss that is a property of the distribution. -/
theorem lossOfExpectations_expPar {L : SSM n d → ℝ} (hL : OfLaw L) {s : SSM n d} (hs : s.Nondegenerate) :
    lossOfExpectations L (expPar s) = L s := by
  obtain ⟨q1, a1, z1, z2, z3, z4⟩ := expectationsToSSM_ok s hs
  have a1' : expectationsToSSM (expPar s).1 (expPar s).2.1 (expPar s).2.2 = .ok q1 := a1
  obtain ⟨hl, -⟩ := same_law_naturals hs z1 z2 z3 fun b => (z4 b).mul_transpose
  unfold lossOfExpectations
  rw [a1']
  exact hL _ _ (fun b => ⟨(z4 b).lower, fun i => ((z4 b).diag_pos i).ne'⟩) hs hl

theorem nat_expPar {q : SSM n d} (hq : q.Nondegenerate) : (expPar q).nat = ssmToNaturals q := by
  obtain ⟨hev, -⟩ := ExpPar.path hq (fun _ => expPar q) continuousAt_const rfl fun t => symDiag_expPar q
  obtain ⟨q0, a0, b0, c0, d0⟩ := hev.self_of_nhds
  obtain ⟨q1, a1, z1, z2, z3, z4⟩ := expectationsToSSM_ok q hq
  have a1' : expectationsToSSM (expPar q).1 (expPar q).2.1 (expPar q).2.2 = .ok q1 := a1
  obtain ⟨-, hl⟩ := same_law_naturals hq z1 z2 z3 fun b => (z4 b).mul_transpose
  rw [a1'] at a0
  obtain rfl := Except.ok.inj a0
  rw [← d0, hl (fun b => ⟨(z4 b).lower, fun i => ((z4 b).diag_pos i).ne'⟩)]

/-- The total gradient, in the expectation parameters, of the divergence to a fixed model is the difference of natural parameters. -/
theorem totalGradient_kl {q p : SSM n d} (hq : q.Nondegenerate) (hp : p.Nondegenerate) {L : SSM n d → ℝ} {c : ℝ}
    (hL : ∀ s : SSM n d, s.Nondegenerate → L s = (klDiv s.law p.law).toReal + c) :
    IsTotalGradient (lossOfExpectations L) (expPar q) (ssmToNaturals q - ssmToNaturals p) := by
  refine ⟨SymDiag.sub (symDiag_naturals hq) (symDiag_naturals hp), fun γ γ' h0 hsym hv => ?_⟩
  obtain ⟨hev, hcont⟩ := ExpPar.path hq γ hv.continuousAt h0 hsym
  have hOf : OfLaw L := fun s s' hs hs' he => by
    have he' : s.law = s'.law := he
    rw [hL s hs, hL s' hs', he']
  set r : ℝ → ℝ := fun t => Spec.pairing ((γ t).nat - ssmToNaturals q) (γ t - expPar q) with hr
  have hrd : HasDerivAt r 0 0 := by
    have hc : ContinuousAt (fun t => (γ t).nat - ssmToNaturals q) 0 := hcont.sub continuousAt_const
    obtain ⟨c1, c2, c3⟩ := continuousAt_entries hc
    have z : (γ 0).nat - ssmToNaturals q = 0 := by rw [h0, nat_expPar hq, sub_self]
    have w : γ 0 - expPar q = 0 := by rw [h0, sub_self]
    have := (HasDerivAt.fun_add (HasDerivAt.fun_add
      (HasDerivAt.fun_sum (u := Finset.univ) fun b _ => HasDerivAt.fun_sum (u := Finset.univ) fun i _ =>
        hasDerivAt_mul_zero (c1 b i) (by beta_reduce; rw [z]; rfl) ((hv.1 b i).sub_const ((expPar q).1 b i)) (by rw [h0, sub_self]))
      (HasDerivAt.fun_sum (u := Finset.univ) fun b _ => HasDerivAt.fun_sum (u := Finset.univ) fun i _ =>
        HasDerivAt.fun_sum (u := Finset.univ) fun j _ => hasDerivAt_mul_zero (c2 b i j) (by beta_reduce; rw [z]; rfl)
          ((hv.2.1 b i j).sub_const ((expPar q).2.1 b i j)) (by rw [h0, sub_self])))
      (HasDerivAt.fun_sum (u := Finset.univ) fun b _ => HasDerivAt.fun_sum (u := Finset.univ) fun i _ =>
        HasDerivAt.fun_sum (u := Finset.univ) fun j _ => hasDerivAt_mul_zero (c3 b i j) (by beta_reduce; rw [z]; rfl)
          ((hv.2.2 b i j).sub_const ((expPar q).2.2 b i j)) (by rw [h0, sub_self])))
    simp only [Finset.sum_const_zero, add_zero] at this
    exact this
  have hr0 : r 0 = 0 := by
    have := pairing_smul_right 0 ((γ 0).nat - ssmToNaturals q) (γ 0)
    rw [zero_mul, zero_smul] at this
    rw [hr]
    beta_reduce
    rw [h0, sub_self, ← h0, this]
  set f : ℝ → ℝ := fun t => lossOfExpectations L (γ t) - (L q + Spec.pairing (ssmToNaturals q - ssmToNaturals p) (γ t - expPar q)) with hf
  have hfd : HasDerivAt f 0 0 := by
    refine hasDerivAt_squeeze (hev.mono fun t ⟨qt, at_, bt, ct, dt⟩ => ?_) hrd hr0
    have ft : lossOfExpectations L (γ t) = (klDiv qt.law p.law).toReal + c := by
      unfold lossOfExpectations; rw [at_]; exact hL qt bt
    have k3 := klDiv_three bt hq hp
    have ks := klDiv_symm bt hq
    rw [ct] at k3 ks
    rw [dt] at ks
    have p1 : 0 ≤ (klDiv qt.law q.law).toReal := ENNReal.toReal_nonneg
    have p2 : 0 ≤ (klDiv q.law qt.law).toReal := ENNReal.toReal_nonneg
    rw [hf, hr]
    beta_reduce
    rw [ft, hL q hq]
    constructor <;> linarith
  have hsum := hfd.fun_add ((((hv.pairing (ssmToNaturals q - ssmToNaturals p)).sub_const
    (Spec.pairing (ssmToNaturals q - ssmToNaturals p) (expPar q))).const_add (L q)))
  rw [zero_add] at hsum
  refine hsum.congr_of_eventuallyEq (Eventually.of_forall fun t => ?_)
  rw [hf]
  beta_reduce
  rw [pairing_sub_right]
  ring

/-- The gradient, in the expectation parameters, of the divergence to a fixed model is the difference of natural parameters. -/
theorem gradient_kl {q p : SSM n d} (hq : q.Nondegenerate) (hp : p.Nondegenerate) {L : SSM n d → ℝ} {c : ℝ}
    (hL : ∀ s : SSM n d, s.Nondegenerate → L s = (klDiv s.law p.law).toReal + c) :
    IsGradient (lossOfExpectations L) (expPar q) (ssmToNaturals q - ssmToNaturals p) :=
  (totalGradient_kl hq hp hL).isGradient (symDiag_expPar q)

end MF
