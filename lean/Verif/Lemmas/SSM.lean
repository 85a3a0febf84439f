import Verif.Model.StateSpaceModel
import Verif.Spec.GaussMarkov
import Verif.Lemmas.UDL

namespace MF
open Matrix Spec

variable {n d : ℕ}

theorem isUnit_det {ι : Type*} [Fintype ι] [DecidableEq ι] {M : Matrix ι ι ℝ} (h : IsUnit M) :
    IsUnit M.det := (Matrix.isUnit_iff_isUnit_det _).1 h

theorem isUnit_transpose' {ι : Type*} [Fintype ι] [DecidableEq ι] {M : Matrix ι ι ℝ}
    (h : IsUnit M) : IsUnit Mᵀ := by
  rw [Matrix.isUnit_iff_isUnit_det, det_transpose]; exact isUnit_det h

namespace SSM
variable (s : SSM n d)

/-- The Cholesky factors are lower triangular with non-zero diagonal: the state space model has a
density. -/
def Nondegenerate : Prop := ∀ b, LowerTri (s.concatChol b) ∧ ∀ i, s.concatChol b i i ≠ 0

/-- `P₀, Q₁, Q₂, …` -/
def Qc (b : Fin (n + 1)) : Mat d d := s.concatChol b * (s.concatChol b)ᵀ

/-- Process covariances `Q_k`. -/
def Q (k : Fin n) : Mat d d := s.cholQ k * (s.cholQ k)ᵀ

@[simp] theorem Qc_zero : s.Qc 0 = s.initialCovariance := rfl
@[simp] theorem Qc_succ (k : Fin n) : s.Qc k.succ = s.Q k := rfl

/-- The unit lower bidiagonal `A⁻¹`. -/
def Ai : Matrix (Ix n d) (Ix n d) ℝ := denseLow (fun _ => 1) (fun k => -s.A k)

theorem isUnit_Ai : IsUnit s.Ai := isUnit_low_one _
theorem det_Ai : s.Ai.det = 1 := det_low_one _

/-- Dense precision. -/
noncomputable def Pd : Matrix (Ix n d) (Ix n d) ℝ :=
  s.Aiᵀ * denseDiag (fun b => (s.Qc b)⁻¹) * s.Ai

/-- Dense covariance. -/
noncomputable def Kd : Matrix (Ix n d) (Ix n d) ℝ := s.Ai⁻¹ * denseDiag s.Qc * (s.Ai⁻¹)ᵀ

variable {s}

theorem Nondegenerate.isUnit (h : s.Nondegenerate) (b) : IsUnit (s.concatChol b) :=
  (h b).1.isUnit (h b).2

theorem Nondegenerate.Qc_posDef (h : s.Nondegenerate) (b) : (s.Qc b).PosDef :=
  posDef_mul_transpose (h.isUnit b)

theorem Nondegenerate.Q_posDef (h : s.Nondegenerate) (k) : (s.Q k).PosDef := h.Qc_posDef k.succ

theorem Nondegenerate.cholSolve_eq (h : s.Nondegenerate) {κ : Type*} (b) (R : Matrix (Fin d) κ ℝ) :
    cholSolve (s.concatChol b) R = (s.Qc b)⁻¹ * R := by
  rw [cholSolve, (h b).1.tril_eq]; rfl

theorem Nondegenerate.cholSolve_Q (h : s.Nondegenerate) {κ : Type*} (k : Fin n)
    (R : Matrix (Fin d) κ ℝ) : cholSolve (s.cholQ k) R = (s.Q k)⁻¹ * R :=
  h.cholSolve_eq k.succ R

variable (s)

theorem Qc_symm (b) : (s.Qc b)ᵀ = s.Qc b := by
  rw [Qc, transpose_mul, transpose_transpose]

theorem denseDiag_inv_mul {D : Fin (n + 1) → Mat d d} (h : ∀ b, IsUnit (D b)) :
    denseDiag (fun b => (D b)⁻¹) * denseDiag D = 1 := by
  rw [denseDiag_mul, ← denseDiag_one]
  congr 1
  funext b
  exact nonsing_inv_mul _ (isUnit_det (h b))

theorem denseDiag_mul_inv {D : Fin (n + 1) → Mat d d} (h : ∀ b, IsUnit (D b)) :
    denseDiag D * denseDiag (fun b => (D b)⁻¹) = 1 := by
  rw [denseDiag_mul, ← denseDiag_one]
  congr 1
  funext b
  exact mul_nonsing_inv _ (isUnit_det (h b))

variable {s}

theorem Pd_mul_Kd (h : s.Nondegenerate) : s.Pd * s.Kd = 1 := by
  have hu := isUnit_det s.isUnit_Ai
  have hQ := denseDiag_inv_mul (D := s.Qc) fun b => (h.Qc_posDef b).isUnit
  rw [Pd, Kd]
  calc s.Aiᵀ * denseDiag (fun b => (s.Qc b)⁻¹) * s.Ai * (s.Ai⁻¹ * denseDiag s.Qc * s.Ai⁻¹ᵀ)
      = s.Aiᵀ * (denseDiag (fun b => (s.Qc b)⁻¹) * ((s.Ai * s.Ai⁻¹) * denseDiag s.Qc)) * s.Ai⁻¹ᵀ := by
        simp only [Matrix.mul_assoc]
    _ = 1 := by
        rw [mul_nonsing_inv _ hu, Matrix.one_mul, hQ, Matrix.mul_one, ← transpose_mul,
          nonsing_inv_mul _ hu, transpose_one]

theorem Kd_mul_Pd (h : s.Nondegenerate) : s.Kd * s.Pd = 1 := mul_eq_one_comm.1 (Pd_mul_Kd h)

theorem Pd_inv (h : s.Nondegenerate) : s.Pd⁻¹ = s.Kd := inv_eq_right_inv (Pd_mul_Kd h)
theorem Kd_inv (h : s.Nondegenerate) : s.Kd⁻¹ = s.Pd := inv_eq_right_inv (Kd_mul_Pd h)

theorem Kd_eq_mul_transpose :
    s.Kd = (s.Ai⁻¹ * denseDiag s.concatChol) * (s.Ai⁻¹ * denseDiag s.concatChol)ᵀ := by
  rw [Kd, transpose_mul, denseDiag_transpose]
  simp only [Matrix.mul_assoc]
  rw [← Matrix.mul_assoc (denseDiag s.concatChol), denseDiag_mul]
  rfl

theorem isUnit_denseDiag {D : Fin (n + 1) → Mat d d} (h : ∀ b, IsUnit (D b)) :
    IsUnit (denseDiag D) := by
  rw [isUnit_iff_exists]
  exact ⟨_, denseDiag_mul_inv h, denseDiag_inv_mul h⟩

theorem Kd_posDef (h : s.Nondegenerate) : s.Kd.PosDef := by
  rw [Kd_eq_mul_transpose]
  apply posDef_mul_transpose
  apply IsUnit.mul
  · exact (Matrix.isUnit_nonsing_inv_iff).2 s.isUnit_Ai
  · exact isUnit_denseDiag fun b => h.isUnit b

theorem Pd_posDef (h : s.Nondegenerate) : s.Pd.PosDef := by
  rw [← Kd_inv h]; exact (Kd_posDef h).inv

/-! ### trajectories -/

theorem isTrajectory_iff (noise x : Fin (n + 1) → Vec d) :
    IsTrajectory s.mu0 s.A s.b noise x ↔
      s.Ai *ᵥ stk x = stk (fun k => s.concatOffsets k + noise k) := by
  constructor
  · intro h
    apply vblk_ext
    intro k
    refine Fin.cases ?_ (fun k => ?_) k
    · rw [Ai, vblk_low_mulVec_zero, one_mulVec, vblk_stk, vblk_stk, h.zero]; rfl
    · rw [Ai, vblk_low_mulVec_succ, one_mulVec, vblk_stk, vblk_stk, vblk_stk, h.succ, neg_mulVec]
      show _ = s.b k + noise k.succ
      abel
  · intro h
    constructor
    · have := congrArg (fun v => vblk v 0) h
      simp only [Ai, vblk_low_mulVec_zero, one_mulVec, vblk_stk] at this
      exact this
    · intro k
      have := congrArg (fun v => vblk v k.succ) h
      simp only [Ai, vblk_low_mulVec_succ, one_mulVec, vblk_stk, neg_mulVec] at this
      have h2 : x k.succ + -(s.A k *ᵥ x k.castSucc) = s.b k + noise k.succ := this
      rw [add_assoc, ← h2]; abel

theorem solve_aInv (hn : 0 < n) (v : Fin (n + 1) → Vec d) :
    ∃ a, s.aInvBlock = .ok a ∧ stk (a.solve v) = s.Ai⁻¹ *ᵥ stk v := by
  refine ⟨⟨fun _ => 1, some fun k => -s.A k⟩, ?_, ?_⟩
  · unfold aInvBlock BTD.init
    rw [if_neg (by omega)]
  · unfold BTD.solve solveTriangMat
    rw [stk_unflatten_mulVec, unflat_inv]
    congr 2
    have := BTD.unflat_toDense_low (⟨fun _ => 1, some fun k => -s.A k⟩ : LowerBTD n d)
    have h1 : tril (1 : Mat d d) = 1 := LowerTri.tril_eq fun i j h => one_apply_ne h.ne
    simp only [h1] at this
    exact this

theorem aInvBlock_error : (hn : n = 0) → s.aInvBlock = .error .invalidArgument := by
  rintro rfl
  rfl

variable (s) in
/-- The means. -/
noncomputable def mus : Fin (n + 1) → Vec d := vblk (s.Ai⁻¹ *ᵥ stk s.concatOffsets)

theorem stk_mus : stk s.mus = s.Ai⁻¹ *ᵥ stk s.concatOffsets := rfl

theorem Ai_mus : s.Ai *ᵥ stk s.mus = stk s.concatOffsets := by
  rw [stk_mus, mulVec_mulVec, mul_nonsing_inv _ (isUnit_det s.isUnit_Ai), one_mulVec]

theorem marginalMeans_eq (hn : 0 < n) : s.marginalMeans = .ok s.mus := by
  obtain ⟨a, ha, hs⟩ := solve_aInv (s := s) hn s.concatOffsets
  unfold marginalMeans
  rw [ha]
  simp only [bind, Except.bind, pure, Except.pure]
  congr 1
  exact stk_injective hs

theorem mus_isMeans : IsMeans s.mu0 s.A s.b s.mus := by
  have h : IsTrajectory s.mu0 s.A s.b (fun _ => 0) s.mus := by
    rw [isTrajectory_iff, Ai_mus]
    simp
  exact ⟨by rw [h.zero, add_zero], fun k => by rw [h.succ, add_zero]⟩

theorem IsMeans.unique {m0 : Vec d} {A : Fin n → Mat d d} {b : Fin n → Vec d}
    {μ ν : Fin (n + 1) → Vec d} (h : IsMeans m0 A b μ) (h' : IsMeans m0 A b ν) : μ = ν := by
  funext k
  induction k using Fin.induction with
  | zero => rw [h.zero, h'.zero]
  | succ k ih => rw [h.succ, h'.succ, ih]

/-! ### joint covariance -/

theorem Ai_inv_blk_upper {b c : Fin (n + 1)} (h : b < c) : blk s.Ai⁻¹ b c = 0 := by
  have hA : s.Ai * s.Ai⁻¹ = 1 := mul_nonsing_inv _ (isUnit_det s.isUnit_Ai)
  induction b using Fin.induction with
  | zero =>
    have := congrArg (fun M => blk M 0 c) hA
    simp only [Ai, blk_low_mul_zero, Matrix.one_mul, blk_one, if_neg h.ne] at this
    exact this
  | succ b ih =>
    have := congrArg (fun M => blk M b.succ c) hA
    simp only [Ai, blk_low_mul_succ, Matrix.one_mul, blk_one, if_neg h.ne] at this
    have ih' := ih (lt_trans (Fin.castSucc_lt_succ) h)
    rw [Ai] at ih'
    rw [ih', Matrix.mul_zero, add_zero] at this
    exact this

theorem Ai_inv_blk_diag (b : Fin (n + 1)) : blk s.Ai⁻¹ b b = 1 := by
  have hA : s.Ai * s.Ai⁻¹ = 1 := mul_nonsing_inv _ (isUnit_det s.isUnit_Ai)
  refine Fin.cases ?_ (fun b => ?_) b
  · have := congrArg (fun M => blk M 0 0) hA
    simp only [Ai, blk_low_mul_zero, Matrix.one_mul, blk_one, if_true] at this
    exact this
  · have := congrArg (fun M => blk M b.succ b.succ) hA
    simp only [Ai, blk_low_mul_succ, Matrix.one_mul, blk_one, if_true] at this
    have h' := Ai_inv_blk_upper (s := s) (Fin.castSucc_lt_succ (i := b))
    rw [Ai] at h'
    rw [h', Matrix.mul_zero, add_zero] at this
    exact this

theorem Ai_mul_Kd : s.Ai * s.Kd = denseDiag s.Qc * (s.Ai⁻¹)ᵀ := by
  rw [Kd, ← Matrix.mul_assoc, ← Matrix.mul_assoc, mul_nonsing_inv _ (isUnit_det s.isUnit_Ai),
    Matrix.one_mul]

theorem Kd_symm : s.Kdᵀ = s.Kd := by
  rw [Kd, transpose_mul, transpose_transpose, transpose_mul, denseDiag_transpose]
  simp only [Qc_symm, Matrix.mul_assoc]

theorem Kd_isJointCov : IsJointCov s.initialCovariance s.A s.Q s.Kd := by
  have key := Ai_mul_Kd (s := s)
  have hdiag : ∀ b c : Fin (n + 1), blk (denseDiag s.Qc * (s.Ai⁻¹)ᵀ) b c =
      s.Qc b * (blk s.Ai⁻¹ c b)ᵀ := by
    intro b c; rw [blk_diag_mul, blk_transpose]
  have h0 : ∀ c, blk s.Kd 0 c = s.Qc 0 * (blk s.Ai⁻¹ c 0)ᵀ := by
    intro c
    have := congrArg (fun M => blk M 0 c) key
    simp only [hdiag] at this
    rw [Ai, blk_low_mul_zero, Matrix.one_mul] at this
    exact this
  have hs : ∀ (k : Fin n) (c), blk s.Kd k.succ c = s.A k * blk s.Kd k.castSucc c +
      s.Qc k.succ * (blk s.Ai⁻¹ c k.succ)ᵀ := by
    intro k c
    have := congrArg (fun M => blk M k.succ c) key
    simp only [hdiag] at this
    rw [Ai, blk_low_mul_succ, Matrix.one_mul, Matrix.neg_mul] at this
    rw [← Ai] at this
    rw [← this]; abel
  have hcross : ∀ (k : Fin n) (c : Fin (n + 1)), c ≤ k.castSucc →
      blk s.Kd k.succ c = s.A k * blk s.Kd k.castSucc c := by
    intro k c hc
    rw [hs, Ai_inv_blk_upper (lt_of_le_of_lt hc Fin.castSucc_lt_succ), transpose_zero,
      Matrix.mul_zero, add_zero]
  refine ⟨Kd_symm, ?_, ?_, hcross⟩
  · rw [h0, Ai_inv_blk_diag, transpose_one, Matrix.mul_one]; rfl
  · intro k
    rw [hs, Ai_inv_blk_diag, transpose_one, Matrix.mul_one, Qc_succ]
    congr 1
    have h1 : blk s.Kd k.castSucc k.succ = (blk s.Kd k.succ k.castSucc)ᵀ := by
      conv_lhs => rw [← Kd_symm, blk_transpose]
    rw [h1, hcross k _ le_rfl, transpose_mul, ← blk_transpose, Kd_symm, Matrix.mul_assoc]

theorem IsJointCov.unique {P0 : Mat d d} {A Q : Fin n → Mat d d}
    {K K' : Matrix (Ix n d) (Ix n d) ℝ} (h : IsJointCov P0 A Q K) (h' : IsJointCov P0 A Q K') :
    K = K' := by
  have lower : ∀ b c : Fin (n + 1), c ≤ b → blk K b c = blk K' b c := by
    intro b
    induction b using Fin.induction with
    | zero =>
      intro c hc
      obtain rfl : c = 0 := Fin.le_zero_iff.1 hc
      rw [h.zero, h'.zero]
    | succ k ih =>
      intro c hc
      rcases eq_or_lt_of_le hc with rfl | hlt
      · rw [h.succ, h'.succ, ih _ le_rfl]
      · have hc' : c ≤ k.castSucc := Fin.le_castSucc_iff.2 hlt
        rw [h.cross k c hc', h'.cross k c hc', ih c hc']
  apply blk_ext
  intro b c
  rcases le_total c b with hcb | hbc
  · exact lower b c hcb
  · have e1 : blk K b c = (blk K c b)ᵀ := by conv_lhs => rw [← h.symm, blk_transpose]
    have e2 : blk K' b c = (blk K' c b)ᵀ := by conv_lhs => rw [← h'.symm, blk_transpose]
    rw [e1, e2, lower c b hbc]

/-! ### precision -/

variable (s) in
/-- The blocks of the precision. -/
noncomputable def precD (b : Fin (n + 1)) : Mat d d :=
  (s.Qc b)⁻¹ + (Fin.snoc (α := fun _ => Mat d d) (fun k => (s.A k)ᵀ * ((s.Q k)⁻¹ * s.A k)) 0) b

variable (s) in
noncomputable def precS (k : Fin n) : Mat d d := -((s.Q k)⁻¹ * s.A k)

theorem Q_symm (k) : (s.Q k)ᵀ = s.Q k := s.Qc_symm k.succ

theorem precD_symm (b) : (s.precD b)ᵀ = s.precD b := by
  rw [precD, transpose_add, transpose_nonsing_inv, Qc_symm]
  congr 1
  refine Fin.lastCases ?_ (fun k => ?_) b
  · simp
  · simp only [Fin.snoc_castSucc]
    rw [transpose_mul, transpose_mul, transpose_transpose, transpose_nonsing_inv, Q_symm,
      Matrix.mul_assoc]

theorem precision_eq (h : s.Nondegenerate) (hn : 0 < n) :
    s.precision = .ok ⟨s.precD, some s.precS⟩ := by
  have e1 : (fun k => cholSolve (s.cholQ k) (s.A k)) = fun k => (s.Q k)⁻¹ * s.A k := by
    funext k; exact h.cholSolve_Q k _
  have e2 : (fun b => cholSolve (s.concatChol b) (1 : Mat d d)) = fun b => (s.Qc b)⁻¹ := by
    funext b; rw [h.cholSolve_eq, Matrix.mul_one]
  unfold precision BTD.init
  rw [if_neg (by omega)]
  congr 2
  · funext b
    rw [precD, ← congrFun e2 b]
    congr 2
    funext k
    rw [← congrFun e1 k]
  · congr 1
    funext k
    rw [precS, ← congrFun e1 k]

theorem schur_prec (h : s.Nondegenerate) (b) : schur s.precD s.precS b = (s.Qc b)⁻¹ := by
  induction b using Fin.reverseInduction with
  | last => rw [schur_last, precD]; simp
  | cast k ih =>
    have hu := isUnit_det (h.Q_posDef k).isUnit
    rw [schur_castSucc, ih, precD, precS, Fin.snoc_castSucc, Qc_succ,
      nonsing_inv_nonsing_inv _ hu, transpose_neg, transpose_mul, transpose_nonsing_inv, Q_symm]
    simp only [Matrix.neg_mul, Matrix.mul_neg, neg_neg, Matrix.mul_assoc]
    rw [mul_nonsing_inv_cancel_left _ _ hu]
    abel

theorem schurU_prec (h : s.Nondegenerate) : schurU s.precD s.precS = fun k => -s.A k := by
  funext k
  have hu := isUnit_det (h.Q_posDef k).isUnit
  rw [schurU, schur_prec h, Qc_succ, nonsing_inv_nonsing_inv _ hu, precS, Matrix.mul_neg,
    mul_nonsing_inv_cancel_left _ _ hu]

theorem denseSym_prec (h : s.Nondegenerate) : denseSym s.precD s.precS = s.Pd := by
  rw [← udl_factor _ _ precD_symm (fun k => by
    rw [schur_prec h]; exact (h.Qc_posDef _).inv.isUnit), schurU_prec h]
  have : schur s.precD s.precS = fun b => (s.Qc b)⁻¹ := by funext b; exact schur_prec h b
  rw [this]; rfl

theorem unflat_prec (h : s.Nondegenerate) :
    unflat (BTD.toDense (⟨s.precD, some s.precS⟩ : SymBTD n d)) = s.Pd := by
  rw [BTD.unflat_toDense_sym, ← denseSym_prec h]
  congr 1
  funext b
  exact symLower_eq (precD_symm b)

/-- The Cholesky factor of the precision. -/
theorem precision_cholesky (h : s.Nondegenerate) (hn : 0 < n) (hd : 0 < d) :
    ∃ c : LowerBTD n d, BTD.cholesky ⟨s.precD, some s.precS⟩ = .ok c ∧
      unflat c.toDense * (unflat c.toDense)ᵀ = s.Pd := by
  have hpd : (BTD.toDense (⟨s.precD, some s.precS⟩ : SymBTD n d)).PosDef := by
    rw [← posDef_unflat, unflat_prec h]; exact Pd_posDef h
  obtain ⟨c, hc, hch, -, -⟩ := BTD.cholesky_ok _ hd (fun _ => hn) hpd
  refine ⟨c, hc, ?_⟩
  rw [← unflat_prec h, ← hch.mul_transpose, unflat_mul, unflat_transpose]

end SSM
end MF
