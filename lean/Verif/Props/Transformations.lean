import Verif.Lemmas.Naturals
import Verif.Props.StateSpaceModel

/-!
# Properties C16–C17: expectation and natural parameters

`PositiveFactors s`: the Cholesky factors held by the model are the positive-diagonal ones (what
`tf.linalg.cholesky` returns); without it factors are only recovered up to sign, i.e. the covariances
are recovered.
-/

namespace MF
open Matrix Spec MeasureTheory ProbabilityTheory

variable {n d : ℕ}

/-- The model's factors have positive diagonals. -/
def PositiveFactors (s : SSM n d) : Prop :=
  (∀ i, 0 < s.cholP0 i i) ∧ ∀ k i, 0 < s.cholQ k i i

/-- Two models with the same parameters, their noise factors being compared through the
covariances. -/
structure SameModel (s s' : SSM n d) : Prop where
  mu0 : s'.mu0 = s.mu0
  A : s'.A = s.A
  b : s'.b = s.b
  P0 : s'.cholP0 * s'.cholP0ᵀ = s.cholP0 * s.cholP0ᵀ
  Q : ∀ k, s'.cholQ k * (s'.cholQ k)ᵀ = s.cholQ k * (s.cholQ k)ᵀ

theorem sameModel_of {s s' : SSM n d} (h : s.Nondegenerate)
    (h0 : s'.mu0 = s.mu0) (hA : s'.A = s.A) (hb : s'.b = s.b)
    (hc : ∀ b, IsCholesky (s.Qc b) (s'.concatChol b)) :
    SameModel s s' ∧ (PositiveFactors s → s' = s) := by
  refine ⟨⟨h0, hA, hb, (hc 0).mul_transpose, fun k => (hc k.succ).mul_transpose⟩, fun hp => ?_⟩
  refine SSM.eq_of_isCholesky (fun b => ⟨(h b).1, ?_⟩) h0 hA hb hc
  exact Fin.cases hp.1 (fun k => hp.2 k) b

/-! ### C16 -/

/-- C16: `ssm_to_expectations` returns the first and second moments of the trajectory. -/
theorem C16_expectations (s : SSM n d) (h : s.Nondegenerate) (hn : 0 < n) (hd : 0 < d) :
    ∃ l D S, ssmToExpectations s = .ok (l, D, S) ∧
      (∀ b i, ∫ x, x (b, i) ∂(trajLaw s.mu0 s.cholP0 s.A s.b s.cholQ) = l b i) ∧
      (∀ b i j, ∫ x, x (b, i) * x (b, j) ∂(trajLaw s.mu0 s.cholP0 s.A s.b s.cholQ) = D b i j) ∧
      (∀ (k : Fin n) i j, ∫ x, x (k.succ, i) * x (k.castSucc, j)
        ∂(trajLaw s.mu0 s.cholP0 s.A s.b s.cholQ) = S k i j) := by
  have hl : trajLaw s.mu0 s.cholP0 s.A s.b s.cholQ = gaussLaw (stk s.mus) s.Kd := SSM.law_eq_gauss
  refine ⟨_, _, _, ssmToExpectations_eq s h hn hd, ?_, ?_, ?_⟩
  · intro b i; rw [hl, integral_eval_gaussLaw]; rfl
  · intro b i j; rw [hl, integral_mul_eval_gaussLaw SSM.Kd_posSemidef]; rfl
  · intro k i j; rw [hl, integral_mul_eval_gaussLaw SSM.Kd_posSemidef]; rfl

/-- C16: model → expectations → model is the identity (no Cholesky raises). -/
theorem C16_model_round_trip (s : SSM n d) (h : s.Nondegenerate) (hn : 0 < n) (hd : 0 < d) :
    ∃ l D S s', ssmToExpectations s = .ok (l, D, S) ∧ expectationsToSSM l D S = .ok s' ∧
      SameModel s s' ∧ (PositiveFactors s → s' = s) := by
  obtain ⟨s', hs', h0, hA, hb, hc⟩ := expectationsToSSM_ok s h
  exact ⟨_, _, _, s', ssmToExpectations_eq s h hn hd, hs', sameModel_of h h0 hA hb hc⟩

/-- C16: expectations → model → expectations is the identity whenever the first conversion
succeeds. -/
theorem C16_expectations_round_trip (l : Fin (n + 1) → Vec d) (D : Fin (n + 1) → Mat d d)
    (S : Fin n → Mat d d) (hn : 0 < n) (hd : 0 < d) (hD : ∀ b, (D b)ᵀ = D b) (s : SSM n d)
    (h : expectationsToSSM l D S = .ok s) :
    ssmToExpectations s = .ok (l, D, S) := by
  obtain ⟨hnd, hm, h1, h2⟩ := expectations_of_ok hD h
  rw [ssmToExpectations_eq s hnd hn hd, hm]
  simp only [h1, h2]

/-- The hypotheses of C16 are met, including success of the conversion. -/
example : ∃ l D S s', ssmToExpectations exSSM = .ok (l, D, S) ∧
    expectationsToSSM l D S = .ok s' ∧ s' = exSSM := by
  obtain ⟨l, D, S, s', h1, h2, -, h3⟩ :=
    C16_model_round_trip exSSM exSSM_nondegenerate (by norm_num) (by norm_num)
  refine ⟨l, D, S, s', h1, h2, h3 ⟨fun i => ?_, fun k i => ?_⟩⟩ <;> fin_cases i <;> simp [exSSM]

/-! ### C17 -/

/-- C17: `ssm_to_naturals` returns `(P μ, -P/2 on the diagonal, -P on the sub-diagonal)`, `P` being
the precision of the trajectory law (the inverse of its covariance). -/
theorem C17_naturals (s : SSM n d) (h : s.Nondegenerate) (μ : Fin (n + 1) → Vec d)
    (K : Matrix (Ix n d) (Ix n d) ℝ) (hμ : IsMeans s.mu0 s.A s.b μ)
    (hK : IsJointCov (s.cholP0 * s.cholP0ᵀ) s.A (fun k => s.cholQ k * (s.cholQ k)ᵀ) K) :
    stk (ssmToNaturals s).1 = K⁻¹ *ᵥ stk μ ∧
      (∀ b, (ssmToNaturals s).2.1 b = (-(1 / 2) : ℝ) • blk K⁻¹ b b) ∧
      (∀ k : Fin n, (ssmToNaturals s).2.2 k = -blk K⁻¹ k.succ k.castSucc) ∧
      (∀ b c : Fin (n + 1), (c : ℕ) + 1 < b → blk K⁻¹ b c = 0) := by
  obtain rfl : K = s.Kd := SSM.IsJointCov.unique hK SSM.Kd_isJointCov
  obtain rfl : μ = s.mus := SSM.IsMeans.unique hμ SSM.mus_isMeans
  rw [ssmToNaturals_eq s h, SSM.Kd_inv h]
  refine ⟨?_, fun b => ?_, fun k => ?_, fun b c hbc => ?_⟩
  · exact stk_vblk (s.Pd *ᵥ stk s.mus)
  · rw [← SSM.denseSym_prec h, blk_denseSym, symBlk_self]
  · rw [← SSM.denseSym_prec h, blk_denseSym, symBlk_of_gt _ _ (Fin.castSucc_lt_succ),
      lowBlk_succ_castSucc]
  · rw [← SSM.denseSym_prec h, blk_denseSym, symBlk_of_gt _ _ (Fin.lt_def.2 (by omega)),
      lowBlk_of_gt _ _ hbc]

/-- C17: model → naturals → model is the identity; no Cholesky and no solve raises. -/
theorem C17_model_round_trip (s : SSM n d) (h : s.Nondegenerate) (hn : 0 < n) (hd : 0 < d) :
    ∃ s', naturalsToSSM (ssmToNaturals s).1 (ssmToNaturals s).2.1 (ssmToNaturals s).2.2 = .ok s' ∧
      SameModel s s' ∧ (PositiveFactors s → s' = s) := by
  obtain ⟨s', hs', h0, hA, hb, hc⟩ := naturalsToSSM_ok s h hn hd
  refine ⟨s', ?_, sameModel_of h h0 hA hb hc⟩
  rw [ssmToNaturals_eq s h]
  exact hs'

/-- C17: naturals → model → naturals is the identity for every natural parameter with positive
definite precision. -/
theorem C17_naturals_round_trip (l : Fin (n + 1) → Vec d) (D : Fin (n + 1) → Mat d d)
    (S : Fin n → Mat d d) (hn : 0 < n) (hd : 0 < d) (hD : ∀ b, (D b)ᵀ = D b)
    (hP : (denseSym (fun b => (-2 : ℝ) • D b) (fun k => -S k)).PosDef) :
    ∃ s, naturalsToSSM l D S = .ok s ∧ s.Nondegenerate ∧ ssmToNaturals s = (l, D, S) := by
  obtain ⟨s, hnd, hpos, h1, h2, h3⟩ := exists_ssm_of_naturals l (fun b => (-2 : ℝ) • D b)
    (fun k => -S k) (fun b => by rw [transpose_smul, hD]) hP
  have e : ssmToNaturals s = (l, D, S) := by
    rw [ssmToNaturals_eq s hnd, h1, h2, h3]
    refine Prod.ext rfl (Prod.ext ?_ ?_)
    · funext b
      show (-(1 / 2) : ℝ) • (-2 : ℝ) • D b = D b
      rw [smul_smul]; norm_num
    · funext k; exact neg_neg _
  obtain ⟨s', hs', -, hp⟩ := C17_model_round_trip s hnd hn hd
  have : s' = s := hp ⟨fun i => hpos 0 i, fun k i => hpos k.succ i⟩
  subst this
  rw [e] at hs'
  exact ⟨s', hs', hnd, e⟩

/-- C17: a natural parameter whose precision is not positive definite raises. -/
theorem C17_improper_raises (l : Fin (n + 1) → Vec d) (D : Fin (n + 1) → Mat d d)
    (S : Fin n → Mat d d) (hn : 0 < n) (hD : ∀ b, (D b)ᵀ = D b)
    (hP : ¬ (denseSym (fun b => (-2 : ℝ) • D b) (fun k => -S k)).PosDef) :
    naturalsToSSM l D S = .error .invalidArgument :=
  naturalsToSSM_error l D S hn hD hP

/-- C17, 'no smoothing': the parameters are `(Q⁻¹ b, -Q⁻¹/2, Q⁻¹ A)` block by block, and model →
naturals → model is the identity. -/
theorem C17_no_smoothing (s : SSM n d) (h : s.Nondegenerate) :
    ssmToNaturalsNoSmoothing s =
      (Fin.cons ((s.cholP0 * s.cholP0ᵀ)⁻¹ *ᵥ s.mu0) (fun k => (s.cholQ k * (s.cholQ k)ᵀ)⁻¹ *ᵥ s.b k),
       Fin.cons ((-(1 / 2) : ℝ) • (s.cholP0 * s.cholP0ᵀ)⁻¹)
        (fun k => (-(1 / 2) : ℝ) • (s.cholQ k * (s.cholQ k)ᵀ)⁻¹),
       fun k => (s.cholQ k * (s.cholQ k)ᵀ)⁻¹ * s.A k) ∧
    ∃ s', naturalsToSSMNoSmoothing (ssmToNaturalsNoSmoothing s).1 (ssmToNaturalsNoSmoothing s).2.1
        (ssmToNaturalsNoSmoothing s).2.2 = .ok s' ∧
      SameModel s s' ∧ (PositiveFactors s → s' = s) := by
  constructor
  · rw [ssmToNaturalsNoSmoothing_eq s h]
    refine Prod.ext ?_ (Prod.ext ?_ rfl)
    · funext b; exact Fin.cases rfl (fun k => rfl) b
    · funext b; exact Fin.cases rfl (fun k => rfl) b
  · rw [ssmToNaturalsNoSmoothing_eq s h]
    have e : ∀ b, ((-2 : ℝ) • (-(1 / 2) : ℝ) • (s.Qc b)⁻¹) = (s.Qc b)⁻¹ := by
      intro b; rw [smul_smul]; norm_num
    have hinv : ∀ b, ((s.Qc b)⁻¹)⁻¹ = s.Qc b := fun b =>
      nonsing_inv_nonsing_inv _ (isUnit_det (h.Qc_posDef b).isUnit)
    have hu : ∀ b, IsUnit (s.Qc b).det := fun b => isUnit_det (h.Qc_posDef b).isUnit
    obtain ⟨s', hs', hc, ho, hA⟩ := naturalsToSSMNoSmoothing_ok
      (fun b => (s.Qc b)⁻¹ *ᵥ s.concatOffsets b) (fun b => (-(1 / 2) : ℝ) • (s.Qc b)⁻¹)
      (fun k => (s.Q k)⁻¹ * s.A k) (fun b => by rw [e]; exact (h.Qc_posDef b).inv)
    simp only [e, hinv] at hc ho hA
    have ho' : ∀ b, s'.concatOffsets b = s.concatOffsets b := fun b => by
      rw [ho, mulVec_mulVec, mul_nonsing_inv _ (hu b), one_mulVec]
    refine ⟨s', hs', sameModel_of h (ho' 0) ?_ ?_ hc⟩
    · funext k; rw [hA]; exact mul_nonsing_inv_cancel_left _ _ (hu k.succ)
    · funext k; exact ho' k.succ

/-- C17, 'no smoothing': naturals → model → naturals is the identity when every diagonal block is
negative definite, and the conversion raises otherwise. -/
theorem C17_no_smoothing_round_trip (l : Fin (n + 1) → Vec d) (D : Fin (n + 1) → Mat d d)
    (S : Fin n → Mat d d) (hD : ∀ b, (D b)ᵀ = D b) :
    ((∀ b, (-D b).PosDef) → ∃ s, naturalsToSSMNoSmoothing l D S = .ok s ∧
      ssmToNaturalsNoSmoothing s = (l, D, S)) ∧
    ((∃ b, ¬ (-D b).PosDef) → naturalsToSSMNoSmoothing l D S = .error .invalidArgument) := by
  have hiff : ∀ b, ((-2 : ℝ) • D b).PosDef ↔ (-D b).PosDef := by
    intro b
    have e : (-2 : ℝ) • D b = (2 : ℝ) • -D b := by rw [neg_smul, smul_neg]
    have e2 : -D b = (1 / 2 : ℝ) • (2 : ℝ) • -D b := by rw [smul_smul]; norm_num
    rw [e]
    exact ⟨fun h => by rw [e2]; exact h.smul (by norm_num), fun h => h.smul (by norm_num)⟩
  constructor
  · intro h
    have h' : ∀ b, ((-2 : ℝ) • D b).PosDef := fun b => (hiff b).2 (h b)
    have hu : ∀ b, IsUnit ((-2 : ℝ) • D b).det := fun b => isUnit_det (h' b).isUnit
    obtain ⟨s, hs, hc, ho, hA⟩ := naturalsToSSMNoSmoothing_ok l D S h'
    refine ⟨s, hs, ?_⟩
    have hnd : s.Nondegenerate := fun b => ⟨(hc b).lower, fun i => ((hc b).diag_pos i).ne'⟩
    have hQ : ∀ b, (s.Qc b)⁻¹ = (-2 : ℝ) • D b := fun b => by
      rw [SSM.Qc, (hc b).mul_transpose, nonsing_inv_nonsing_inv _ (hu b)]
    have hQk : ∀ k : Fin n, (s.Q k)⁻¹ = (-2 : ℝ) • D k.succ := fun k => hQ k.succ
    rw [ssmToNaturalsNoSmoothing_eq s hnd]
    refine Prod.ext ?_ (Prod.ext ?_ ?_)
    · funext b
      show (s.Qc b)⁻¹ *ᵥ s.concatOffsets b = l b
      rw [hQ, ho, mulVec_mulVec, mul_nonsing_inv _ (hu b), one_mulVec]
    · funext b
      show (-(1 / 2) : ℝ) • (s.Qc b)⁻¹ = D b
      rw [hQ, smul_smul]; norm_num
    · funext k
      show (s.Q k)⁻¹ * s.A k = S k
      rw [hQk, hA, mul_nonsing_inv_cancel_left _ _ (hu _)]
  · rintro ⟨b, hb⟩
    exact naturalsToSSMNoSmoothing_error l D S hD ⟨b, fun h => hb ((hiff b).1 h)⟩

/-- The hypotheses of `C17_naturals_round_trip` are met by the naturals of the example model. -/
example : ∃ (l : Fin 3 → Vec 2) (D : Fin 3 → Mat 2 2) (S : Fin 2 → Mat 2 2),
    (∀ b, (D b)ᵀ = D b) ∧
    (denseSym (fun b => (-2 : ℝ) • D b) (fun k => -S k)).PosDef ∧ S 0 ≠ 0 := by
  have hnd := exSSM_nondegenerate
  refine ⟨0, fun b => (-(1 / 2) : ℝ) • exSSM.precD b, fun k => -exSSM.precS k, fun b => ?_, ?_, ?_⟩
  · rw [transpose_smul, SSM.precD_symm]
  · have e1 : (fun b => (-2 : ℝ) • (-(1 / 2) : ℝ) • exSSM.precD b) = exSSM.precD := by
      funext b; rw [smul_smul]; norm_num
    have e2 : (fun k => -(-exSSM.precS k)) = exSSM.precS := by funext k; exact neg_neg _
    rw [e1, e2, SSM.denseSym_prec hnd]
    exact SSM.Pd_posDef hnd
  · intro h0
    have hu := isUnit_det (hnd.Q_posDef 0).isUnit
    have : exSSM.A 0 = 0 := by
      have h1 : (exSSM.Q 0)⁻¹ * exSSM.A 0 = 0 := by simpa [SSM.precS] using h0
      rw [← mul_nonsing_inv_cancel_left _ (exSSM.A 0) hu, h1, Matrix.mul_zero]
    have h2 := congrFun (congrFun this 0) 0
    simp [exSSM] at h2

end MF
