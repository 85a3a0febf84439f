import Verif.Model.Transformations
import Verif.Lemmas.SSM2

/-! # Expectation / natural parameter conversions -/

namespace MF
open Matrix Spec BTD
variable {n d : ℕ}

theorem seqFin_ok {α : Type*} {f : Fin n → Except Err α} {g : Fin n → α}
    (h : ∀ k, f k = .ok (g k)) : seqFin f = .ok g := by
  induction n with
  | zero => rw [seqFin]; congr 1; funext k; exact k.elim0
  | succ n ih =>
    rw [seqFin, h 0, ih (f := Fin.tail f) (g := Fin.tail g) fun k => h k.succ]
    simp only [bind, Except.bind, pure, Except.pure]
    congr 1
    exact Fin.cons_self_tail g

theorem seqFin_ok_iff {α : Type*} {f : Fin n → Except Err α} {g : Fin n → α} :
    seqFin f = .ok g ↔ ∀ k, f k = .ok (g k) := by
  refine ⟨fun h => ?_, seqFin_ok⟩
  induction n with
  | zero => exact fun k => k.elim0
  | succ n ih =>
    rw [seqFin] at h
    cases h0 : f 0 with
    | error e => rw [h0] at h; cases h
    | ok x =>
      cases h1 : seqFin (Fin.tail f) with
      | error e => rw [h0, h1] at h; cases h
      | ok xs =>
        rw [h0, h1] at h
        simp only [bind, Except.bind, pure, Except.pure, Except.ok.injEq] at h
        subst h
        intro k
        refine Fin.cases ?_ (fun k => ?_) k
        · exact h0
        · exact ih h1 k

theorem seqFin_error {α : Type*} {f : Fin n → Except Err α} {e : Err}
    (h : ∀ k, (∃ x, f k = .ok x) ∨ f k = .error e) (hk : ∃ k, f k = .error e) :
    seqFin f = .error e := by
  induction n with
  | zero => exact hk.choose.elim0
  | succ n ih =>
    rcases h 0 with ⟨x, hx⟩ | he
    · rw [seqFin, hx, ih (f := Fin.tail f) (fun k => h k.succ)]
      · rfl
      · obtain ⟨k, hk⟩ := hk
        revert hk
        refine Fin.cases (fun hk => ?_) (fun k hk => ⟨k, hk⟩) k
        rw [hx] at hk; cases hk
    · rw [seqFin, he]; rfl

theorem seqFin_cholesky_ok {S : Fin n → Mat d d} (h : ∀ k, (S k).PosDef) :
    ∃ L, seqFin (fun k => tfCholesky (S k)) = .ok L ∧ ∀ k, IsCholesky (S k) (L k) := by
  choose L hL hL2 using fun k => tfCholesky_posDef (h k)
  exact ⟨L, seqFin_ok hL, hL2⟩

theorem seqFin_cholesky_error {S : Fin n → Mat d d} (hs : ∀ k, (S k)ᵀ = S k)
    (h : ∃ k, ¬ (S k).PosDef) : seqFin (fun k => tfCholesky (S k)) = .error .invalidArgument := by
  have hiff : ∀ k, tfCholesky (S k) = .error .invalidArgument ↔ ¬ (S k).PosDef := fun k => by
    rw [tfCholesky_error_iff, symLower_eq (hs k)]
  apply seqFin_error
  · intro k
    by_cases hp : (S k).PosDef
    · obtain ⟨L, hL, -⟩ := tfCholesky_posDef hp
      exact Or.inl ⟨L, hL⟩
    · exact Or.inr ((hiff k).2 hp)
  · obtain ⟨k, hk⟩ := h; exact ⟨k, (hiff k).2 hk⟩

/-- Two positive-diagonal models with equal covariances, transitions and means are equal. -/
theorem SSM.eq_of_isCholesky {s s' : SSM n d} (hp : ∀ b, LowerTri (s.concatChol b) ∧
    ∀ i, 0 < s.concatChol b i i) (h0 : s'.mu0 = s.mu0) (hA : s'.A = s.A) (hb : s'.b = s.b)
    (hc : ∀ b, IsCholesky (s.Qc b) (s'.concatChol b)) : s' = s := by
  have hs : ∀ b, IsCholesky (s.Qc b) (s.concatChol b) := fun b => ⟨(hp b).1, (hp b).2, rfl⟩
  have he : ∀ b, s'.concatChol b = s.concatChol b := fun b => (hc b).unique (hs b)
  have e0 : s'.cholP0 = s.cholP0 := he 0
  have eQ : s'.cholQ = s.cholQ := by funext k; exact he k.succ
  cases s; cases s'
  simp_all

theorem colsolve_eq {L S : Mat d d} (h : IsCholesky S L) (v : Vec d) :
    (cholSolve L (replicateCol Unit v)).col () = S⁻¹ *ᵥ v := by
  rw [cholSolve_eq h]
  rfl

theorem SSM.Nondegenerate.colsolve {s : SSM n d} (h : s.Nondegenerate) (b) (v : Vec d) :
    (cholSolve (s.concatChol b) (replicateCol Unit v)).col () = (s.Qc b)⁻¹ *ᵥ v := by
  rw [h.cholSolve_eq]; rfl

/-! ### expectations -/

theorem ssmToExpectations_eq (s : SSM n d) (h : s.Nondegenerate) (hn : 0 < n) (hd : 0 < d) :
    ssmToExpectations s = .ok (s.mus,
      fun b => blk s.Kd b b + vecMulVec (s.mus b) (s.mus b),
      fun k => blk s.Kd k.succ k.castSucc + vecMulVec (s.mus k.succ) (s.mus k.castSucc)) := by
  unfold ssmToExpectations
  rw [SSM.marginalMeans_eq hn, SSM.marginalCovariances_eq h hn hd]
  simp only [bind, Except.bind, pure, Except.pure]
  congr 4
  funext k
  congr 1
  exact SSM.subsequent_eq k

/-- The recovery of a model from its marginals. -/
theorem expectationsToSSM_ok (s : SSM n d) (h : s.Nondegenerate) :
    ∃ s', expectationsToSSM s.mus
      (fun b => blk s.Kd b b + vecMulVec (s.mus b) (s.mus b))
      (fun k => blk s.Kd k.succ k.castSucc + vecMulVec (s.mus k.succ) (s.mus k.castSucc)) = .ok s' ∧
      s'.mu0 = s.mu0 ∧ s'.A = s.A ∧ s'.b = s.b ∧
      ∀ b, IsCholesky (s.Qc b) (s'.concatChol b) := by
  have hJ := SSM.Kd_isJointCov (s := s)
  have hKb : ∀ b, (blk s.Kd b b).PosDef := posDef_blk (SSM.Kd_posDef h)
  obtain ⟨L, hL, hL2⟩ := seqFin_cholesky_ok hKb
  have hcov : ∀ b, (blk s.Kd b b + vecMulVec (s.mus b) (s.mus b)) - vecMulVec (s.mus b) (s.mus b)
      = blk s.Kd b b := fun b => add_sub_cancel_right _ _
  have hsub : ∀ k : Fin n, (blk s.Kd k.succ k.castSucc + vecMulVec (s.mus k.succ)
      (s.mus k.castSucc))ᵀ - vecMulVec (s.mus k.castSucc) (s.mus k.succ) =
      blk s.Kd k.castSucc k.castSucc * (s.A k)ᵀ := by
    intro k
    have hsy : (blk s.Kd k.castSucc k.castSucc)ᵀ = blk s.Kd k.castSucc k.castSucc :=
      posDef_transpose (hKb _)
    rw [transpose_add, transpose_vecMulVec, add_sub_cancel_right, hJ.cross k _ le_rfl,
      transpose_mul, hsy]
  have hA : ∀ k : Fin n, (cholSolve (L k.castSucc) (blk s.Kd k.castSucc k.castSucc *
      (s.A k)ᵀ))ᵀ = s.A k := by
    intro k
    rw [cholSolve_eq (hL2 _), ← Matrix.mul_assoc, nonsing_inv_mul _ (isUnit_det (hKb _).isUnit),
      Matrix.one_mul, transpose_transpose]
  have hcond : ∀ k : Fin n, blk s.Kd k.succ k.succ -
      s.A k * (blk s.Kd k.castSucc k.castSucc * (s.A k)ᵀ) = s.Q k := by
    intro k; rw [hJ.succ, Matrix.mul_assoc, add_sub_cancel_left]
  obtain ⟨C, hC, hC2⟩ := seqFin_cholesky_ok (fun k => h.Q_posDef k)
  refine ⟨⟨s.mus 0, L 0, s.A, fun k => s.mus k.succ - s.A k *ᵥ s.mus k.castSucc, C⟩,
    ?_, SSM.mus_isMeans.zero, rfl, ?_, ?_⟩
  · unfold expectationsToSSM
    simp only [hcov, hsub, hL, bind, Except.bind, hA, hcond, hC]
    rfl
  · funext k
    show s.mus k.succ - _ = _
    rw [SSM.mus_isMeans.succ, add_sub_cancel_left]
  · intro b
    refine Fin.cases ?_ (fun k => hC2 k) b
    have := hL2 0
    rwa [hJ.zero] at this

/-- Conversely, every successfully converted parameter set consists of the expectations of the
resulting model. -/
theorem expectations_of_ok {l : Fin (n + 1) → Vec d} {D : Fin (n + 1) → Mat d d}
    {S : Fin n → Mat d d} {s : SSM n d} (hD : ∀ b, (D b)ᵀ = D b)
    (h : expectationsToSSM l D S = .ok s) :
    s.Nondegenerate ∧ s.mus = l ∧ (∀ b, blk s.Kd b b + vecMulVec (l b) (l b) = D b) ∧
      ∀ k : Fin n, blk s.Kd k.succ k.castSucc + vecMulVec (l k.succ) (l k.castSucc) = S k := by
  unfold expectationsToSSM at h
  set cov : Fin (n + 1) → Mat d d := fun b => D b - vecMulVec (l b) (l b) with hcov
  set csub : Fin n → Mat d d := fun k => (S k)ᵀ - vecMulVec (l k.castSucc) (l k.succ) with hcsub
  have hcovs : ∀ b, (cov b)ᵀ = cov b := by
    intro b; rw [hcov]; simp only [transpose_sub, hD, transpose_vecMulVec]
  cases h1 : seqFin fun b => tfCholesky (cov b) with
  | error e => simp only [h1, bind, Except.bind] at h; cases h
  | ok L =>
    simp only [h1, bind, Except.bind] at h
    set A : Fin n → Mat d d := fun k => (cholSolve (L k.castSucc) (csub k))ᵀ with hA
    set cc : Fin n → Mat d d := fun k => cov k.succ - A k * (cov k.castSucc * (A k)ᵀ) with hcc
    have hccs : ∀ k, (cc k)ᵀ = cc k := by
      intro k
      simp only [hcc, transpose_sub, transpose_mul, transpose_transpose, hcovs, Matrix.mul_assoc]
    cases h2 : seqFin fun k => tfCholesky (cc k) with
    | error e => rw [h2] at h; cases h
    | ok C =>
      rw [h2] at h
      simp only [pure, Except.pure, Except.ok.injEq] at h
      have hL : ∀ b, IsCholesky (cov b) (L b) := fun b => by
        have := tfCholesky_eq_ok_iff.1 (seqFin_ok_iff.1 h1 b)
        rwa [symLower_eq (hcovs b)] at this
      have hC : ∀ k, IsCholesky (cc k) (C k) := fun k => by
        have := tfCholesky_eq_ok_iff.1 (seqFin_ok_iff.1 h2 k)
        rwa [symLower_eq (hccs k)] at this
      subst h
      have hnd : SSM.Nondegenerate (⟨l 0, L 0, A, fun k => l k.succ - A k *ᵥ l k.castSucc, C⟩ :
          SSM n d) := by
        intro b
        refine Fin.cases ?_ (fun k => ?_) b
        · exact ⟨(hL 0).lower, fun i => ((hL 0).diag_pos i).ne'⟩
        · exact ⟨(hC k).lower, fun i => ((hC k).diag_pos i).ne'⟩
      set s : SSM n d := ⟨l 0, L 0, A, fun k => l k.succ - A k *ᵥ l k.castSucc, C⟩ with hs
      have hmus : s.mus = l := by
        apply SSM.IsMeans.unique SSM.mus_isMeans
        exact ⟨rfl, fun k => (by simp [hs])⟩
      have hJ := SSM.Kd_isJointCov (s := s)
      have hcovK : ∀ b, blk s.Kd b b = cov b := by
        intro b
        induction b using Fin.induction with
        | zero => rw [hJ.zero]; exact (hL 0).mul_transpose
        | succ k ih =>
          rw [hJ.succ, ih]
          have : s.Q k = cc k := (hC k).mul_transpose
          rw [this]
          show A k * cov k.castSucc * (A k)ᵀ + (cov k.succ - A k * (cov k.castSucc * (A k)ᵀ)) = _
          rw [Matrix.mul_assoc]; abel
      refine ⟨hnd, hmus, fun b => ?_, fun k => ?_⟩
      · rw [hcovK]; simp [hcov]
      · rw [hJ.cross k _ le_rfl, hcovK]
        show A k * cov k.castSucc + _ = _
        have hAc : A k * cov k.castSucc = (csub k)ᵀ := by
          rw [hA]
          simp only
          rw [cholSolve_eq (hL k.castSucc), transpose_mul, transpose_nonsing_inv, hcovs,
            Matrix.mul_assoc, nonsing_inv_mul _ (isUnit_det (by
              rw [← (hL k.castSucc).mul_transpose]
              exact (posDef_mul_transpose (hL k.castSucc).isUnit).isUnit)), Matrix.mul_one]
        rw [hAc]
        simp [hcsub, transpose_sub, transpose_vecMulVec]

end MF
