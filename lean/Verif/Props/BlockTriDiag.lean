import Verif.Lemmas.UDL

/-!
# Properties C01–C07: block tri-diagonal matrices

`unflat` reads a flat `[N*d, N*d]` matrix with row `b*d+i` called `(b, i)`; `denseLow`, `denseSym`
and `denseDiag` are the block formulas of `Verif/Spec/BlockTriDiag.lean`; `stk` stacks a block
vector.
-/

namespace MF
open Matrix Spec BTD

variable {n d : ℕ}

/-! ### C01 -/

/-- C01: a sub-diagonal is rejected exactly when there is a single block. -/
theorem C01_constructor (sym : Bool) (D : Fin (n + 1) → Mat d d) (S : Option (Fin n → Mat d d)) :
    (init sym D S = .error .invalidArgument ↔ S ≠ none ∧ n = 0) ∧
    (init sym D S = .ok ⟨D, S⟩ ↔ ¬ (S ≠ none ∧ n = 0)) := by
  unfold init
  cases S with
  | none => simp
  | some S => by_cases h : n = 0 <;> simp [h]

/-- C01 (lower): `to_dense()` has the lower triangles of the diagonal blocks on the diagonal, the
sub-diagonal blocks below, zero elsewhere. -/
theorem C01_to_dense_lower (D : Fin (n + 1) → Mat d d) (S : Fin n → Mat d d) :
    unflat (BTD.toDense (⟨D, some S⟩ : LowerBTD n d)) = denseLow (fun b => tril (D b)) S ∧
    unflat (BTD.toDense (⟨D, none⟩ : LowerBTD n d)) = denseDiag (fun b => tril (D b)) := by
  constructor
  · exact unflat_toDense_low _
  · rw [unflat_toDense_low, denseDiag_eq_low]; rfl

/-- C01 (symmetric). -/
theorem C01_to_dense_symmetric (D : Fin (n + 1) → Mat d d) (S : Fin n → Mat d d)
    (hD : ∀ b, (D b)ᵀ = D b) :
    unflat (BTD.toDense (⟨D, some S⟩ : SymBTD n d)) = denseSym D S ∧
    unflat (BTD.toDense (⟨D, none⟩ : SymBTD n d)) = denseDiag D := by
  have hD' : (fun b => symLower (D b)) = D := by funext b; exact symLower_eq (hD b)
  constructor
  · rw [unflat_toDense_sym]
    show denseSym (fun b => symLower (D b)) S = _
    rw [hD']
  · rw [unflat_toDense_sym]
    show denseSym (fun b => symLower (D b)) 0 = _
    rw [hD', denseSym_eq _ _ hD, ← denseDiag_eq_low, denseDiag_transpose]
    simp [hD]

/-- C01 (symmetric, blocks not symmetric): only the lower triangle of each diagonal block counts. -/
theorem C01_to_dense_symmetric_general (M : SymBTD n d) :
    unflat M.toDense = denseSym (fun b => symLower (M.diag b)) (M.sub.getD 0) :=
  unflat_toDense_sym M

/-- Non-vacuity: a 2-block, 2-dimensional instance of the hypotheses of C01 (symmetric). -/
example : ∃ D : Fin (1 + 1) → Mat 2 2, (∀ b, (D b)ᵀ = D b) ∧ D 0 ≠ D 1 :=
  ⟨fun b => if b = 0 then !![2, 1; 1, 3] else !![1, 0; 0, 1], by
    intro b; fin_cases b <;> (ext i j; fin_cases i <;> fin_cases j <;> rfl), by
    intro h
    have := congrFun (congrFun h 0) 0
    norm_num at this⟩

/-! ### C02 -/

/-- C02: `dense_mult` is multiplication by the dense matrix (or its transpose). -/
theorem C02_dense_mult (sym : Bool) (M : BTD sym n d) (v : Fin (n + 1) → Vec d) :
    stk (M.denseMult v) = unflat M.toDense *ᵥ stk v ∧
    stk (M.denseMult v true) = (unflat M.toDense)ᵀ *ᵥ stk v := by
  constructor
  · unfold BTD.denseMult productBandMat BTD.toDense
    cases sym <;> exact stk_unflatten_mulVec _ _
  · unfold BTD.denseMult productBandMat BTD.toDense
    rw [← unflat_transpose]
    cases sym <;> exact stk_unflatten_mulVec _ _

/-! ### C03 -/

/-- C03: `solve` is the unique solution of the triangular system, in both orientations. -/
theorem C03_solve (M : LowerBTD n d) (hd : ∀ b i, M.diag b i i ≠ 0)
    (v w : Fin (n + 1) → Vec d) (t : Bool) :
    M.denseMult w t = v ↔ w = M.solve v t := by
  have hu : IsUnit (unflat M.toDense).det := by
    rw [det_unflat, det_toDense_low, isUnit_iff_ne_zero]
    exact Finset.prod_ne_zero_iff.2 fun b _ => Finset.prod_ne_zero_iff.2 fun i _ => hd b i
  have huT : IsUnit ((unflat M.toDense)ᵀ).det := by rwa [det_transpose]
  have hsolve : stk (M.solve v t) =
      (if t then (unflat M.toDense)ᵀ else unflat M.toDense)⁻¹ *ᵥ stk v := by
    unfold BTD.solve solveTriangMat
    rw [stk_unflatten_mulVec, unflat_inv]
    cases t <;> rfl
  have hmult : stk (M.denseMult w t) =
      (if t then (unflat M.toDense)ᵀ else unflat M.toDense) *ᵥ stk w := by
    cases t
    · exact (C02_dense_mult false M w).1
    · exact (C02_dense_mult false M w).2
  have hdet : IsUnit (if t then (unflat M.toDense)ᵀ else unflat M.toDense).det := by
    cases t
    · exact hu
    · exact huT
  set A := (if t then (unflat M.toDense)ᵀ else unflat M.toDense)
  constructor
  · rintro rfl
    apply stk_injective
    rw [hsolve, hmult, mulVec_mulVec, nonsing_inv_mul _ hdet, one_mulVec]
  · rintro rfl
    apply stk_injective
    rw [hmult, hsolve, mulVec_mulVec, mul_nonsing_inv _ hdet, one_mulVec]

/-- Non-vacuity: the unit bidiagonal system used by `marginal_means`. -/
example : ∀ (b : Fin (2 + 1)) (i : Fin 2),
    (⟨fun _ => 1, some fun _ => !![1, 2; 3, 4]⟩ : LowerBTD 2 2).diag b i i ≠ 0 := by
  intro b i; simp

/-! ### C04 -/

/-- C04: on a positive definite matrix `cholesky` succeeds, and its dense form is the Cholesky
factor (lower triangular, positive diagonal, `L Lᵀ` is the matrix), which is block bi-diagonal. -/
theorem C04_cholesky (M : SymBTD n d) (hd : 0 < d) (hM : init true M.diag M.sub = .ok M)
    (h : M.toDense.PosDef) :
    ∃ C : LowerBTD n d, M.cholesky = .ok C ∧ IsCholesky M.toDense C.toDense ∧
      unflat C.toDense = denseLow C.diag (C.sub.getD 0) ∧ (M.sub = none → C.sub = none) := by
  have hn : M.sub.isSome → 0 < n := by
    intro hs
    by_contra h0
    unfold init at hM
    rw [if_pos ⟨hs, by omega⟩] at hM
    cases hM
  obtain ⟨C, hC, hch, hsub, hlow⟩ := cholesky_ok M hd hn h
  refine ⟨C, hC, hch, ?_, ?_⟩
  · rw [unflat_toDense_low]
    congr 1
    funext b
    exact (hlow b).tril_eq
  · intro hs
    rw [hs] at hsub
    simpa using hsub

/-- C04: on any other matrix it raises. -/
theorem C04_cholesky_raises (M : SymBTD n d) (h : ¬ M.toDense.PosDef) :
    M.cholesky = .error .invalidArgument := cholesky_error M h

/-- Non-vacuity: `[[2,1],[1,1]]` as two 1×1 blocks meets the hypotheses of C04 and C07. -/
example : ∃ M : SymBTD 1 1, init true M.diag M.sub = .ok M ∧ M.sub = some (fun _ => 1) ∧
    M.toDense.PosDef := by
  refine ⟨⟨Fin.cons (2 : Mat 1 1) (fun _ => 1), some fun _ => 1⟩, rfl, rfl, ?_⟩
  set D : Fin (1 + 1) → Mat 1 1 := Fin.cons (2 : Mat 1 1) (fun _ => 1) with hD
  have hsym : ∀ b, (D b)ᵀ = D b := by
    intro b
    refine Fin.cases ?_ (fun _ => ?_) b
    · show (2 : Mat 1 1)ᵀ = 2
      exact transpose_ofNat 2
    · exact transpose_one
  have h1 : ∀ b, schur D (fun _ => 1) b = 1 := by
    intro b
    refine Fin.lastCases ?_ (fun k => ?_) b
    · rw [schur_last]; rfl
    · obtain rfl : k = 0 := Subsingleton.elim _ _
      rw [schur_castSucc, show (0 : Fin 1).succ = Fin.last 1 from rfl, schur_last]
      show (2 : Mat 1 1) - 1ᵀ * (1 : Mat 1 1)⁻¹ * 1 = 1
      rw [transpose_one, inv_one, Matrix.mul_one, Matrix.mul_one]
      norm_num
  rw [← posDef_unflat, (C01_to_dense_symmetric D (fun _ => 1) hsym).1,
    ← udl_factor D _ hsym (fun k => by rw [h1]; exact isUnit_one)]
  have : denseDiag (schur D fun _ => 1) = 1 := by
    rw [← denseDiag_one]; congr 1; funext b; exact h1 b
  rw [this, Matrix.mul_one]
  have := posDef_mul_transpose (M := (denseLow (fun _ => 1) (schurU D fun _ => 1))ᵀ) (by
    rw [Matrix.isUnit_iff_isUnit_det, det_transpose, ← Matrix.isUnit_iff_isUnit_det]
    exact isUnit_low_one _)
  rwa [transpose_transpose] at this

/-! ### C05 -/

/-- C05: the diagonal blocks of `(L Lᵀ)⁻¹`. -/
theorem C05_block_diagonal_of_inverse (M : LowerBTD n d) (b : Fin (n + 1)) :
    M.blockDiagonalOfInverse b = blk ((unflat M.toDense * (unflat M.toDense)ᵀ)⁻¹) b b :=
  blockDiagonalOfInverse_eq M b

/-- C05: `abs_log_det` is the log of the absolute determinant. -/
theorem C05_abs_log_det (M : LowerBTD n d) (hd : ∀ b i, M.diag b i i ≠ 0) :
    M.absLogDet = Real.log |M.toDense.det| := by
  rw [det_toDense_low, Real.log_abs, Real.log_prod (fun b _ => Finset.prod_ne_zero_iff.2
    fun i _ => hd b i), absLogDet, sum_fl, Fintype.sum_prod_type, Finset.mul_sum]
  apply Finset.sum_congr rfl
  intro b _
  rw [Real.log_prod (fun i _ => hd b i), Finset.mul_sum]
  apply Finset.sum_congr rfl
  intro i _
  rw [asBand_zero, Real.log_pow]
  push_cast
  ring

/-! ### C06 -/

/-- C06: addition is dense addition; it never fails on two valid operands. -/
theorem C06_add (sym : Bool) (a b : BTD sym n d) (ha : init sym a.diag a.sub = .ok a)
    (hb : init sym b.diag b.sub = .ok b) :
    ∃ c, a.add b = .ok c ∧ c.toDense = a.toDense + b.toDense := by
  have hva : a.sub.isSome → 0 < n := by
    intro hs; by_contra h0
    unfold init at ha; rw [if_pos ⟨hs, by omega⟩] at ha; cases ha
  have hvb : b.sub.isSome → 0 < n := by
    intro hs; by_contra h0
    unfold init at hb; rw [if_pos ⟨hs, by omega⟩] at hb; cases hb
  refine ⟨⟨fun k => a.diag k + b.diag k, match a.sub with
    | some s => match b.sub with
      | some s' => some (fun k => s k + s' k)
      | none => some s
    | none => b.sub⟩, ?_, ?_⟩
  · unfold BTD.add init
    refine if_neg ?_
    rintro ⟨h1, h2⟩
    cases hs : a.sub with
    | some s => have := hva (by rw [hs]; rfl); omega
    | none =>
      rw [hs] at h1
      have := hvb h1; omega
  · set c : BTD sym n d := ⟨fun k => a.diag k + b.diag k, match a.sub with
        | some s => match b.sub with
          | some s' => some (fun k => s k + s' k)
          | none => some s
        | none => b.sub⟩ with hc
    have hsub : BTD.subD c = fun k => a.subD k + b.subD k := by
      rw [hc]
      unfold BTD.subD
      cases a.sub <;> cases b.sub <;> simp <;> rfl
    have hlow : ∀ (D D' : Fin (n + 1) → Mat d d) (S S' : Fin n → Mat d d),
        denseLow (fun b => D b + D' b) (fun k => S k + S' k) = denseLow D S + denseLow D' S' := by
      intro D D' S S'
      apply blk_ext
      intro x y
      rw [blk_add, blk_denseLow, blk_denseLow, blk_denseLow]
      unfold lowBlk
      split_ifs <;> simp
    have htr : ∀ A B : Mat d d, tril (A + B) = tril A + tril B := by
      intro A B; ext i j
      simp only [tril_apply, Matrix.add_apply]
      split_ifs <;> simp
    have key : unflat (unpackBand ((n + 1) * d) c.bandwidth c.asBand) =
        unflat (unpackBand ((n + 1) * d) a.bandwidth a.asBand) +
        unflat (unpackBand ((n + 1) * d) b.bandwidth b.asBand) := by
      rw [unflat_unpack, unflat_unpack, unflat_unpack, hsub, ← hlow]
      simp only [hc, htr]
    apply unflat_injective
    rw [unflat_add]
    unfold BTD.toDense
    cases sym
    · exact key
    · simp only [if_true]
      rw [unflat_symmetrise, unflat_symmetrise, unflat_symmetrise, key]
      ext p q
      simp only [symmetrise, Matrix.sub_apply, Matrix.add_apply, transpose_apply, diagonal_apply]
      split_ifs <;> ring

example : init true (fun _ => 1 : Fin (2 + 1) → Mat 2 2) (some fun _ => 1) =
    .ok ⟨fun _ => 1, some fun _ => 1⟩ := rfl

/-! ### C07 -/

/-- C07: on a positive definite matrix with a sub-diagonal, `upper_diagonal_lower` does not fail
and returns `(Uᵀ, chol_D)` with `U D Uᵀ = K`: `Uᵀ` is unit lower block bi-diagonal and the blocks of
`chol_D` are Cholesky factors. -/
theorem C07_upper_diagonal_lower (D : Fin (n + 1) → Mat d d) (S : Fin n → Mat d d) (hn : 0 < n)
    (h : (BTD.toDense (⟨D, some S⟩ : SymBTD n d)).PosDef) :
    ∃ (us : Fin n → Mat d d) (chols : Fin (n + 1) → Mat d d),
      BTD.upperDiagonalLower ⟨D, some S⟩ = .ok (⟨fun _ => 1, some us⟩, ⟨chols, none⟩) ∧
      (∀ b, LowerTri (chols b) ∧ ∀ i, 0 < chols b i i) ∧
      (denseLow (fun _ => 1) us)ᵀ * (denseDiag chols * (denseDiag chols)ᵀ) *
        denseLow (fun _ => 1) us = unflat (BTD.toDense (⟨D, some S⟩ : SymBTD n d)) := by
  rw [← posDef_unflat, unflat_toDense_sym] at h
  have h' : (denseSym (fun b => symLower (D b)) S).PosDef := h
  obtain ⟨cs, hcs, hch⟩ := udlLoop_ok D S h'
  have hus : (fun k : Fin n => cholSolve (cs k.succ) (S k)) =
      schurU (fun b => symLower (D b)) S := by
    funext k
    rw [cholSolve_eq (hch k.succ)]; rfl
  refine ⟨schurU (fun b => symLower (D b)) S, cs, ?_, fun b => ⟨(hch b).lower, (hch b).diag_pos⟩, ?_⟩
  · unfold BTD.upperDiagonalLower
    simp only [hcs, bind, Except.bind, hus]
    unfold init
    simp only [Option.isSome_some, Option.isSome_none]
    simp [hn, pure, Except.pure]
  · rw [denseDiag_transpose, denseDiag_mul]
    have hD : (fun b => cs b * (cs b)ᵀ) = schur (fun b => symLower (D b)) S := by
      funext b; exact (hch b).mul_transpose
    rw [hD, unflat_toDense_sym]
    apply udl_factor
    · intro b
      have := posDef_blk h' b
      rw [blk_denseSym, symBlk_self] at this
      exact posDef_transpose this
    · intro k; exact (hch k.succ).posDef.isUnit

/-- C07: on a matrix that is not positive definite the call raises. -/
theorem C07_not_posdef_raises (D : Fin (n + 1) → Mat d d) (S : Fin n → Mat d d)
    (h : ¬ (BTD.toDense (⟨D, some S⟩ : SymBTD n d)).PosDef) :
    BTD.upperDiagonalLower (⟨D, some S⟩ : SymBTD n d) = .error .invalidArgument := by
  rw [← posDef_unflat, unflat_toDense_sym] at h
  unfold BTD.upperDiagonalLower
  simp only [udlLoop_error D S h, bind, Except.bind]

/-- C07: without a sub-diagonal the call is an assertion failure. -/
theorem C07_no_sub_diagonal (D : Fin (n + 1) → Mat d d) :
    BTD.upperDiagonalLower (⟨D, none⟩ : SymBTD n d) = .error .assertion := rfl

end MF
