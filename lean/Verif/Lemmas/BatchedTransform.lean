import Verif.Lemmas.BatchedPosterior
import Verif.Spec.BatchedVariational

/-!
# `ssm_gaussian_transformations.py` on tensors, per batch element
-/

namespace MF
open Tensor Spec Matrix
variable {n d : ℕ} {bs : List ℕ}

theorem expand_cols {k u x} {f : List ℕ → Fin k → Vec d} (hx : HoldsVecs u x f) :
    HoldsMats u (expand 0 x) fun b t => Matrix.of fun i (_ : Fin 1) => f b t i :=
  holdsMats_iff.2 ((expand_col (holdsVecs_iff.1 hx)).congr (forall_inRange_cons.2 fun b _ t => by simp only [lift_fin]))

theorem index_cols {k r c u x} {A : List ℕ → Fin k → Mat r c} (hx : HoldsMats u x A) (j : Fin c) :
    HoldsVecs u (index 0 j x) fun b t i => A b t i j :=
  holdsVecs_iff.2 ((index_col (holdsMats_iff.1 hx) j).congr (forall_inRange_cons.2 fun b _ t => by simp only [lift_fin]))

theorem triSolve_mats {k c u x y} {A : List ℕ → Fin k → Mat d d} {B : List ℕ → Fin k → Mat d c} (hx : HoldsMats u x A)
    (hy : HoldsMats u y B) (adj : Bool) : ∃ z, triSolveT x y adj = .ok z ∧ HoldsMats u z fun b t => triSolve (A b t) (B b t) adj := by
  obtain ⟨z, hz, h⟩ := triSolve_mat (holdsMats_iff.1 hx) (holdsMats_iff.1 hy) adj
  exact ⟨z, hz, holdsMats_iff.2 (h.congr (forall_inRange_cons.2 fun b _ t => by simp only [lift_fin]))⟩

theorem smul_mats {k r c u x} {A : List ℕ → Fin k → Mat r c} (a : ℝ) (hx : HoldsMats u x A) :
    HoldsMats u (x.map (a * ·)) fun b t => a • A b t :=
  holdsMats_iff.2 ((map_mat (a * ·) (holdsMats_iff.1 hx)).congr (forall_inRange_cons.2 fun b _ t => by
    simp only [lift_fin]; ext i j; simp))

theorem col_mul_transpose (v w : Vec d) :
    (Matrix.of fun i (_ : Fin 1) => v i) * (Matrix.of fun i (_ : Fin 1) => w i)ᵀ = vecMulVec v w := by
  ext i j
  simp [Matrix.mul_apply, vecMulVec]

theorem mul_col {r : ℕ} (A : Mat r d) (v : Vec d) :
    A * (Matrix.of fun i (_ : Fin 1) => v i) = Matrix.of fun i (_ : Fin 1) => (A *ᵥ v) i := by
  ext i j
  simp [Matrix.mul_apply, mulVec, dotProduct]

theorem cholSolve_col (C : Mat d d) (v : Vec d) :
    cholSolve C (Matrix.of fun i (_ : Fin 1) => v i) = Matrix.of fun i (_ : Fin 1) => (cholSolve C (replicateCol Unit v)).col () i := by
  ext i j
  simp [cholSolve, Matrix.mul_apply, Matrix.col]

/-! ### Expectation parameters -/

theorem ssmToExpectations_holds (hbs : ∀ k ∈ bs, 0 < k) {S : TSSM} {s : List ℕ → SSM n d} (h : HoldsSSM bs S s) :
    Elementwise bs (HoldsTriple bs) (tensorSsmToExpectations S) fun b => ssmToExpectations (s b) := by
  rcases marginalMeans_holds hbs h with ⟨m, m', hm, hmh, hm'⟩ | ⟨e, hm, b, hb, hm'⟩
  swap
  · exact .inr ⟨e, by simp only [tensorSsmToExpectations, hm, Bind.bind, Except.bind], b, hb, by
      simp only [ssmToExpectations, hm', Bind.bind, Except.bind]⟩
  rcases marginalCovariances_holds hbs h with ⟨c, c', hc, hch, hc'⟩ | ⟨e, hc, b, hb, hc'⟩
  swap
  · exact .inr ⟨e, by simp only [tensorSsmToExpectations, hm, hc, Bind.bind, Except.bind], b, hb, by
      simp only [ssmToExpectations, hm' b hb, hc', Bind.bind, Except.bind]⟩
  have hM := expand_cols hmh
  obtain ⟨z1, hz1, h1⟩ := matmul_mats hM (matT_mats hM)
  obtain ⟨z2, hz2, h2⟩ := plus_mats hch h1
  obtain ⟨z3, hz3, h3⟩ := matmul_mats h.A (sliceDrop_mats hch)
  obtain ⟨z4, hz4, h4⟩ := matmul_mats (sliceFrom_mats hM) (matT_mats (sliceDrop_mats hM))
  obtain ⟨z5, hz5, h5⟩ := plus_mats h3 h4
  refine .inl ⟨(index 0 0 (expand 0 m), z2, z5), fun b => (m' b, fun t => c' b t + vecMulVec (m' b t) (m' b t),
    fun k => (s b).A k * c' b k.castSucc + vecMulVec (m' b k.succ) (m' b k.castSucc)), ?_, ⟨?_, ?_, ?_⟩, fun b hb => ?_⟩
  · simp only [tensorSsmToExpectations, hm, hc, hz1, hz2, hz3, hz4, hz5, Bind.bind, Except.bind, Pure.pure, Except.pure]
  · exact index_cols hM 0
  · exact h2.congr fun b _ => by simp only [col_mul_transpose]
  · exact h5.congr fun b _ => by simp only [col_mul_transpose]
  · simp only [ssmToExpectations, hm' b hb, hc' b hb, Bind.bind, Except.bind, Pure.pure, Except.pure]

theorem expectationsToSSM_holds {L D U : Tensor} {l : List ℕ → Fin (n + 1) → Vec d} {D' : List ℕ → Fin (n + 1) → Mat d d}
    {U' : List ℕ → Fin n → Mat d d} (hL : HoldsVecs bs L l) (hD : HoldsMats bs D D') (hU : HoldsMats bs U U') :
    Elementwise bs (HoldsSSM bs) (tensorExpectationsToSSM L D U) fun b => expectationsToSSM (l b) (D' b) (U' b) := by
  have hM := expand_cols hL
  obtain ⟨z1, hz1, h1⟩ := matmul_mats hM (matT_mats hM)
  obtain ⟨z2, hz2, h2⟩ := minus_mats hD h1
  obtain ⟨z3, hz3, h3⟩ := matmul_mats (sliceDrop_mats hM) (matT_mats (sliceFrom_mats hM))
  obtain ⟨z4, hz4, h4⟩ := minus_mats (matT_mats hU) h3
  simp only [col_mul_transpose] at h2 h4
  rcases cholesky_mats h2 with ⟨c, c', hc, hch, hc'⟩ | ⟨e, hc, b, hb, hc'⟩
  swap
  · exact .inr ⟨e, by simp only [tensorExpectationsToSSM, hz1, hz2, hz3, hz4, hc, Bind.bind, Except.bind], b, hb, by
      simp only [expectationsToSSM, hc', Bind.bind, Except.bind]⟩
  obtain ⟨z5, hz5, h5⟩ := cholSolve_mats (sliceDrop_mats hch) h4
  have hA := matT_mats h5
  obtain ⟨z6, hz6, h6⟩ := matmul_mats hA (sliceDrop_mats hM)
  obtain ⟨z7, hz7, h7⟩ := minus_mats (sliceFrom_mats hM) h6
  obtain ⟨z8, hz8, h8⟩ := matmul_mats (sliceDrop_mats h2) (matT_mats hA)
  obtain ⟨z9, hz9, h9⟩ := matmul_mats hA h8
  obtain ⟨z10, hz10, h10⟩ := minus_mats (sliceFrom_mats h2) h9
  rcases cholesky_mats h10 with ⟨q, q', hq, hqh, hq'⟩ | ⟨e, hq, b, hb, hq'⟩
  swap
  · exact .inr ⟨e, by simp only [tensorExpectationsToSSM, hz1, hz2, hz3, hz4, hc, hz5, hz6, hz7, hz8, hz9, hz10, hq, Bind.bind, Except.bind], b, hb, by
      have e1 := hc' b hb
      simp only [expectationsToSSM, e1, hq', Bind.bind, Except.bind]⟩
  refine .inl ⟨⟨index 1 0 (index 0 0 (expand 0 L)), index 2 0 c, z5.matT, index 0 0 z7, q⟩, fun b => ⟨l b 0, c' b 0,
    fun k => (cholSolve (c' b k.castSucc) ((U' b k)ᵀ - vecMulVec (l b k.castSucc) (l b k.succ)))ᵀ,
    fun k => l b k.succ - (cholSolve (c' b k.castSucc) ((U' b k)ᵀ - vecMulVec (l b k.castSucc) (l b k.succ)))ᵀ *ᵥ l b k.castSucc, q' b⟩, ?_, ⟨?_, ?_, ?_, ?_, ?_⟩, fun b hb => ?_⟩
  · simp only [tensorExpectationsToSSM, hz1, hz2, hz3, hz4, hc, hz5, hz6, hz7, hz8, hz9, hz10, hq, Bind.bind, Except.bind, Pure.pure, Except.pure]
  · exact index_vecs (index_cols hM 0) 0
  · exact index_mats hch 0
  · exact hA
  · refine (index_cols h7 0).congr fun b _ => ?_
    funext k i
    simp only [mul_col]
    simp
  · exact hqh
  · have e1 := hc' b hb
    have e2 := hq' b hb
    simp only [expectationsToSSM, e1, e2, Bind.bind, Except.bind, Pure.pure, Except.pure]

/-! ### Natural parameters -/

theorem ssmToNaturals_holds (hn : 0 < n) {S : TSSM} {s : List ℕ → SSM n d} (h : HoldsSSM bs S s) :
    ∃ x, tensorSsmToNaturals S = .ok x ∧ HoldsTriple bs x fun b => ssmToNaturals (s b) := by
  obtain ⟨o, ho, hoh⟩ := concatOffsets_holds h
  obtain ⟨c, hc, hch⟩ := concatChol_holds h
  obtain ⟨hbatch, hdim, -⟩ := ssm_dims h
  obtain ⟨z1, hz1, h1⟩ := triSolve_mats (sliceFrom_mats hch) h.A false
  obtain ⟨z2, hz2, h2⟩ := triSolve_mats (sliceFrom_mats hch) h1 true
  obtain ⟨z3, hz3, h3⟩ := cholSolve_mats hch (expand_cols hoh)
  obtain ⟨z4, hz4, h4⟩ := matmul_mats (matT_mats h.A) (sliceFrom_mats h3)
  obtain ⟨z5, hz5, h5⟩ := minus_mats (sliceDrop_mats h3) h4
  have e3 : z3.dim 2 - 1 = n := by simp [dim, h3.1]
  obtain ⟨z6, hz6, h6⟩ := snoc_mats h5 (sliceLast_mats h3)
  obtain ⟨z7, hz7, h7⟩ := matmul_mats (matT_mats h1) h1
  have e7 : (sliceTo 2 1 z7).shape = d :: d :: 1 :: bs := by
    simp [sliceTo, h7.1, modifyAt, hn, Nat.succ_le_of_lt]
  obtain ⟨z8, hz8, h8⟩ := snoc_mats h7 (zeros_mats 1 d d bs)
  have ec : c.shape.drop 2 = (n + 1) :: bs := by simp [hch.1]
  obtain ⟨z9, hz9, h9⟩ := cholSolve_mats hch (eye_mats d (n + 1) bs)
  obtain ⟨z10, hz10, h10⟩ := plus_mats h9 h8
  refine ⟨(index 0 0 z6, z10.map (-(1 / 2 : ℝ) * ·), z2), ?_, ?_, ?_, ?_⟩
  · simp only [tensorSsmToNaturals, ho, hc, hz1, hz2, hz3, hz4, hz5, e3, hz6, hz7, e7, hz8, ec, hdim, hz9, hz10, Bind.bind, Except.bind,
      Pure.pure, Except.pure]
  · refine (index_cols h6 0).congr fun b _ => ?_
    funext t i
    simp only [ssmToNaturals]
    refine Fin.lastCases ?_ (fun k => ?_) t
    · simp only [Fin.snoc_last]
      rw [cholSolve_col]
      rfl
    · simp only [Fin.snoc_castSucc]
      rw [cholSolve_col, cholSolve_col, mul_col]
      rfl
  · exact (smul_mats (-(1 / 2)) h10).congr fun b _ => rfl
  · exact h2.congr fun b _ => rfl

theorem ssmToNaturalsNoSmoothing_holds {S : TSSM} {s : List ℕ → SSM n d} (h : HoldsSSM bs S s) :
    ∃ x, tensorSsmToNaturalsNoSmoothing S = .ok x ∧ HoldsTriple bs x fun b => ssmToNaturalsNoSmoothing (s b) := by
  obtain ⟨o, ho, hoh⟩ := concatOffsets_holds h
  obtain ⟨c, hc, hch⟩ := concatChol_holds h
  obtain ⟨hbatch, hdim, -⟩ := ssm_dims h
  obtain ⟨z1, hz1, h1⟩ := cholSolve_mats (sliceFrom_mats hch) h.A
  obtain ⟨z3, hz3, h3⟩ := cholSolve_mats hch (expand_cols hoh)
  have ec : c.shape.drop 2 = (n + 1) :: bs := by simp [hch.1]
  obtain ⟨z9, hz9, h9⟩ := cholSolve_mats hch (eye_mats d (n + 1) bs)
  refine ⟨(index 0 0 z3, z9.map (-(1 / 2 : ℝ) * ·), z1), ?_, ?_, ?_, ?_⟩
  · simp only [tensorSsmToNaturalsNoSmoothing, ho, hc, hz1, hz3, ec, hdim, hz9, Bind.bind, Except.bind, Pure.pure, Except.pure]
  · refine (index_cols h3 0).congr fun b _ => ?_
    funext t i
    rw [cholSolve_col]
    rfl
  · exact (smul_mats (-(1 / 2)) h9).congr fun b _ => rfl
  · exact h1.congr fun b _ => rfl

theorem naturalsToSSMNoSmoothing_holds {L D U : Tensor} {l : List ℕ → Fin (n + 1) → Vec d} {D' : List ℕ → Fin (n + 1) → Mat d d}
    {U' : List ℕ → Fin n → Mat d d} (hL : HoldsVecs bs L l) (hD : HoldsMats bs D D') (hU : HoldsMats bs U U') :
    Elementwise bs (HoldsSSM bs) (tensorNaturalsToSSMNoSmoothing L D U) fun b => naturalsToSSMNoSmoothing (l b) (D' b) (U' b) := by
  rcases cholesky_mats (smul_mats (-2) hD) with ⟨c, c', hc, hch, hc'⟩ | ⟨e, hc, b, hb, hc'⟩
  swap
  · exact .inr ⟨e, by simp only [tensorNaturalsToSSMNoSmoothing, hc, Bind.bind, Except.bind], b, hb, by
      simp only [naturalsToSSMNoSmoothing, hc', Bind.bind, Except.bind]⟩
  obtain ⟨z1, hz1, h1⟩ := cholSolve_mats (sliceFrom_mats hch) hU
  obtain ⟨z2, hz2, h2⟩ := cholSolve_mats hch (expand_cols hL)
  obtain ⟨z3, hz3, h3⟩ := cholSolve_mats hch (eye_mats d (n + 1) bs)
  have e0 : c.dim 0 = d := by simp [dim, hch.1]
  have e1 : (index 0 0 (index 0 0 c)).shape = (n + 1) :: bs := by simp [index, removeAt, hch.1]
  rcases cholesky_mats h3 with ⟨q, q', hq, hqh, hq'⟩ | ⟨e, hq, b, hb, hq'⟩
  swap
  · exact .inr ⟨e, by simp only [tensorNaturalsToSSMNoSmoothing, hc, hz1, hz2, e0, e1, hz3, hq, Bind.bind, Except.bind], b, hb, by
      have e2 := hc' b hb
      simp only [naturalsToSSMNoSmoothing, e2, hq', Bind.bind, Except.bind]⟩
  have ho : HoldsVecs bs (index 0 0 z2) fun b t => (cholSolve (c' b t) (replicateCol Unit (l b t))).col () :=
    (index_cols h2 0).congr fun b _ => by funext t i; rw [cholSolve_col]; rfl
  refine .inl ⟨⟨index 1 0 (index 0 0 z2), index 2 0 q, z1, index 0 0 (sliceFrom 2 1 z2), sliceFrom 2 1 q⟩, fun b =>
    ⟨(cholSolve (c' b 0) (replicateCol Unit (l b 0))).col (), q' b 0, fun k => cholSolve (c' b k.succ) (U' b k),
      fun k => (cholSolve (c' b k.succ) (replicateCol Unit (l b k.succ))).col (), fun k => q' b k.succ⟩, ?_, ⟨?_, ?_, ?_, ?_, ?_⟩, fun b hb => ?_⟩
  · simp only [tensorNaturalsToSSMNoSmoothing, hc, hz1, hz2, e0, e1, hz3, hq, Bind.bind, Except.bind, Pure.pure, Except.pure]
  · exact index_vecs ho 0
  · exact index_mats hqh 0
  · exact h1
  · refine (index_cols (sliceFrom_mats h2) 0).congr fun b _ => ?_
    funext t i
    rw [cholSolve_col]
    rfl
  · exact sliceFrom_mats hqh
  · have e2 := hc' b hb
    have e3 := hq' b hb
    simp only [naturalsToSSMNoSmoothing, e2, e3, Bind.bind, Except.bind, Pure.pure, Except.pure]

/-! ### Natural parameters to state space models -/

theorem bandToBlock_sym_holds {N rows d : ℕ} {x : Tensor} {B : List ℕ → T2} (hx : HoldsBand N rows bs x B) (hd : 0 < d) (hr : d ≤ rows)
    (hN : d ∣ N) : HoldsBand N rows bs (bandToBlockT d true x) fun b => bandToBlock d true (B b) := by
  refine ⟨by simp [bandToBlockT, hx.1], fun b hb r j hr' hj => ?_⟩
  simp only [bandToBlockT, bandToBlock, arrayAt, if_true]
  have h3 := Nat.mod_lt j hd
  split_ifs with h1
  · exact hx.2 b hb _ _ (by omega) hj
  · obtain ⟨k, rfl⟩ := hN
    refine hx.2 b hb _ _ (by omega) ?_
    have h4 : j / d < k := Nat.div_lt_of_lt_mul hj
    calc j / d * d + r < j / d * d + d := by omega
      _ = d * (j / d + 1) := by ring
      _ ≤ d * k := Nat.mul_le_mul_left _ h4

theorem matT_band {N rows : ℕ} {x : Tensor} {B : List ℕ → T2} (hx : HoldsBand N rows bs x B) :
    HoldsBand rows N bs x.matT fun b => transpose2 (B b) :=
  ⟨by simp only [matT, hx.1], fun b hb i j hi hj => hx.2 b hb j i hj hi⟩

theorem inverseFromCholeskyBand_holds {N rows w : ℕ} {x : Tensor} {B : List ℕ → T2} (hx : HoldsBand N rows bs x B) (hr : 0 < rows)
    (hw : w = rows - 1) :
    HoldsBand N rows bs (inverseFromCholeskyBandT x) fun b => inverseFromCholeskyBand N w (B b) := by
  subst hw
  refine ⟨by simp [inverseFromCholeskyBandT, hx.1, ofMats], fun b hb i j hi hj => ?_⟩
  simp only [inverseFromCholeskyBandT, hx.1, ofMats, entry]
  rw [dif_pos ⟨hi, hj⟩]
  unfold inverseFromCholeskyBand
  rw [unpackBand_congr (B := x.arrayAt b) (B' := B b) (fun _ => hr) fun k j hk hj => hx.2 b hb k j hk hj]

theorem solveTriangBandLeftT_holds {N rl rr wl wr : ℕ} {x y : Tensor} {A B : List ℕ → T2} (hx : HoldsBand N rl bs x A)
    (hy : HoldsBand N rr bs y B) (hl : 0 < rl) (hr : 0 < rr) (hwl : wl = rl - 1) (hwr : wr = rr - 1) :
    ∃ z, solveTriangBandLeftT x y = .ok z ∧ HoldsBand N rr bs z fun b => solveTriangBandT N wl wr (A b) (B b) := by
  subst hwl hwr
  refine ⟨_, by simp only [solveTriangBandLeftT, hx.1, hy.1, if_true, bshape_left (BT.refl bs), Bind.bind, Except.bind]; rfl, rfl,
    fun b hb i j hi hj => ?_⟩
  simp only [ofMats, entry]
  rw [dif_pos ⟨hi, hj⟩, bidx_self hb]
  unfold solveTriangBandT
  rw [unpackBand_congr (B := x.arrayAt b) (B' := A b) (fun _ => hl) fun k j hk hj => hx.2 b hb k j hk hj,
    unpackBand_congr (B := y.arrayAt b) (B' := B b) (fun _ => hr) fun k j hk hj => hy.2 b hb k j hk hj]

theorem onlyInvalid_solve {c : ℕ} (A : Mat d d) (B : Mat d c) : OnlyInvalid (tfSolve A B) := by
  intro e h
  unfold tfSolve at h
  split_ifs at h
  exact (Except.error.inj h).symm

theorem solveT_mats {m c u x y} {A : List ℕ → Fin m → Mat d d} {B : List ℕ → Fin m → Mat d c} (hx : HoldsMats u x A)
    (hy : HoldsMats u y B) :
    Elementwise u (HoldsMats u) (solveT x y) fun b => seqFin fun t => tfSolve (A b t) (B b t) := by
  have hx' := holdsMats_iff.1 hx
  have hy' := holdsMats_iff.1 hy
  have h0 : Elementwise (m :: u) (HoldsMat (m :: u)) (solveT x y) fun b => tfSolve (lift A b) (lift B b) := by
    have : solveT x y = batched (m :: u) fun b => tfSolve (x.matAt d d b) (y.matAt d c b) := by
      simp only [solveT, hx'.1, hy'.1, and_self, if_true]
    rw [this]
    exact (batched_mat _ fun b _ => onlyInvalid_solve _ _).congr fun b hb => by rw [hx'.matAt hb, hy'.matAt hb]
  have h := h0.seq (Y := fun b t => tfSolve (A b t) (B b t)) (fun b _ t => by rw [lift_fin, lift_fin])
    (fun b t => onlyInvalid_solve _ _) fun x y y' h e => h.congr e
  rcases h with ⟨x, y, hx, hr, hy⟩ | h
  · exact .inl ⟨x, y, hx, holdsMats_iff.2 hr, hy⟩
  · exact .inr h

theorem cholesky_sub {M : SymBTD n d} {C : LowerBTD n d} {S : Fin n → Mat d d} (hs : M.sub = some S) (h : M.cholesky = .ok C) :
    0 < d ∧ ∃ q, C.sub = some q := by
  obtain ⟨band, -, h2⟩ := exBind_ok h
  have hb : M.bandwidth + 1 = if 0 < d then 2 * d else 1 := by
    simp only [BTD.bandwidth, hs, Option.isSome_some, if_true]
    split_ifs <;> omega
  have hd : 0 < d := by
    rcases Nat.eq_zero_or_pos d with rfl | hd
    · simp [BTD.bandedToBlockTri] at h2
    · exact hd
  refine ⟨hd, ?_⟩
  rw [hb, if_pos hd] at h2
  simp only [BTD.bandedToBlockTri, Nat.mul_div_cancel _ hd, or_true, if_true] at h2
  unfold BTD.init at h2
  split_ifs at h2
  rw [← Except.ok.inj h2]
  exact ⟨_, rfl⟩

theorem naturalsToSSM_holds (hbs : ∀ k ∈ bs, 0 < k) {L D U : Tensor} {l : List ℕ → Fin (n + 1) → Vec d}
    {D' : List ℕ → Fin (n + 1) → Mat d d} {U' : List ℕ → Fin n → Mat d d} (hL : HoldsVecs bs L l) (hD : HoldsMats bs D D')
    (hU : HoldsMats bs U U') :
    Elementwise bs (HoldsSSM bs) (tensorNaturalsToSSM L D U) fun b => naturalsToSSM (l b) (D' b) (U' b) := by
  rcases init_holds hbs true (smul_mats (-2) hD) (.inr ⟨_, _, rfl, neg_mats hU, fun b _ => rfl⟩) with
    ⟨P, p, hP, hPh, hP'⟩ | ⟨e, hP, b, hb, hP'⟩
  swap
  · exact .inr ⟨e, by simp only [tensorNaturalsToSSM, hP, Bind.bind, Except.bind], b, hb, by
      simp only [naturalsToSSM, hP', Bind.bind, Except.bind]⟩
  rcases btd_cholesky_holds hbs hPh with ⟨C, c, hC, hCh, hC'⟩ | ⟨e, hC, b, hb, hC'⟩
  swap
  · exact .inr ⟨e, by simp only [tensorNaturalsToSSM, hP, hC, Bind.bind, Except.bind], b, hb, by
      have e1 := hP' b hb
      simp only [naturalsToSSM, e1, hC', Bind.bind, Except.bind]⟩
  obtain ⟨hi, ho, hbat⟩ := btd_dims hPh
  obtain ⟨hiC, -, -⟩ := btd_dims hCh
  -- the sub-diagonals are present
  obtain ⟨b0, hb0⟩ := inRange_exists hbs
  have hps : ∀ b, InRange b bs → (p b).sub = some fun k => -U' b k := fun b hb => by
    have := hP' b hb
    dsimp only at this
    unfold BTD.init at this
    split_ifs at this
    rw [← Except.ok.inj this]
  have hd : 0 < d := (cholesky_sub (hps b0 hb0) (hC' b0 hb0)).1
  have hPr : bandRows P = 2 * d := by
    rcases hPh.2 with ⟨-, h2⟩ | ⟨t, S, h1, -, -⟩
    · have := h2 b0 hb0
      rw [hps b0 hb0] at this
      cases this
    · simp [bandRows, h1, hi]
  have hCr : bandRows C = 2 * d := by
    rcases hCh.2 with ⟨-, h2⟩ | ⟨t, S, h1, -, -⟩
    · obtain ⟨-, q, hq⟩ := cholesky_sub (hps b0 hb0) (hC' b0 hb0)
      rw [h2 b0 hb0] at hq
      cases hq
    · simp [bandRows, h1, hiC]
  have hPw : ∀ b, InRange b bs → (p b).bandwidth = 2 * d - 1 := fun b hb => by rw [btd_bandwidth hPh hb, bandwidth_rows, hPr]
  have hCw : ∀ b, InRange b bs → (c b).bandwidth = 2 * d - 1 := fun b hb => by rw [btd_bandwidth hCh hb, bandwidth_rows, hCr]
  -- blocks of the covariance
  obtain ⟨z, hz, hzs, hzv⟩ := asBand_holds hCh
  rw [hCr] at hzs hzv
  have hB : HoldsBand ((n + 1) * d) (2 * d) bs z fun b => (c b).asBand := ⟨hzs, hzv⟩
  obtain ⟨w, hw, hws, hwv⟩ := reshape23_holds (k := n + 1) (s1 := d) (s2 := 2 * d)
    (matT_band (bandToBlock_sym_holds (inverseFromCholeskyBand_holds hB (w := 2 * d - 1) (by omega) rfl) hd (by omega) (Dvd.intro_left _ rfl)))
    (by ring)
  let blk : List ℕ → T3 := fun b => reshape23 (2 * d) d (2 * d)
    (transpose2 (bandToBlock d true (inverseFromCholeskyBand ((n + 1) * d) (2 * d - 1) (c b).asBand)))
  have hM : HoldsMats bs (sliceTo 0 d w) fun b (t : Fin (n + 1)) => (Matrix.of fun i j : Fin d => blk b t i j : Mat d d) := by
    refine ⟨by simp [sliceTo, modifyAt, hws]; omega, fun b hb t i j => ?_⟩
    exact hwv b hb t i j t.2 i.2 (by omega)
  have hSd : HoldsMats bs (lastCols d w) fun b (t : Fin (n + 1)) => (Matrix.of fun i j : Fin d => blk b t i (d + j) : Mat d d) := by
    have ew : w.dim 0 - d = d := by simp [dim, hws]; omega
    refine ⟨by simp [lastCols, sliceFrom, modifyAt, hws, dim]; omega, fun b hb t i j => ?_⟩
    simp only [lastCols, ew, sliceFrom, modifyAt, Matrix.of_apply]
    rw [add_comm (j : ℕ) d]
    exact hwv b hb t i (d + j) t.2 i.2 (by omega)
  have hblk : ∀ b, InRange b bs → blk b = reshape23 (2 * d) d (2 * d)
      (transpose2 (bandToBlock d true (inverseFromCholeskyBand ((n + 1) * d) (c b).bandwidth (c b).asBand))) := fun b hb => by
    simp only [blk, hCw b hb]
  rcases solveT_mats hM hSd with ⟨v, v', hv, hvh, hv'⟩ | ⟨e, hv, b, hb, hv'⟩
  swap
  · refine .inr ⟨e, by simp only [tensorNaturalsToSSM, hP, hC, hz, hi, ho, hbat, hw, hv, Bind.bind, Except.bind], b, hb, ?_⟩
    have e1 := hP' b hb
    have e2 := hC' b hb
    have e3 := hblk b hb
    dsimp only at hv'
    rw [e3] at hv'
    simp only [naturalsToSSM, e1, e2, hv', Bind.bind, Except.bind]
  have hA := sliceDrop_mats (matT_mats hvh)
  rcases init_holds hbs false (eye_mats d (n + 1) bs) (.inr ⟨_, _, rfl, neg_mats hA, fun b _ => rfl⟩) with
    ⟨I, i', hI, hIh, hI'⟩ | ⟨e, hI, b, hb, hI'⟩
  swap
  · refine .inr ⟨e, by simp only [tensorNaturalsToSSM, hP, hC, hz, hi, ho, hbat, hw, hv, hI, Bind.bind, Except.bind], b, hb, ?_⟩
    have e1 := hP' b hb
    have e2 := hC' b hb
    have e3 := hblk b hb
    have e4 := hv' b hb
    dsimp only at e4 hI'
    rw [e3] at e4
    simp only [naturalsToSSM, e1, e2, e4, hI', Bind.bind, Except.bind]
  have hIs : ∀ b, InRange b bs → (i' b).sub = some fun k => -(v' b k.castSucc)ᵀ := fun b hb => by
    have := hI' b hb
    dsimp only at this
    unfold BTD.init at this
    split_ifs at this
    rw [← Except.ok.inj this]
  obtain ⟨hiI, -, -⟩ := btd_dims hIh
  have hIr : bandRows I = 2 * d := by
    rcases hIh.2 with ⟨-, h2⟩ | ⟨t, S, h1, -, -⟩
    · have := h2 b0 hb0
      rw [hIs b0 hb0] at this
      cases this
    · simp [bandRows, h1, hiI]
  have hIw : ∀ b, InRange b bs → (i' b).bandwidth = 2 * d - 1 := fun b hb => by rw [btd_bandwidth hIh hb, bandwidth_rows, hIr]
  obtain ⟨aI, haI, haIs, haIv⟩ := asBand_holds hIh
  obtain ⟨aP, haP, haPs, haPv⟩ := asBand_holds hPh
  rw [hIr] at haIs haIv
  rw [hPr] at haPs haPv
  obtain ⟨t, ht, hth⟩ := solveTriangBandLeftT_holds (wl := 2 * d - 1) (wr := 2 * d - 1) (A := fun b => (i' b).asBand)
    (B := fun b => (p b).asBand) ⟨haIs, haIv⟩ ⟨haPs, haPv⟩ (by omega) (by omega) rfl rfl
  have hbt := bandToBlock_sym_holds hth hd (by omega) (Dvd.intro_left _ rfl)
  let T : List ℕ → T2 := fun b => fun r c => if r < d then
    bandToBlock d true (solveTriangBandT ((n + 1) * d) (2 * d - 1) (2 * d - 1) (i' b).asBand (p b).asBand) r c else 0
  have hT : HoldsBand ((n + 1) * d) d bs (sliceTo 1 d (bandToBlockT d true t)) T := by
    refine ⟨by simp [sliceTo, modifyAt, hbt.1]; omega, fun b hb i j hi hj => ?_⟩
    simp only [T, if_pos hi]
    exact hbt.2 b hb i j (by omega) hj
  have hTe : ∀ b, InRange b bs → T b = fun r c => if r < d then bandToBlock d true
      (solveTriangBandT ((n + 1) * d) (i' b).bandwidth (p b).bandwidth (i' b).asBand (p b).asBand) r c else 0 := fun b hb => by
    simp only [T, hIw b hb, hPw b hb]
  obtain ⟨y, hy, hys, hyv⟩ := reshape23_holds (k := n + 1) (s1 := d) (s2 := d) (matT_band hT) (by ring)
  have hY : HoldsMats bs y fun b (t : Fin (n + 1)) => (Matrix.of fun i j : Fin d => reshape23 d d d (transpose2 (T b)) t i j : Mat d d) :=
    ⟨hys, fun b hb t i j => hyv b hb t i j t.2 i.2 j.2⟩
  rcases cholesky_mats hY with ⟨g, g', hg, hgh, hg'⟩ | ⟨e, hg, b, hb, hg'⟩
  swap
  · refine .inr ⟨e, by simp only [tensorNaturalsToSSM, hP, hC, hz, hi, ho, hbat, hw, hv, hI, haI, haP, ht, hy, hg, Bind.bind, Except.bind],
      b, hb, ?_⟩
    have e1 := hP' b hb
    have e2 := hC' b hb
    have e3 := hblk b hb
    have e4 := hv' b hb
    have e5 := hI' b hb
    dsimp only at e4 e5 hg'
    rw [e3] at e4
    rw [hTe b hb] at hg'
    simp only [naturalsToSSM, e1, e2, e4, e5, hg', Bind.bind, Except.bind]
  obtain ⟨cv, hcv, hcvh⟩ := cholSolve_mats hgh (eye_mats d (n + 1) bs)
  rcases cholesky_mats hcvh with ⟨q, q', hq, hqh, hq'⟩ | ⟨e, hq, b, hb, hq'⟩
  swap
  · refine .inr ⟨e, by simp only [tensorNaturalsToSSM, hP, hC, hz, hi, ho, hbat, hw, hv, hI, haI, haP, ht, hy, hg, hcv, hq, Bind.bind,
      Except.bind], b, hb, ?_⟩
    have e1 := hP' b hb
    have e2 := hC' b hb
    have e3 := hblk b hb
    have e4 := hv' b hb
    have e5 := hI' b hb
    have e6 := hg' b hb
    dsimp only at e4 e5 e6
    rw [e3] at e4
    rw [hTe b hb] at e6
    simp only [naturalsToSSM, e1, e2, e4, e5, e6, hq', Bind.bind, Except.bind]
  obtain ⟨x1, hx1, hx1h⟩ := solve_holds' hIh hL true
  obtain ⟨x2, hx2, hx2h⟩ := matmul_mats hcvh (expand_cols hx1h)
  have ho' : HoldsVecs bs (index 0 0 x2) fun b t => cholSolve (g' b t) 1 *ᵥ (i' b).solve (l b) true t :=
    (index_cols hx2h 0).congr fun b _ => by funext t i; rw [mul_col]; rfl
  refine .inl ⟨⟨index 1 0 (index 0 0 x2), index 2 0 q, sliceDrop 2 1 v.matT, index 0 0 (sliceFrom 2 1 x2), sliceFrom 2 1 q⟩, fun b =>
    ⟨cholSolve (g' b 0) 1 *ᵥ (i' b).solve (l b) true 0, q' b 0, fun k => (v' b k.castSucc)ᵀ,
      fun k => cholSolve (g' b k.succ) 1 *ᵥ (i' b).solve (l b) true k.succ, fun k => q' b k.succ⟩, ?_, ⟨?_, ?_, ?_, ?_, ?_⟩, fun b hb => ?_⟩
  · simp only [tensorNaturalsToSSM, hP, hC, hz, hi, ho, hbat, hw, hv, hI, haI, haP, ht, hy, hg, hcv, hq, hx1, hx2, Bind.bind, Except.bind,
      Pure.pure, Except.pure]
  · exact index_vecs ho' 0
  · exact index_mats hqh 0
  · exact hA
  · refine (index_cols (sliceFrom_mats hx2h) 0).congr fun b _ => ?_
    funext t i
    rw [mul_col]
    rfl
  · exact sliceFrom_mats hqh
  · have e1 := hP' b hb
    have e2 := hC' b hb
    have e3 := hblk b hb
    have e4 := hv' b hb
    have e5 := hI' b hb
    have e6 := hg' b hb
    have e7 := hq' b hb
    dsimp only at e4 e5 e6
    rw [e3] at e4
    rw [hTe b hb] at e6
    simp only [naturalsToSSM, e1, e2, e4, e5, e6, e7, Bind.bind, Except.bind, Pure.pure, Except.pure]

end MF
