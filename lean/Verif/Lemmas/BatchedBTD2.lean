import Verif.Lemmas.BatchedBTD

/-!
# Block tri-diagonal matrices on tensors of any batch shape: factorisations
-/

namespace MF
open Matrix Spec Tensor

variable {sym : Bool} {n d : ℕ} {bs : List ℕ}

/-! ### Operations on sequences of matrices -/

theorem plus_mats {k r c u x y} {A B : List ℕ → Fin k → Mat r c} (hx : HoldsMats u x A) (hy : HoldsMats u y B) :
    ∃ z, plus x y = .ok z ∧ HoldsMats u z fun b t => A b t + B b t := by
  obtain ⟨z, hz, h⟩ := plus_mat (holdsMats_iff.1 hx) (holdsMats_iff.1 hy).b2
  exact ⟨z, hz, holdsMats_iff.2 (h.congr (forall_inRange_cons.2 fun b _ t => by simp only [lift_fin]))⟩

theorem minus_mats {k r c u x y} {A B : List ℕ → Fin k → Mat r c} (hx : HoldsMats u x A) (hy : HoldsMats u y B) :
    ∃ z, minus x y = .ok z ∧ HoldsMats u z fun b t => A b t - B b t := by
  obtain ⟨z, hz, h⟩ := minus_mat (holdsMats_iff.1 hx) (holdsMats_iff.1 hy).b2
  exact ⟨z, hz, holdsMats_iff.2 (h.congr (forall_inRange_cons.2 fun b _ t => by simp only [lift_fin]))⟩

theorem times_mats {k r c u x y} {A B : List ℕ → Fin k → Mat r c} (hx : HoldsMats u x A) (hy : HoldsMats u y B) :
    ∃ z, times x y = .ok z ∧ HoldsMats u z fun b t => Matrix.of fun i j => A b t i j * B b t i j := by
  obtain ⟨z, hz, h⟩ := times_mat (holdsMats_iff.1 hx) (holdsMats_iff.1 hy).b2
  exact ⟨z, hz, holdsMats_iff.2 (h.congr (forall_inRange_cons.2 fun b _ t => by simp only [lift_fin]))⟩

theorem neg_mats {k r c u x} {A : List ℕ → Fin k → Mat r c} (hx : HoldsMats u x A) : HoldsMats u (x.map (-·)) fun b t => -A b t :=
  holdsMats_iff.2 ((neg_mat (holdsMats_iff.1 hx)).congr (forall_inRange_cons.2 fun b _ t => by simp only [lift_fin]))

theorem matT_mats {k r c u x} {A : List ℕ → Fin k → Mat r c} (hx : HoldsMats u x A) : HoldsMats u x.matT fun b t => (A b t)ᵀ :=
  holdsMats_iff.2 ((matT_mat (holdsMats_iff.1 hx)).congr (forall_inRange_cons.2 fun b _ t => by simp only [lift_fin]))

theorem matmul_mats {m r k c u x y} {A : List ℕ → Fin m → Mat r k} {B : List ℕ → Fin m → Mat k c} (hx : HoldsMats u x A)
    (hy : HoldsMats u y B) : ∃ z, matmul x y = .ok z ∧ HoldsMats u z fun b t => A b t * B b t := by
  obtain ⟨z, hz, h⟩ := matmul_mat (holdsMats_iff.1 hx) (holdsMats_iff.1 hy)
  exact ⟨z, hz, holdsMats_iff.2 (h.congr (forall_inRange_cons.2 fun b _ t => by simp only [lift_fin]))⟩

theorem cholSolve_mats {m c u x y} {A : List ℕ → Fin m → Mat d d} {B : List ℕ → Fin m → Mat d c} (hx : HoldsMats u x A)
    (hy : HoldsMats u y B) : ∃ z, cholSolveT x y = .ok z ∧ HoldsMats u z fun b t => cholSolve (A b t) (B b t) := by
  obtain ⟨z, hz, h⟩ := cholSolve_mat (holdsMats_iff.1 hx) (holdsMats_iff.1 hy)
  exact ⟨z, hz, holdsMats_iff.2 (h.congr (forall_inRange_cons.2 fun b _ t => by simp only [lift_fin]))⟩

theorem eye_mats (d k : ℕ) (u : List ℕ) : HoldsMats u (eye d (k :: u)) fun _ (_ : Fin k) => (1 : Mat d d) :=
  holdsMats_iff.2 ((eye_mat d (k :: u)).congr (forall_inRange_cons.2 fun b _ t => by simp only [lift_fin]))

theorem cholesky_mats {m u x} {A : List ℕ → Fin m → Mat d d} (hx : HoldsMats u x A) :
    Elementwise u (HoldsMats u) (choleskyT x) fun b => seqFin fun t => tfCholesky (A b t) := by
  have h := (cholesky_mat (holdsMats_iff.1 hx)).seq (Y := fun b t => tfCholesky (A b t)) (fun b _ t => by rw [lift_fin])
    (fun b t => onlyInvalid_cholesky _) fun x y y' h e => h.congr e
  rcases h with ⟨x, y, hx, hr, hy⟩ | h
  · exact .inl ⟨x, y, hx, holdsMats_iff.2 hr, hy⟩
  · exact .inr h

/-! ### Sums and determinants -/

/-- `+` per batch element. -/
theorem add_holds (hbs : ∀ k ∈ bs, 0 < k) {M M' : TBTD sym} {m m' : List ℕ → BTD sym n d} (h : HoldsBTD bs M m)
    (h' : HoldsBTD bs M' m') : Elementwise bs (HoldsBTD bs) (M.add M') fun b => (m b).add (m' b) := by
  obtain ⟨hD, hS⟩ := h
  obtain ⟨hD', hS'⟩ := h'
  obtain ⟨z, hz, hzh⟩ := plus_mats hD hD'
  rcases hS with ⟨hS, hs⟩ | ⟨t, S, hS, ht, hs⟩ <;> rcases hS' with ⟨hS', hs'⟩ | ⟨t', S', hS', ht', hs'⟩
  · have e : M.add M' = TBTD.init sym z none := by
      simp only [TBTD.add, hS, hS', hz, Bind.bind, Except.bind, Pure.pure, Except.pure]
    rw [e]
    exact (init_holds hbs sym hzh (.inl ⟨rfl, fun b _ => rfl⟩)).congr fun b hb => by simp only [BTD.add, hs b hb, hs' b hb]
  · have e : M.add M' = TBTD.init sym z (some t') := by
      simp only [TBTD.add, hS, hS', hz, Bind.bind, Except.bind, Pure.pure, Except.pure]
    rw [e]
    exact (init_holds hbs sym hzh (.inr ⟨t', S', rfl, ht', fun b _ => rfl⟩)).congr fun b hb => by
      simp only [BTD.add, hs b hb, hs' b hb]
  · have e : M.add M' = TBTD.init sym z (some t) := by
      simp only [TBTD.add, hS, hS', hz, Bind.bind, Except.bind, Pure.pure, Except.pure]
    rw [e]
    exact (init_holds hbs sym hzh (.inr ⟨t, S, rfl, ht, fun b _ => rfl⟩)).congr fun b hb => by simp only [BTD.add, hs b hb, hs' b hb]
  · obtain ⟨w, hw, hwh⟩ := plus_mats ht ht'
    have e : M.add M' = TBTD.init sym z (some w) := by
      simp only [TBTD.add, hS, hS', hz, hw, Bind.bind, Except.bind, Pure.pure, Except.pure]
    rw [e]
    exact (init_holds hbs sym hzh (.inr ⟨w, _, rfl, hwh, fun b _ => rfl⟩)).congr fun b hb => by
      simp only [BTD.add, hs b hb, hs' b hb]

/-- `abs_log_det` per batch element. -/
theorem absLogDet_holds {M : TBTD false} {m : List ℕ → BTD false n d} (h : HoldsBTD bs M m) :
    ∃ z, M.absLogDet = .ok z ∧ HoldsReal bs z fun b => (m b).absLogDet := by
  obtain ⟨z, hz, hzs, hzv⟩ := asBand_holds h
  have h0 : HoldsVec bs (index 1 0 z) fun b (j : Fin ((n + 1) * d)) => (m b).asBand 0 j := by
    refine ⟨by simp [index, hzs, removeAt], fun b hb i => ?_⟩
    simp only [index, insertAt]
    exact hzv b hb 0 i (bandRows_pos h i.pos) i.2
  refine ⟨_, by simp only [TBTD.absLogDet, hz]; rfl,
    map_real ((1 / 2 : ℝ) * ·) (sum1_vec (map_vec (fun v => Real.log (v ^ 2)) h0))⟩

/-! ### Bands and reshapes -/

/-- A tensor that holds a band of `rows` rows and `N` columns at every batch index. -/
def HoldsBand (N rows : ℕ) (bs : List ℕ) (x : Tensor) (B : List ℕ → T2) : Prop :=
  x.shape = N :: rows :: bs ∧ ∀ b, InRange b bs → ∀ i j, i < rows → j < N → x.val (j :: i :: b) = B b i j

theorem reshape23_holds {x : Tensor} {B : List ℕ → T2} {c rows k s1 s2 : ℕ} (hx : HoldsBand c rows bs x B)
    (hp : s2 * s1 * k = c * rows) :
    ∃ z, reshape (s2 :: s1 :: k :: bs) x = .ok z ∧ z.shape = s2 :: s1 :: k :: bs ∧
      ∀ b, InRange b bs → ∀ t i j, t < k → i < s1 → j < s2 → z.val (j :: i :: t :: b) = reshape23 c s1 s2 (B b) t i j := by
  obtain ⟨z, hz, hs, h⟩ := reshape_inner (x := x) (es := [c, rows]) (es' := [s2, s1, k]) (s := bs) hx.1
    (by simp only [List.prod_cons, List.prod_nil]; linarith)
  refine ⟨z, hz, hs, fun b hb t i j ht hi hj => ?_⟩
  have he : InRange [j, i, t] [s2, s1, k] := ⟨hj, hi, ht, trivial⟩
  have := h [j, i, t] b he hb
  simp only [List.cons_append, List.nil_append] at this
  rw [this]
  have hlt := tflat_lt he
  have e : flat [s2, s1, k] [j, i, t] = (t * s1 + i) * s2 + j := by simp only [flat]; ring
  rw [e] at hlt ⊢
  have hlt' : (t * s1 + i) * s2 + j < c * rows := by
    simp only [List.prod_cons, List.prod_nil] at hlt
    linarith
  have hc : 0 < c := Nat.pos_of_ne_zero fun h0 => by simp [h0] at hlt'
  have h1 : ((t * s1 + i) * s2 + j) / c < rows := Nat.div_lt_of_lt_mul hlt'
  simp only [unflat, List.cons_append, List.nil_append, reshape23, Nat.mod_eq_of_lt h1]
  exact hx.2 b hb _ _ h1 (Nat.mod_lt _ hc)

theorem reshape34_holds {x : Tensor} {B : List ℕ → T3} {s1 s2 k t1 t2 t3 : ℕ} (hx : x.shape = s2 :: s1 :: k :: bs)
    (hv : ∀ b, InRange b bs → ∀ t i j, t < k → i < s1 → j < s2 → x.val (j :: i :: t :: b) = B b t i j)
    (hp : t3 * t2 * t1 = s2 * s1) :
    ∃ z, reshape (t3 :: t2 :: t1 :: k :: bs) x = .ok z ∧ z.shape = t3 :: t2 :: t1 :: k :: bs ∧
      ∀ b, InRange b bs → ∀ q t i j, q < k → t < t1 → i < t2 → j < t3 →
        z.val (j :: i :: t :: q :: b) = reshape34 s1 s2 t1 t2 t3 (B b) q t i j := by
  obtain ⟨z, hz, hs, h⟩ := reshape_inner (x := x) (es := [s2, s1, k]) (es' := [t3, t2, t1, k]) (s := bs) hx
    (by simp only [List.prod_cons, List.prod_nil, mul_one]; linear_combination k * hp)
  refine ⟨z, hz, hs, fun b hb q t i j hq ht hi hj => ?_⟩
  have he : InRange [j, i, t, q] [t3, t2, t1, k] := ⟨hj, hi, ht, hq, trivial⟩
  have := h [j, i, t, q] b he hb
  simp only [List.cons_append, List.nil_append] at this
  rw [this]
  have hlt := tflat_lt he
  have e : flat [t3, t2, t1, k] [j, i, t, q] = ((q * t1 + t) * t2 + i) * t3 + j := by simp only [flat]; ring
  rw [e] at hlt ⊢
  generalize hF : ((q * t1 + t) * t2 + i) * t3 + j = F at hlt
  have hlt' : F < s2 * (s1 * k) := by
    simp only [List.prod_cons, List.prod_nil, mul_one] at hlt
    calc F < t3 * (t2 * (t1 * k)) := hlt
      _ = s2 * (s1 * k) := by linear_combination k * hp
  have h2 : 0 < s2 := Nat.pos_of_ne_zero fun h0 => by simp [h0] at hlt'
  have h1 : 0 < s1 := Nat.pos_of_ne_zero fun h0 => by simp [h0] at hlt'
  have h3 : F / s2 / s1 < k := Nat.div_lt_of_lt_mul (Nat.div_lt_of_lt_mul hlt')
  simp only [unflat, List.cons_append, List.nil_append, reshape34, hF, Nat.mod_eq_of_lt h3]
  exact hv b hb _ _ _ h3 (Nat.mod_lt _ h1) (Nat.mod_lt _ h2)

theorem bandToBlock_holds {N rows d : ℕ} {s : Bool} {x : Tensor} {B : List ℕ → T2} (hx : HoldsBand N rows bs x B)
    (hd : s = true → rows = d ∧ d ∣ N) : HoldsBand N rows bs (bandToBlockT d s x) fun b => bandToBlock d s (B b) := by
  refine ⟨by simp [bandToBlockT, hx.1], fun b hb r j hr hj => ?_⟩
  simp only [bandToBlockT, bandToBlock, arrayAt]
  split_ifs with h1 h2
  · exact hx.2 b hb _ _ (by omega) hj
  · obtain ⟨rfl, k, rfl⟩ := hd h2
    have h3 := Nat.mod_lt j (show 0 < rows by omega)
    refine hx.2 b hb _ _ (by omega) ?_
    have h4 : j / rows < k := Nat.div_lt_of_lt_mul hj
    calc j / rows * rows + r < j / rows * rows + rows := by omega
      _ = rows * (j / rows + 1) := by ring
      _ ≤ rows * k := Nat.mul_le_mul_left _ h4
  · rfl

/-- `block_diagonal_of_inverse` per batch element. -/
theorem blockDiagonalOfInverse_holds {M : TBTD false} {m : List ℕ → BTD false n d} (h : HoldsBTD bs M m) :
    ∃ z, M.blockDiagonalOfInverse = .ok z ∧ HoldsMats bs z fun b => (m b).blockDiagonalOfInverse := by
  obtain ⟨z, hz, hzs, hzv⟩ := asBand_holds h
  obtain ⟨hi, ho, hb⟩ := btd_dims h
  have hd : d ≤ bandRows M := by unfold bandRows; rw [hi]; split_ifs <;> omega
  have h1 : HoldsBand ((n + 1) * d) d bs (sliceTo 1 d (inverseFromCholeskyBandT z)) fun b k j =>
      if k < d then inverseFromCholeskyBand ((n + 1) * d) (m b).bandwidth (m b).asBand k j else 0 := by
    refine ⟨by simp [sliceTo, inverseFromCholeskyBandT, hzs, ofMats, modifyAt, hd], fun b hb i j hi hj => ?_⟩
    dsimp only
    rw [if_pos hi]
    simp only [sliceTo, inverseFromCholeskyBandT, hzs, ofMats, entry]
    rw [dif_pos ⟨by omega, hj⟩]
    unfold inverseFromCholeskyBand
    rw [btd_bandwidth h hb, bandwidth_rows, unpackBand_congr (B := z.arrayAt b) (B' := (m b).asBand) (bandRows_pos h)
      fun k j hk hj => hzv b hb k j hk hj]
  have h2 := bandToBlock_holds (d := d) (s := true) h1 fun _ => ⟨rfl, Dvd.intro_left _ rfl⟩
  have h3 : HoldsBand d ((n + 1) * d) bs (bandToBlockT d true (sliceTo 1 d (inverseFromCholeskyBandT z))).matT fun b =>
      transpose2 (bandToBlock d true fun k j =>
        if k < d then inverseFromCholeskyBand ((n + 1) * d) (m b).bandwidth (m b).asBand k j else 0) := by
    refine ⟨by simp only [matT, h2.1], fun b hb i j hi hj => ?_⟩
    exact h2.2 b hb j i hj hi
  obtain ⟨w, hw, hws, hwv⟩ := reshape23_holds (k := n + 1) (s1 := d) (s2 := d) h3 (by ring)
  refine ⟨w, by simp only [TBTD.blockDiagonalOfInverse, hz, hi, ho, hb, Bind.bind, Except.bind]; exact hw, hws, fun b hb t i j => ?_⟩
  exact hwv b hb t i j t.2 i.2 j.2

/-! ### Cholesky -/

theorem cholBand_holds {M : TBTD true} {m : List ℕ → BTD true n d} (h : HoldsBTD bs M m) {z : Tensor}
    (hzs : z.shape = (n + 1) * d :: bandRows M :: bs)
    (hzv : ∀ b, InRange b bs → ∀ k j, k < bandRows M → j < (n + 1) * d → z.val (j :: k :: b) = (m b).asBand k j) :
    Elementwise bs (HoldsBand ((n + 1) * d) (bandRows M) bs) (choleskyBandT z) fun b =>
      choleskyBand ((n + 1) * d) (m b).bandwidth (m b).asBand := by
  have e : ∀ b, InRange b bs → choleskyBand ((n + 1) * d) (bandRows M - 1) (z.arrayAt b) =
      choleskyBand ((n + 1) * d) (m b).bandwidth (m b).asBand := fun b hb => by
    unfold choleskyBand
    rw [btd_bandwidth h hb, bandwidth_rows, unpackBand_congr (B := z.arrayAt b) (B' := (m b).asBand) (bandRows_pos h)
      fun k j hk hj => hzv b hb k j hk hj]
  have ho : ∀ b, InRange b bs → OnlyInvalid (do
      let t ← choleskyBand ((n + 1) * d) (bandRows M - 1) (z.arrayAt b)
      return ((fun i j => t i j) : Mat (bandRows M) ((n + 1) * d))) := by
    intro b _ e he
    unfold choleskyBand at he
    cases hc : tfCholesky (symmetrise (unpackBand ((n + 1) * d) (bandRows M - 1) (z.arrayAt b))) with
    | ok L => rw [hc] at he; cases he
    | error e' =>
      rw [hc] at he
      have := Except.error.inj he
      rw [← this]
      exact onlyInvalid_cholesky _ _ hc
  have hB := batched_mat (r := bandRows M) (c := (n + 1) * d) bs ho
  have hX : choleskyBandT z = batched (r := bandRows M) (c := (n + 1) * d) bs fun b => (do
      let t ← choleskyBand ((n + 1) * d) (bandRows M - 1) (z.arrayAt b)
      return fun i j => t i j) := by simp only [choleskyBandT, hzs]
  rw [hX]
  rcases hB with ⟨x, y, hx, hr, hy⟩ | ⟨e', hx, b, hb, hy⟩
  · refine .inl ⟨x, fun b => match choleskyBand ((n + 1) * d) (m b).bandwidth (m b).asBand with
      | .ok t => t
      | .error _ => 0, hx, ⟨hr.1, fun b hb i j hi hj => ?_⟩, fun b hb => ?_⟩
    · have h1 := hy b hb
      dsimp only at h1
      rw [e b hb] at h1
      have h2 := hr.2 b hb ⟨i, hi⟩ ⟨j, hj⟩
      cases hc : choleskyBand ((n + 1) * d) (m b).bandwidth (m b).asBand with
      | ok t =>
        rw [hc] at h1
        rw [← Except.ok.inj h1] at h2
        simp only [hc]
        exact h2
      | error e' => rw [hc] at h1; cases h1
    · have h1 := hy b hb
      dsimp only at h1
      rw [e b hb] at h1
      cases hc : choleskyBand ((n + 1) * d) (m b).bandwidth (m b).asBand with
      | ok t => simp only [hc]
      | error e' => rw [hc] at h1; cases h1
  · refine .inr ⟨e', hx, b, hb, ?_⟩
    dsimp only at hy
    rw [e b hb] at hy
    cases hc : choleskyBand ((n + 1) * d) (m b).bandwidth (m b).asBand with
    | ok t => rw [hc] at hy; cases hy
    | error e'' =>
      rw [hc] at hy
      have : e'' = e' := Except.error.inj hy
      simp only [hc, this]

/-- `_banded_to_block_tri` per batch element. -/
theorem bandedToBlockTri_holds (hbs : ∀ k ∈ bs, 0 < k) {q : ℕ} (hd : 0 < d) (hq : q = 1 ∨ q = 2) {x : Tensor} {B : List ℕ → T2}
    (hx : HoldsBand ((n + 1) * d) (q * d) bs x B) :
    Elementwise bs (HoldsBTD bs) (TBTD.bandedToBlockTri x d) fun b => BTD.bandedToBlockTri n d (q * d) (B b) := by
  have h1 := bandToBlock_holds (d := d) (s := false) hx fun h => by cases h
  obtain ⟨a, ha, has, hav⟩ := reshape23_holds (k := q) (s1 := d) (s2 := (n + 1) * d) h1 (by ring)
  have haT : a.matT.shape = d :: (n + 1) * d :: q :: bs := by simp [matT, has]
  obtain ⟨z, hz, hzs, hzv⟩ := reshape34_holds (t1 := n + 1) (t2 := d) (t3 := d)
    (B := fun b => transpose3 (reshape23 ((n + 1) * d) d ((n + 1) * d) (bandToBlock d false (B b)))) haT
    (fun b hb t i j ht hi hj => hav b hb t j i ht hj hi) (by ring)
  have e1 : (n + 1) * d / d = n + 1 := Nat.mul_div_cancel _ hd
  have e2 : q * d / d = q := Nat.mul_div_cancel _ hd
  have hX : TBTD.bandedToBlockTri x d = TBTD.init false (index 3 0 z.matT)
      (if q = 2 then some (sliceDrop 2 1 (index 3 1 z.matT)) else none) := by
    have hs0 : (bandToBlockT d false x).dim 0 = (n + 1) * d := by simp [dim, h1.1]
    have hs1 : (bandToBlockT d false x).dim 1 = q * d := by simp [dim, h1.1]
    have hs2 : (bandToBlockT d false x).shape.drop 2 = bs := by simp [h1.1]
    simp only [TBTD.bandedToBlockTri, hs0, hs1, hs2, e1, e2, if_pos hq, ha, hz, Bind.bind, Except.bind]
  rw [hX]
  have hD : ∀ p, p < q → HoldsMats bs (index 3 p z.matT) fun b (t : Fin (n + 1)) => (Matrix.of fun i j : Fin d =>
      transpose4 (reshape34 ((n + 1) * d) d (n + 1) d d
        (transpose3 (reshape23 ((n + 1) * d) d ((n + 1) * d) (bandToBlock d false (B b))))) p t i j : Mat d d) := fun p hp => by
    refine ⟨by simp [index, matT, hzs, removeAt], fun b hb t i j => ?_⟩
    exact hzv b hb p t j i hp t.2 j.2 i.2
  have hq0 : 0 < q := by omega
  refine (init_holds hbs false (hD 0 hq0) (S' := fun b => if q = 2 then some (fun t : Fin n => Matrix.of fun i j : Fin d =>
      transpose4 (reshape34 ((n + 1) * d) d (n + 1) d d
        (transpose3 (reshape23 ((n + 1) * d) d ((n + 1) * d) (bandToBlock d false (B b))))) 1 t i j) else none) ?_).congr fun b hb => ?_
  · rcases hq with rfl | rfl
    · exact .inl ⟨by simp, fun b _ => by simp⟩
    · refine .inr ⟨_, _, if_pos rfl, sliceDrop_mats (hD 1 (by omega)), fun b _ => ?_⟩
      rw [if_pos rfl]
      rfl
  · simp only [BTD.bandedToBlockTri, e1, e2, if_pos hq]

/-- `cholesky` per batch element. -/
theorem btd_cholesky_holds (hbs : ∀ k ∈ bs, 0 < k) {M : TBTD true} {m : List ℕ → BTD true n d} (h : HoldsBTD bs M m) :
    Elementwise bs (HoldsBTD bs) M.cholesky fun b => (m b).cholesky := by
  obtain ⟨z, hz, hzs, hzv⟩ := asBand_holds h
  obtain ⟨hi, ho, hb⟩ := btd_dims h
  have hX : M.cholesky = choleskyBandT z >>= fun c => TBTD.bandedToBlockTri c d := by
    simp only [TBTD.cholesky, hz, hi]
    rfl
  rw [hX]
  unfold BTD.cholesky
  refine (cholBand_holds h hzs hzv).bind (g := fun b band => BTD.bandedToBlockTri n d ((m b).bandwidth + 1) band) fun x y hxy => ?_
  rcases Nat.eq_zero_or_pos d with rfl | hd
  · have e : TBTD.bandedToBlockTri x 0 = .error .assertion := by
      simp [TBTD.bandedToBlockTri]
    rw [e]
    exact .error hbs fun b _ => by simp [BTD.bandedToBlockTri]
  · obtain ⟨q, hq, hr⟩ : ∃ q, (q = 1 ∨ q = 2) ∧ bandRows M = q * d := by
      unfold bandRows
      rw [hi]
      split_ifs
      · exact ⟨2, .inr rfl, rfl⟩
      · exact ⟨1, .inl rfl, (one_mul _).symm⟩
    rw [hr] at hxy
    refine (bandedToBlockTri_holds hbs hd hq hxy).congr fun b hb => ?_
    rw [btd_bandwidth h hb, bandwidth_rows, hr]
    congr 1
    have : 0 < q * d := Nat.mul_pos (by omega) hd
    omega

/-! ### The loop of `upper_diagonal_lower` -/

/-- The loop of the model for one batch element, started at block `k`, for sequences indexed by natural numbers. -/
noncomputable def udlFrom (D S : ℕ → Mat d d) (j k : ℕ) : Except Err (Fin (j + 1) → Mat d d) :=
  BTD.udlLoop (n := j) (fun i => D (i + k)) fun i => S (i + k)

theorem udlFrom_succ (D S : ℕ → Mat d d) (j k : ℕ) : udlFrom D S (j + 1) k = (do
    let cs ← udlFrom D S j (k + 1)
    let c ← BTD.udlStep (D k) (S k) (cs 0)
    return Fin.cons c cs) := by
  unfold udlFrom
  rw [BTD.udlLoop]
  have h1 : (Fin.tail fun i : Fin (j + 1 + 1) => D (i + k)) = fun i : Fin (j + 1) => D (i + (k + 1)) := by
    funext i
    simp only [Fin.tail, Fin.val_succ]
    congr 1
    omega
  have h2 : (Fin.tail fun i : Fin (j + 1) => S (i + k)) = fun i : Fin j => S (i + (k + 1)) := by
    funext i
    simp only [Fin.tail, Fin.val_succ]
    congr 1
    omega
  rw [h1, h2]
  simp

theorem udlFrom_error {D S : ℕ → Mat d d} {e : Err} : ∀ {k j : ℕ}, udlFrom D S j k = .error e → udlFrom D S (j + k) 0 = .error e
  | 0, j, h => h
  | k + 1, j, h => by
    have : udlFrom D S (j + 1) k = .error e := by
      rw [udlFrom_succ, h]
      rfl
    have := udlFrom_error this
    rwa [show j + (k + 1) = j + 1 + k by omega]

/-- One iteration per batch element. -/
theorem udlStep_holds {D S : List ℕ → ℕ → Mat d d} {k j : ℕ} {TD TS chols : Tensor} {cs : List ℕ → Fin (j + 1) → Mat d d}
    (hD : HoldsMat bs (index 2 k TD) fun b => D b k) (hS : HoldsMat bs (index 2 k TS) fun b => S b k) (hc : HoldsMats bs chols cs)
    (hg : ∀ b, InRange b bs → udlFrom (D b) (S b) j (k + 1) = .ok (cs b)) :
    Elementwise bs (HoldsMats bs) (TBTD.udlStep TD TS chols k) fun b => udlFrom (D b) (S b) (j + 1) k := by
  obtain ⟨x, hx, hxh⟩ := cholSolve_mat (index_mats hc 0) hS
  obtain ⟨p, hp, hph⟩ := matmul_mat (matT_mat hS) hxh
  obtain ⟨q, hq, hqh⟩ := minus_mat hD hph.b2
  have hX : TBTD.udlStep TD TS chols k = choleskyT (expand 2 q) >>= fun c => concat 2 c chols := by
    have hx' : cholSolveT (index 2 0 chols) (index 2 k TS) = .ok x := hx
    simp only [TBTD.udlStep, hx', hp, hq, Bind.bind, Except.bind]
  rw [hX]
  refine Elementwise.congr (Y := fun b => (seqFin fun _ : Fin 1 => tfCholesky (D b k - (S b k)ᵀ * cholSolve (cs b 0) (S b k))) >>=
    fun c => Except.ok (Fin.cons (c 0) (cs b) : Fin (j + 1 + 1) → Mat d d)) ?_ fun b hb => ?_
  · refine (cholesky_mats (expand_mat hqh)).bind (g := fun b c => Except.ok (Fin.cons (c 0) (cs b) : Fin (j + 1 + 1) → Mat d d))
      fun x y hxy => ?_
    exact .of_ok (cons_mats hxy hc)
  · rw [udlFrom_succ, hg b hb]
    simp only [seqFin, BTD.udlStep]
    show (tfCholesky (D b k - (S b k)ᵀ * cholSolve (cs b 0) (S b k)) >>= _) = _
    cases tfCholesky (D b k - (S b k)ᵀ * cholSolve (cs b 0) (S b k)) <;> rfl

/-- The loop per batch element. -/
theorem udlLoop_holds {n : ℕ} {D S : List ℕ → ℕ → Mat d d} {TD TS : Tensor}
    (hD : ∀ k, k < n + 1 → HoldsMat bs (index 2 k TD) fun b => D b k) (hS : ∀ k, k < n → HoldsMat bs (index 2 k TS) fun b => S b k) :
    ∀ (k j : ℕ) (chols : Tensor) (cs : List ℕ → Fin (j + 1) → Mat d d), j + k = n → HoldsMats bs chols cs →
      (∀ b, InRange b bs → udlFrom (D b) (S b) j k = .ok (cs b)) →
      Elementwise bs (HoldsMats bs) (TBTD.udlLoop TD TS k chols) fun b => udlFrom (D b) (S b) n 0
  | 0, j, chols, cs, hj, hc, hg => by
    obtain rfl : j = n := hj
    exact .ok hc hg
  | k + 1, j, chols, cs, hj, hc, hg => by
    rw [TBTD.udlLoop]
    rcases udlStep_holds (hD k (by omega)) (hS k (by omega)) hc hg with ⟨x, y, hx, hr, hy⟩ | ⟨e, hx, b, hb, hy⟩
    · rw [hx]
      exact udlLoop_holds hD hS k (j + 1) x y (by omega) hr hy
    · rw [hx]
      refine .inr ⟨e, rfl, b, hb, ?_⟩
      have := udlFrom_error hy
      dsimp only
      rwa [show n = j + 1 + k by omega]

/-- `upper_diagonal_lower` per batch element. -/
theorem upperDiagonalLower_holds (hbs : ∀ k ∈ bs, 0 < k) {M : TBTD true} {m : List ℕ → BTD true n d} (h : HoldsBTD bs M m) :
    Elementwise bs (fun (P : TBTD false × TBTD false) (p : List ℕ → BTD false n d × BTD false n d) =>
      HoldsBTD bs P.1 (fun b => (p b).1) ∧ HoldsBTD bs P.2 (fun b => (p b).2)) M.upperDiagonalLower fun b => (m b).upperDiagonalLower := by
  obtain ⟨hi, ho, hb⟩ := btd_dims h
  obtain ⟨hD, ⟨hS, hS'⟩ | ⟨t, S, hS, ht, hS'⟩⟩ := h
  · have hX : M.upperDiagonalLower = .error .assertion := by simp only [TBTD.upperDiagonalLower, hS]
    rw [hX]
    exact .error hbs fun b hb => by simp only [BTD.upperDiagonalLower, hS' b hb]
  · let D : List ℕ → ℕ → Mat d d := fun b k => if hk : k < n + 1 then (m b).diag ⟨k, hk⟩ else 0
    let T : List ℕ → ℕ → Mat d d := fun b k => if hk : k < n then S b ⟨k, hk⟩ else 0
    have hG : ∀ b, udlFrom (D b) (T b) n 0 = BTD.udlLoop (m b).diag (S b) := fun b => by
      unfold udlFrom
      congr 1
      · funext i
        simp only [D, add_zero, i.2, dif_pos]
      · funext i
        simp only [T, add_zero, i.2, dif_pos]
    have hDk : ∀ k, k < n + 1 → HoldsMat bs (index 2 k M.diag) fun b => D b k := fun k hk =>
      (index_mats hD ⟨k, hk⟩).congr fun b _ => by simp only [D, dif_pos hk]
    have hTk : ∀ k, k < n → HoldsMat bs (index 2 k t) fun b => T b k := fun k hk =>
      (index_mats ht ⟨k, hk⟩).congr fun b _ => by simp only [T, dif_pos hk]
    have h0 : Elementwise bs (HoldsMats bs) (choleskyT (sliceFrom 2 n M.diag)) fun b => udlFrom (D b) (T b) 0 n := by
      refine (cholesky_mats (sliceLast_mats hD)).congr fun b _ => ?_
      simp only [udlFrom, BTD.udlLoop, seqFin]
      have e : D b ((Fin.last 0 : Fin 1) + n) = (m b).diag (Fin.last n) := by
        simp only [D, Fin.val_last, zero_add]
        rw [dif_pos (by omega)]
        rfl
      rw [e]
      cases tfCholesky ((m b).diag (Fin.last n)) with
      | error e => rfl
      | ok c =>
        show Except.ok _ = Except.ok _
        congr 1
        funext i
        obtain rfl : i = (0 : Fin 1) := Subsingleton.elim (α := Fin 1) _ _
        rfl
    have hX : M.upperDiagonalLower = (choleskyT (sliceFrom 2 n M.diag) >>= TBTD.udlLoop M.diag t n) >>= fun chols => (do
        let us ← cholSolveT (sliceFrom 2 1 chols) t
        let U ← TBTD.init false (eye d ((n + 1) :: bs)) (some us)
        let D ← TBTD.init false chols none
        return (U, D)) := by
      simp only [TBTD.upperDiagonalLower, hS, hi, ho, hb, Nat.add_sub_cancel]
      cases choleskyT (sliceFrom 2 n M.diag) <;> rfl
    have hL : Elementwise bs (HoldsMats bs) (choleskyT (sliceFrom 2 n M.diag) >>= TBTD.udlLoop M.diag t n) fun b =>
        BTD.udlLoop (m b).diag (S b) := by
      rcases h0 with ⟨x, y, hx, hr, hy⟩ | ⟨e, hx, b, hb, hy⟩
      · rw [hx]
        exact (udlLoop_holds hDk hTk n 0 x y (by omega) hr hy).congr fun b _ => (hG b).symm
      · rw [hx]
        refine .inr ⟨e, rfl, b, hb, ?_⟩
        have := udlFrom_error hy
        rw [zero_add] at this
        dsimp only
        rw [← hG b]
        exact this
    rw [hX]
    refine (hL.bind (R' := fun (P : TBTD false × TBTD false) (p : List ℕ → BTD false n d × BTD false n d) =>
      HoldsBTD bs P.1 (fun b => (p b).1) ∧ HoldsBTD bs P.2 (fun b => (p b).2)) (g := fun b chols => (do
        let us : Fin n → Mat d d := fun k => cholSolve (chols k.succ) (S b k)
        let U ← BTD.init false (fun _ => (1 : Mat d d)) (some us)
        let D ← BTD.init false chols none
        return (U, D))) fun chols cs hcs => ?_).congr fun b hb => by simp only [BTD.upperDiagonalLower, hS' b hb]
    obtain ⟨us, hus, hush⟩ := cholSolve_mats (sliceFrom_mats hcs) ht
    simp only [hus]
    refine (init_holds hbs false (eye_mats d (n + 1) bs) (.inr ⟨us, _, rfl, hush, fun b _ => rfl⟩)).bind fun U u hU => ?_
    refine (init_holds hbs false hcs (S' := fun _ => none) (.inl ⟨rfl, fun _ _ => rfl⟩)).bind (g := fun b D => Except.ok (u b, D)) fun D' d' hD' => ?_
    exact .pure ⟨hU, hD'⟩

end MF
