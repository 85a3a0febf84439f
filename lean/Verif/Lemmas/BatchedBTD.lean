import Verif.Lemmas.Tensor

/-!
# Block tri-diagonal matrices on tensors of any batch shape
-/

namespace MF
open Matrix Spec Tensor

variable {sym : Bool} {n d : ℕ} {bs : List ℕ}

theorem tfShape3 {x : Tensor} {a b c : ℕ} {s : List ℕ} (h : x.shape = c :: b :: a :: s) : x.tfShape = s.reverse ++ [a, b, c] := by
  simp [tfShape, h]

theorem tfShape2 {x : Tensor} {a b : ℕ} {s : List ℕ} (h : x.shape = b :: a :: s) : x.tfShape = s.reverse ++ [a, b] := by
  simp [tfShape, h]

theorem tfShape1 {x : Tensor} {a : ℕ} {s : List ℕ} (h : x.shape = a :: s) : x.tfShape = s.reverse ++ [a] := by
  simp [tfShape, h]

theorem assertEqual_self (x : List ℕ) : Shapes.assertEqual x x = .ok () := (Shapes.assertEqual_ok x x).2 (.inl rfl)

/-- The constructor: a batched matrix is accepted exactly when its elements are. -/
theorem init_holds (hbs : ∀ k ∈ bs, 0 < k) (sym : Bool) {D : Tensor} {D' : List ℕ → Fin (n + 1) → Mat d d} {S : Option Tensor}
    {S' : List ℕ → Option (Fin n → Mat d d)} (hD : HoldsMats bs D D')
    (hS : (S = none ∧ ∀ b, InRange b bs → S' b = none) ∨
      ∃ (t : Tensor) (f : List ℕ → Fin n → Mat d d), S = some t ∧ HoldsMats bs t f ∧ ∀ b, InRange b bs → S' b = some (f b)) :
    Elementwise bs (HoldsBTD bs) (TBTD.init sym D S) fun b => BTD.init sym (D' b) (S' b) := by
  rcases hS with ⟨rfl, hS⟩ | ⟨t, f, rfl, ht, hS⟩
  · have h : Shapes.blockTriInit D.tfShape ((none : Option Tensor).map tfShape) = .ok () :=
      (C42_block_tri_exact _ _).2 ⟨bs.reverse, n + 1, d, tfShape3 hD.1, by simp⟩
    refine .inl ⟨⟨D, none⟩, fun b => ⟨D' b, S' b⟩, ?_, ⟨hD, .inl ⟨rfl, hS⟩⟩, fun b hb => ?_⟩
    · simp only [TBTD.init, h]
      rfl
    · simp [BTD.init, hS b hb]
  · by_cases hn : 0 < n
    · have h : Shapes.blockTriInit D.tfShape ((some t).map tfShape) = .ok () :=
        (C42_block_tri_exact _ _).2 ⟨bs.reverse, n + 1, d, tfShape3 hD.1, fun s hs => by
          obtain rfl := Option.some.inj hs
          exact ⟨by omega, .inl (tfShape3 ht.1)⟩⟩
      refine .inl ⟨⟨D, some t⟩, fun b => ⟨D' b, S' b⟩, ?_, ⟨hD, .inr ⟨t, f, rfl, ht, hS⟩⟩, fun b hb => ?_⟩
      · simp only [TBTD.init, h]
        rfl
      · simp [BTD.init, hn]
    · have h : TBTD.init sym D (some t) = .error .invalidArgument := by
        simp only [TBTD.init, tfShape3 hD.1, Shapes.blockTriInit, dim2_3, dim1_3, dim3_3, Option.map]
        have : ¬ (n + 1 > 1) := by omega
        simp [Shapes.check, this, bind, Except.bind]
      rw [h]
      refine .error hbs fun b hb => ?_
      simp only [BTD.init, hS b hb]
      rw [if_pos ⟨rfl, by omega⟩]

theorem btd_dims {M : TBTD sym} {m : List ℕ → BTD sym n d} (h : HoldsBTD bs M m) : M.inner = d ∧ M.outer = n + 1 ∧ M.batch = bs := by
  simp [TBTD.inner, TBTD.outer, TBTD.batch, dim, h.1.1]

/-- The number of rows of the band. -/
def bandRows (M : TBTD sym) : ℕ := if M.sub.isSome then 2 * M.inner else M.inner

theorem bandwidth_rows (M : TBTD sym) : M.bandwidth = bandRows M - 1 := by
  unfold TBTD.bandwidth bandRows
  split_ifs <;> omega

theorem btd_bandwidth {M : TBTD sym} {m : List ℕ → BTD sym n d} (h : HoldsBTD bs M m) {b} (hb : InRange b bs) :
    (m b).bandwidth = M.bandwidth := by
  unfold TBTD.bandwidth BTD.bandwidth
  rw [(btd_dims h).1]
  rcases h.2 with ⟨h1, h2⟩ | ⟨t, S, h1, -, h2⟩
  · simp [h1, h2 b hb]
  · simp [h1, h2 b hb]

/-- The reshape of blocks into rows, per batch element. -/
theorem reshape32_holds {x : Tensor} {A : List ℕ → T3} {k r c : ℕ} (hx : x.shape = c :: r :: k :: bs)
    (hv : ∀ b, InRange b bs → ∀ t i j, t < k → i < r → j < c → x.val (j :: i :: t :: b) = A b t i j) :
    ∃ z, reshape (c :: k * r :: bs) x = .ok z ∧ z.shape = c :: k * r :: bs ∧
      ∀ b, InRange b bs → ∀ i j, i < k * r → j < c → z.val (j :: i :: b) = reshape32 r c c (A b) i j := by
  obtain ⟨z, hz, hs, h⟩ := reshape_inner (x := x) (es := [c, r, k]) (es' := [c, k * r]) (s := bs) hx (by simp only [List.prod_cons, List.prod_nil]; ring)
  refine ⟨z, hz, hs, fun b hb i j hi hj => ?_⟩
  have := h [j, i] b ⟨hj, hi, trivial⟩ hb
  simp only [List.cons_append, List.nil_append] at this
  rw [this]
  have hc : 0 < c := by omega
  have hr : 0 < r := Nat.pos_of_ne_zero fun h => by simp [h] at hi
  have e1 : (j + c * i) % c = j := by rw [Nat.add_mul_mod_self_left, Nat.mod_eq_of_lt hj]
  have e2 : (j + c * i) / c = i := by rw [Nat.add_mul_div_left _ _ hc, Nat.div_eq_of_lt hj, zero_add]
  have e3 : i / r < k := Nat.div_lt_of_lt_mul (lt_of_lt_of_eq hi (mul_comm _ _))
  simp only [flat, unflat, mul_zero, add_zero, List.cons_append, List.nil_append, reshape32, e1, e2, Nat.mod_eq_of_lt e3]
  rw [mul_comm i c, add_comm (c * i) j, e1, e2]
  exact hv b hb _ _ _ e3 (Nat.mod_lt _ hr) hj

theorem toT3_lt {k d : ℕ} (x : Fin k → Mat d d) {t i j : ℕ} (ht : t < k) (hi : i < d) (hj : j < d) :
    toT3 x t i j = x ⟨t, ht⟩ ⟨i, hi⟩ ⟨j, hj⟩ := by simp [toT3, ht, hi, hj]

theorem blockToBand_congr {d rows : ℕ} {B B' : T2} {k j : ℕ} (h : ∀ i, i < rows → B i j = B' i j) :
    blockToBand d rows B k j = blockToBand d rows B' k j := by
  unfold blockToBand
  split_ifs with hk
  · exact h _ hk
  · rfl

/-- `as_band` per batch element. -/
theorem asBand_holds {M : TBTD sym} {m : List ℕ → BTD sym n d} (h : HoldsBTD bs M m) :
    ∃ z, M.asBand = .ok z ∧ z.shape = (n + 1) * d :: bandRows M :: bs ∧
      ∀ b, InRange b bs → ∀ k j, k < bandRows M → j < (n + 1) * d → z.val (j :: k :: b) = (m b).asBand k j := by
  obtain ⟨hi, ho, hb⟩ := btd_dims h
  obtain ⟨hD, ⟨hS, hS'⟩ | ⟨t, S, hS, ht, hS'⟩⟩ := h
  · have hx : M.diag.matT.shape = d :: d :: (n + 1) :: bs := by simp [matT, hD.1]
    obtain ⟨z, hz, hzs, hzv⟩ := reshape32_holds (A := fun b => transpose3 (toT3 (m b).diag)) hx fun b hb t i j ht hi hj => by
      simp only [transpose3, toT3_lt _ ht hj hi]
      exact hD.2 b hb ⟨t, ht⟩ ⟨j, hj⟩ ⟨i, hi⟩
    have hr : bandRows M = d := by simp [bandRows, hS, hi]
    refine ⟨blockToBandT d z.matT, ?_, ?_, fun b hb k j hk hj => ?_⟩
    · simp only [TBTD.asBand, hS, hi, ho, hb, hz]
      rfl
    · simp [blockToBandT, matT, hzs, hr]
    · simp only [BTD.asBand, hS' b hb]
      have : z.matT.dim 1 = d := by simp [matT, hzs, dim]
      simp only [blockToBandT, this]
      refine blockToBand_congr fun i hi => ?_
      exact hzv b hb j i hj hi
  · have hp : HoldsMats bs (zeros (d :: d :: 1 :: bs)) fun _ (_ : Fin 1) => (0 : Mat d d) := ⟨rfl, fun _ _ _ _ _ => rfl⟩
    obtain ⟨p, hpe, hpp⟩ := snoc_mats ht hp
    have hx : M.diag.matT.shape = d :: d :: (n + 1) :: bs := by simp [matT, hD.1]
    have hy : p.matT.shape = d :: d :: (n + 1) :: bs := by simp [matT, hpp.1]
    obtain ⟨q, hq, hqs, hqv⟩ : ∃ q, concat 0 M.diag.matT p.matT = .ok q ∧ q.shape = 2 * d :: d :: (n + 1) :: bs ∧
        ∀ b, InRange b bs → ∀ t i j, t < n + 1 → i < d → j < 2 * d → q.val (j :: i :: t :: b) =
          if j < d then transpose3 (toT3 (m b).diag) t i j else
            transpose3 (fun b' i j => if b' < n then toT3 (S b) b' i j else 0) t i (j - d) := by
      refine ⟨_, if_pos (by rw [hx, hy]; exact ⟨by simp, by simp, rfl⟩), by simp [hx, hy, modifyAt, dim, two_mul], fun b hb t i j h1 h2 h3 => ?_⟩
      simp only [List.getD_cons_zero, dim, hx, modifyAt]
      split_ifs with hj
      · simp only [transpose3, toT3_lt _ h1 hj h2]
        exact hD.2 b hb ⟨t, h1⟩ ⟨j, hj⟩ ⟨i, h2⟩
      · have hj' : j - d < d := by omega
        have := hpp.2 b hb ⟨t, h1⟩ ⟨j - d, hj'⟩ ⟨i, h2⟩
        simp only [transpose3]
        refine Eq.trans (show p.matT.val ((j - d) :: i :: t :: b) = p.val (i :: (j - d) :: t :: b) from rfl) (this.trans ?_)
        split_ifs with htn
        · rw [toT3_lt _ htn hj' h2]
          have e : (⟨t, h1⟩ : Fin (n + 1)) = Fin.castSucc ⟨t, htn⟩ := rfl
          dsimp only
          rw [e, Fin.snoc_castSucc]
        · have e : (⟨t, h1⟩ : Fin (n + 1)) = Fin.last n := Fin.ext (by simp; omega)
          dsimp only
          rw [e, Fin.snoc_last]
          rfl
    obtain ⟨z, hz, hzs, hzv⟩ := reshape32_holds (A := fun b t i j => if j < d then transpose3 (toT3 (m b).diag) t i j else
            transpose3 (fun b' i j => if b' < n then toT3 (S b) b' i j else 0) t i (j - d)) hqs hqv
    have hr : bandRows M = 2 * d := by simp [bandRows, hS, hi]
    refine ⟨blockToBandT d z.matT, ?_, ?_, fun b hb k j hk hj => ?_⟩
    · simp only [TBTD.asBand, hS, hi, ho, hb, hpe, Bind.bind, Except.bind, hq, hz]
      rfl
    · simp [blockToBandT, matT, hzs, hr]
    · simp only [BTD.asBand, hS' b hb]
      have : z.matT.dim 1 = 2 * d := by simp [matT, hzs, dim]
      simp only [blockToBandT, this]
      refine blockToBand_congr fun i hi => ?_
      exact hzv b hb j i hj hi

theorem bandRows_pos {M : TBTD sym} {m : List ℕ → BTD sym n d} (h : HoldsBTD bs M m) (hN : 0 < (n + 1) * d) : 0 < bandRows M := by
  have : 0 < d := Nat.pos_of_ne_zero fun h => by simp [h] at hN
  unfold bandRows
  rw [(btd_dims h).1]
  split_ifs <;> omega

theorem unpackBand_congr {N rows : ℕ} {B B' : T2} (hr : 0 < N → 0 < rows) (h : ∀ k j, k < rows → j < N → B k j = B' k j) :
    unpackBand N (rows - 1) B = unpackBand N (rows - 1) B' := by
  ext i j
  unfold unpackBand
  simp only [Matrix.of_apply]
  split_ifs with hij
  · have := hr i.pos
    exact h _ _ (by omega) j.2
  · rfl

/-- `to_dense` per batch element. -/
theorem toDense_holds {M : TBTD sym} {m : List ℕ → BTD sym n d} (h : HoldsBTD bs M m) :
    ∃ z, M.toDense = .ok z ∧ HoldsMat bs z fun b => (m b).toDense := by
  obtain ⟨z, hz, hzs, hzv⟩ := asBand_holds h
  obtain ⟨hi, ho, hb⟩ := btd_dims h
  have hl : HoldsMat bs (unpackBandT M.bandwidth z) fun b => unpackBand ((n + 1) * d) (m b).bandwidth (m b).asBand := by
    simp only [unpackBandT, hzs]
    refine (holds_ofMats _ _).congr fun b hb => ?_
    rw [btd_bandwidth h hb, bandwidth_rows]
    exact unpackBand_congr (bandRows_pos h) fun k j hk hj => hzv b hb k j hk hj
  have hs : Shapes.assertEqual (unpackBandT M.bandwidth z).tfShape (bs.reverse ++ [(n + 1) * d, (n + 1) * d]) = .ok () := by
    rw [tfShape2 hl.1]
    exact assertEqual_self _
  cases sym with
  | false =>
    refine ⟨_, by simp only [TBTD.toDense, hz, Bind.bind, Except.bind, hi, ho, hb, hs]; rfl, hl.congr fun b _ => ?_⟩
    simp [BTD.toDense]
  | true =>
    obtain ⟨y, hy, hyh⟩ := plus_mat hl (matT_mat hl).b2
    obtain ⟨w, hw, hwh⟩ := minus_mat hyh (diag_vec (diagPart_mat hl)).b2
    refine ⟨w, by simp only [TBTD.toDense, hz, Bind.bind, Except.bind, hi, ho, hb, hs, hy, if_true, hw], hwh.congr fun b _ => ?_⟩
    simp [BTD.toDense, symmetrise]

/-- `_flatten_right` per batch element. -/
theorem flattenRight_holds {M : TBTD sym} {m : List ℕ → BTD sym n d} (h : HoldsBTD bs M m) {u : List ℕ} {x : Tensor}
    {f : List ℕ → Fin (n + 1) → Vec d} (hx : HoldsVecs u x f) :
    ∃ z, M.flattenRight x = .ok z ∧ HoldsMat u z fun b => Matrix.of fun i (_ : Fin 1) => BTD.flattenRight (f b) i := by
  obtain ⟨hi, ho, -⟩ := btd_dims h
  obtain ⟨z, hz, hs, hv⟩ := reshape_inner (x := x) (es := [d, n + 1]) (es' := [1, (n + 1) * d]) (s := u) hx.1 (by simp only [List.prod_cons, List.prod_nil]; ring)
  refine ⟨z, ?_, hs, fun b hb i j => ?_⟩
  · simp only [TBTD.flattenRight, hx.1, hi, ho]
    exact hz
  · have hd : 0 < d := Nat.pos_of_ne_zero fun h => by have := i.pos; simp [h] at this
    have := hv [j, i] b ⟨j.2, i.2, trivial⟩ hb
    simp only [List.cons_append, List.nil_append] at this
    rw [this]
    have hj : (j : ℕ) = 0 := by omega
    have e3 : (i : ℕ) / d < n + 1 := Nat.div_lt_of_lt_mul (lt_of_lt_of_eq i.2 (mul_comm _ _))
    simp only [flat, unflat, hj, zero_add, one_mul, mul_zero, add_zero, List.cons_append, List.nil_append, Nat.mod_eq_of_lt e3]
    exact hx.2 b hb ⟨i / d, e3⟩ ⟨i % d, Nat.mod_lt _ hd⟩

/-- `_unflatten_right` per batch element. -/
theorem unflattenRight_holds {M : TBTD sym} {m : List ℕ → BTD sym n d} (h : HoldsBTD bs M m) {u : List ℕ} {x : Tensor}
    {f : List ℕ → Vec ((n + 1) * d)} (hx : HoldsMat u x fun b => Matrix.of fun i (_ : Fin 1) => f b i) :
    ∃ z, M.unflattenRight x = .ok z ∧ HoldsVecs u z fun b => BTD.unflattenRight (f b) := by
  obtain ⟨hi, ho, -⟩ := btd_dims h
  obtain ⟨z, hz, hs, hv⟩ := reshape_inner (x := x) (es := [1, (n + 1) * d]) (es' := [d, n + 1]) (s := u) hx.1 (by simp only [List.prod_cons, List.prod_nil]; ring)
  refine ⟨z, ?_, hs, fun b hb t i => ?_⟩
  · simp only [TBTD.unflattenRight, hx.1, hi, ho]
    exact hz
  · have := hv [i, t] b ⟨i.2, t.2, trivial⟩ hb
    simp only [List.cons_append, List.nil_append] at this
    rw [this]
    have e3 : (i : ℕ) + d * t < (n + 1) * d := by
      have := t.2
      calc (i : ℕ) + d * t < d + d * t := by have := i.2; omega
        _ = d * (t + 1) := by ring
        _ ≤ d * (n + 1) := Nat.mul_le_mul_left _ (by omega)
        _ = _ := mul_comm _ _
    simp only [flat, unflat, Nat.mod_one, Nat.div_one, mul_zero, add_zero, List.cons_append, List.nil_append, Nat.mod_eq_of_lt e3]
    have := hx.2 b hb ⟨_, e3⟩ 0
    refine this.trans ?_
    simp only [Matrix.of_apply, BTD.unflattenRight]
    congr 1

theorem take_self {b u : List ℕ} (h : InRange b u) : b.take u.length = b := by
  rw [← inRange_length h, List.take_length]

/-- `dense_mult` per batch element; the right-hand side may have further (sample) axes `ss` in front of the batch axes. -/
theorem denseMult_holds {M : TBTD sym} {m : List ℕ → BTD sym n d} (h : HoldsBTD bs M m) (ss : List ℕ) {x : Tensor}
    {f : List ℕ → Fin (n + 1) → Vec d} (hx : HoldsVecs (bs ++ ss) x f) (tr : Bool) :
    ∃ z, M.denseMult x tr = .ok z ∧ HoldsVecs (bs ++ ss) z fun b => (m (b.take bs.length)).denseMult (f b) tr := by
  obtain ⟨z, hz, hzs, hzv⟩ := asBand_holds h
  obtain ⟨y, hy, hyh⟩ := flattenRight_holds h hx
  have hp : ∃ p, productBandMatT M.bandwidth z y tr sym = .ok p ∧ HoldsMat (bs ++ ss) p fun b => Matrix.of fun i (_ : Fin 1) =>
      productBandMat (m (b.take bs.length)).bandwidth (m (b.take bs.length)).asBand (BTD.flattenRight (f b)) tr sym i := by
    refine ⟨_, by simp only [productBandMatT, hzs, hyh.1, if_true, bshape_left (BT.append bs ss)]; rfl,
      (holds_ofMats _ _).congr fun b hb => ?_⟩
    ext i j
    simp only [Matrix.of_apply]
    have hb' := (inRange_split hb).1
    rw [btd_bandwidth h hb', bandwidth_rows]
    unfold productBandMat
    rw [bidx_append hb, bidx_self hb]
    rw [unpackBand_congr (B := z.arrayAt (b.take bs.length)) (B' := (m (b.take bs.length)).asBand) (bandRows_pos h)
      fun k j hk hj => hzv _ hb' k j hk hj]
    have : (fun i : Fin ((n + 1) * d) => y.val (0 :: (i : ℕ) :: b)) = BTD.flattenRight (f b) := funext fun i => hyh.2 b hb i 0
    rw [this]
  obtain ⟨p, hp, hph⟩ := hp
  obtain ⟨w, hw, hwh⟩ := unflattenRight_holds h hph
  exact ⟨w, by simp only [TBTD.denseMult, hy, hz, hp, hw, Bind.bind, Except.bind], hwh⟩

theorem compatible_right (bs ss : List ℕ) (k d : ℕ) :
    Shapes.assertCompatibleRight (bs.reverse ++ [k, d, d]) ((bs ++ ss).reverse ++ [k, d]) = .ok () := by
  refine C42_right_hand_side_complete _ _ _ _ (.inr (by simp)) ?_
  unfold Broadcastable
  rw [List.reverse_reverse, List.reverse_reverse]
  induction bs with
  | nil => cases ss <;> trivial
  | cons a bs ih => exact ⟨.inl rfl, ih⟩

/-- `solve` per batch element; the right-hand side may have further (sample) axes. -/
theorem solve_holds {M : TBTD false} {m : List ℕ → BTD false n d} (h : HoldsBTD bs M m) (ss : List ℕ) {x : Tensor}
    {f : List ℕ → Fin (n + 1) → Vec d} (hx : HoldsVecs (bs ++ ss) x f) (tr : Bool) :
    ∃ z, M.solve x tr = .ok z ∧ HoldsVecs (bs ++ ss) z fun b => (m (b.take bs.length)).solve (f b) tr := by
  obtain ⟨z, hz, hzs, hzv⟩ := asBand_holds h
  obtain ⟨y, hy, hyh⟩ := flattenRight_holds h hx
  have hp : ∃ p, solveTriangMatT z y tr = .ok p ∧ HoldsMat (bs ++ ss) p fun b => Matrix.of fun i (_ : Fin 1) =>
      solveTriangMat (m (b.take bs.length)).bandwidth (m (b.take bs.length)).asBand (BTD.flattenRight (f b)) tr i := by
    refine ⟨_, by simp only [solveTriangMatT, hzs, hyh.1, if_true, bshape_left (BT.append bs ss)]; rfl,
      (holds_ofMats _ _).congr fun b hb => ?_⟩
    ext i j
    simp only [Matrix.of_apply]
    have hb' := (inRange_split hb).1
    rw [btd_bandwidth h hb', bandwidth_rows]
    unfold solveTriangMat
    rw [bidx_append hb, bidx_self hb]
    rw [unpackBand_congr (B := z.arrayAt (b.take bs.length)) (B' := (m (b.take bs.length)).asBand) (bandRows_pos h)
      fun k j hk hj => hzv _ hb' k j hk hj]
    have : (fun i : Fin ((n + 1) * d) => y.val (0 :: (i : ℕ) :: b)) = BTD.flattenRight (f b) := funext fun i => hyh.2 b hb i 0
    rw [this]
  obtain ⟨p, hp, hph⟩ := hp
  obtain ⟨w, hw, hwh⟩ := unflattenRight_holds h hph
  have hc : Shapes.assertCompatibleRight M.diag.tfShape x.tfShape = .ok () := by
    rw [tfShape3 h.1.1, tfShape2 hx.1]
    exact compatible_right bs ss (n + 1) d
  exact ⟨w, by simp only [TBTD.solve, hc, hy, hz, hp, hw, Bind.bind, Except.bind], hwh⟩

theorem denseMult_holds' {M : TBTD sym} {m : List ℕ → BTD sym n d} (h : HoldsBTD bs M m) {x : Tensor}
    {f : List ℕ → Fin (n + 1) → Vec d} (hx : HoldsVecs bs x f) (tr : Bool) :
    ∃ z, M.denseMult x tr = .ok z ∧ HoldsVecs bs z fun b => (m b).denseMult (f b) tr := by
  obtain ⟨z, hz, hzh⟩ := denseMult_holds h [] (by rw [List.append_nil]; exact hx) tr
  rw [List.append_nil] at hzh
  exact ⟨z, hz, hzh.congr fun b hb => by rw [take_self hb]⟩

theorem solve_holds' {M : TBTD false} {m : List ℕ → BTD false n d} (h : HoldsBTD bs M m) {x : Tensor}
    {f : List ℕ → Fin (n + 1) → Vec d} (hx : HoldsVecs bs x f) (tr : Bool) :
    ∃ z, M.solve x tr = .ok z ∧ HoldsVecs bs z fun b => (m b).solve (f b) tr := by
  obtain ⟨z, hz, hzh⟩ := solve_holds h [] (by rw [List.append_nil]; exact hx) tr
  rw [List.append_nil] at hzh
  exact ⟨z, hz, hzh.congr fun b hb => by rw [take_self hb]⟩

end MF
