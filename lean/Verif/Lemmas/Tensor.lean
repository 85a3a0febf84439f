import Verif.Spec.Batched
import Verif.Props.Shapes

/-!
# Lemmas on raw tensors
-/

namespace MF
open Matrix Spec Tensor

/-! ### Indices -/

@[simp] theorem inRange_nil : InRange [] [] := trivial
@[simp] theorem inRange_cons {i n : ℕ} {b s : List ℕ} : InRange (i :: b) (n :: s) ↔ i < n ∧ InRange b s := Iff.rfl

theorem inRange_cons_iff {n : ℕ} {s b : List ℕ} : InRange b (n :: s) ↔ ∃ i b', b = i :: b' ∧ i < n ∧ InRange b' s := by
  cases b with
  | nil => simp [InRange]
  | cons i b => simp [InRange]

theorem inRange_exists {bs : List ℕ} (h : ∀ n ∈ bs, 0 < n) : ∃ b, InRange b bs := by
  induction bs with
  | nil => exact ⟨[], trivial⟩
  | cons n s ih =>
    obtain ⟨b, hb⟩ := ih fun m hm => h m (List.mem_cons_of_mem _ hm)
    exact ⟨0 :: b, h n List.mem_cons_self, hb⟩

theorem inRange_append {b₁ b₂ s₁ s₂ : List ℕ} (h₁ : InRange b₁ s₁) (h₂ : InRange b₂ s₂) : InRange (b₁ ++ b₂) (s₁ ++ s₂) := by
  induction s₁ generalizing b₁ with
  | nil => cases b₁ with
    | nil => exact h₂
    | cons => exact h₁.elim
  | cons n s ih =>
    obtain ⟨i, b', rfl, hi, hb⟩ := inRange_cons_iff.1 h₁
    exact ⟨hi, ih hb⟩

theorem inRange_length {b s : List ℕ} (h : InRange b s) : b.length = s.length := by
  induction s generalizing b with
  | nil => cases b with
    | nil => rfl
    | cons => exact h.elim
  | cons n s ih =>
    obtain ⟨i, b', rfl, hi, hb⟩ := inRange_cons_iff.1 h
    simp [ih hb]

theorem inRange_split {s₁ s₂ b : List ℕ} (h : InRange b (s₁ ++ s₂)) :
    InRange (b.take s₁.length) s₁ ∧ InRange (b.drop s₁.length) s₂ := by
  induction s₁ generalizing b with
  | nil => exact ⟨by simp, by simpa using h⟩
  | cons n s ih =>
    obtain ⟨i, b', rfl, hi, hb⟩ := inRange_cons_iff.1 h
    exact ⟨⟨hi, (ih hb).1⟩, (ih hb).2⟩

/-! ### Broadcasting -/

/-- `s` can be broadcast to `u`. -/
def BT : List ℕ → List ℕ → Prop
  | [], _ => True
  | a :: s, b :: u => (a = b ∨ a = 1) ∧ BT s u
  | _ :: _, [] => False

theorem BT.refl : ∀ u : List ℕ, BT u u
  | [] => trivial
  | _ :: u => ⟨.inl rfl, BT.refl u⟩

theorem BT.append : ∀ u v : List ℕ, BT u (u ++ v)
  | [], _ => trivial
  | _ :: u, v => ⟨.inl rfl, BT.append u v⟩

theorem bshape_left {s u : List ℕ} (h : BT s u) : bshape s u = .ok u := by
  induction s generalizing u with
  | nil => simp [bshape]
  | cons a s ih =>
    cases u with
    | nil => exact h.elim
    | cons b u =>
      obtain ⟨h1, h2⟩ := h
      simp only [bshape, ih h2, bind, Except.bind]
      by_cases hb : a = b ∨ b = 1
      · rw [if_pos hb]
        rcases hb with rfl | rfl
        · rfl
        · rcases h1 with rfl | rfl <;> rfl
      · rw [if_neg hb, if_pos (h1.resolve_left fun e => hb (.inl e))]

theorem bshape_right {s u : List ℕ} (h : BT s u) : bshape u s = .ok u := by
  induction s generalizing u with
  | nil => cases u <;> simp [bshape]
  | cons a s ih =>
    cases u with
    | nil => exact h.elim
    | cons b u =>
      obtain ⟨h1, h2⟩ := h
      simp only [bshape, ih h2, bind, Except.bind]
      rw [if_pos]
      rcases h1 with rfl | rfl
      · exact .inl rfl
      · exact .inr rfl

theorem bidx_self {u b : List ℕ} (h : InRange b u) : bidx u b = b := by
  induction u generalizing b with
  | nil => cases b with
    | nil => rfl
    | cons => exact h.elim
  | cons n s ih =>
    obtain ⟨i, b', rfl, hi, hb⟩ := inRange_cons_iff.1 h
    simp only [bidx, ih hb]
    split_ifs with h1
    · have : i = 0 := by omega
      rw [this]
    · rfl

theorem bidx_append {u v b : List ℕ} (h : InRange b (u ++ v)) : bidx u b = b.take u.length := by
  induction u generalizing b with
  | nil => rfl
  | cons n s ih =>
    obtain ⟨i, b', rfl, hi, hb⟩ := inRange_cons_iff.1 h
    simp only [bidx, ih hb, List.length_cons, List.take_succ_cons]
    split_ifs with h1
    · have : i = 0 := by omega
      rw [this]
    · rfl

/-! ### Tensors that hold values after broadcasting -/

/-- After broadcasting to shape `u`, `x` holds `f b` at `b`. -/
def B0 (u : List ℕ) (x : Tensor) (f : List ℕ → ℝ) : Prop :=
  BT x.shape u ∧ ∀ b, InRange b u → x.val (bidx x.shape b) = f b

/-- After broadcasting its batch axes to `u`, `x` holds the vector `f b` at `b`. -/
def B1 {d : ℕ} (u : List ℕ) (x : Tensor) (f : List ℕ → Vec d) : Prop :=
  ∃ s, x.shape = d :: s ∧ BT s u ∧ ∀ b, InRange b u → ∀ i : Fin d, x.val ((i : ℕ) :: bidx s b) = f b i

/-- After broadcasting its batch axes to `u`, `x` holds the matrix `A b` at `b`. -/
def B2 {r c : ℕ} (u : List ℕ) (x : Tensor) (A : List ℕ → Mat r c) : Prop :=
  ∃ s, x.shape = c :: r :: s ∧ BT s u ∧
    ∀ b, InRange b u → ∀ (i : Fin r) (j : Fin c), x.val ((j : ℕ) :: (i : ℕ) :: bidx s b) = A b i j

theorem Spec.HoldsReal.b0 {u x f} (h : HoldsReal u x f) : B0 u x f := by
  obtain ⟨h1, h2⟩ := h
  subst h1
  exact ⟨BT.refl _, fun b hb => by rw [bidx_self hb, h2 b hb]⟩

theorem Spec.HoldsVec.b1 {d u x} {f : List ℕ → Vec d} (h : HoldsVec u x f) : B1 u x f :=
  ⟨u, h.1, BT.refl _, fun b hb i => by rw [bidx_self hb, h.2 b hb]⟩

theorem Spec.HoldsMat.b2 {r c u x} {A : List ℕ → Mat r c} (h : HoldsMat u x A) : B2 u x A :=
  ⟨u, h.1, BT.refl _, fun b hb i j => by rw [bidx_self hb, h.2 b hb]⟩

theorem Spec.HoldsReal.extend {u x f} (h : HoldsReal u x f) (v : List ℕ) : B0 (u ++ v) x fun b => f (b.take u.length) := by
  obtain ⟨h1, h2⟩ := h
  subst h1
  exact ⟨BT.append _ _, fun b hb => by rw [bidx_append hb]; exact h2 _ (inRange_split hb).1⟩

theorem Spec.HoldsVec.extend {d u x} {f : List ℕ → Vec d} (h : HoldsVec u x f) (v : List ℕ) :
    B1 (u ++ v) x fun b => f (b.take u.length) :=
  ⟨u, h.1, BT.append _ _, fun b hb i => by rw [bidx_append hb]; exact h.2 _ (inRange_split hb).1 i⟩

theorem Spec.HoldsMat.extend {r c u x} {A : List ℕ → Mat r c} (h : HoldsMat u x A) (v : List ℕ) :
    B2 (u ++ v) x fun b => A (b.take u.length) :=
  ⟨u, h.1, BT.append _ _, fun b hb i j => by rw [bidx_append hb]; exact h.2 _ (inRange_split hb).1 i j⟩

theorem Spec.HoldsReal.congr {u x f g} (h : HoldsReal u x f) (e : ∀ b, InRange b u → f b = g b) : HoldsReal u x g :=
  ⟨h.1, fun b hb => (h.2 b hb).trans (e b hb)⟩

theorem Spec.HoldsVec.congr {d u x} {f g : List ℕ → Vec d} (h : HoldsVec u x f) (e : ∀ b, InRange b u → f b = g b) : HoldsVec u x g :=
  ⟨h.1, fun b hb i => (h.2 b hb i).trans (congrFun (e b hb) i)⟩

theorem Spec.HoldsMat.congr {r c u x} {f g : List ℕ → Mat r c} (h : HoldsMat u x f) (e : ∀ b, InRange b u → f b = g b) : HoldsMat u x g :=
  ⟨h.1, fun b hb i j => (h.2 b hb i j).trans (congrFun (congrFun (e b hb) i) j)⟩

theorem B0.congr {u x f g} (h : B0 u x f) (e : ∀ b, InRange b u → f b = g b) : B0 u x g :=
  ⟨h.1, fun b hb => (h.2 b hb).trans (e b hb)⟩

theorem B1.congr {d u x} {f g : List ℕ → Vec d} (h : B1 u x f) (e : ∀ b, InRange b u → f b = g b) : B1 u x g := by
  obtain ⟨s, h1, h2, h3⟩ := h
  exact ⟨s, h1, h2, fun b hb i => (h3 b hb i).trans (congrFun (e b hb) i)⟩

theorem B2.congr {r c u x} {f g : List ℕ → Mat r c} (h : B2 u x f) (e : ∀ b, InRange b u → f b = g b) : B2 u x g := by
  obtain ⟨s, h1, h2, h3⟩ := h
  exact ⟨s, h1, h2, fun b hb i j => (h3 b hb i j).trans (congrFun (congrFun (e b hb) i) j)⟩

/-! ### A family over the innermost batch axis -/

/-- The family `A b t` as a family over the indices `t :: b`. -/
def lift {α : Type*} [Zero α] {n : ℕ} (A : List ℕ → Fin n → α) : List ℕ → α
  | [] => 0
  | t :: b => if h : t < n then A b ⟨t, h⟩ else 0

theorem lift_fin {α : Type*} [Zero α] {n : ℕ} (A : List ℕ → Fin n → α) (t : Fin n) (b : List ℕ) : lift A ((t : ℕ) :: b) = A b t := by
  simp [lift]

/-- To prove something for all indices in `n :: u` it suffices to prove it for `t :: b`. -/
theorem forall_inRange_cons {n : ℕ} {u : List ℕ} {P : List ℕ → Prop} :
    (∀ b, InRange b (n :: u) → P b) ↔ ∀ b, InRange b u → ∀ t : Fin n, P ((t : ℕ) :: b) := by
  constructor
  · exact fun h b hb t => h _ ⟨t.2, hb⟩
  · rintro h b hb
    obtain ⟨i, b', rfl, hi, hb'⟩ := inRange_cons_iff.1 hb
    exact h b' hb' ⟨i, hi⟩

theorem lift_map {α β : Type*} [Zero α] [Zero β] {n : ℕ} {A : List ℕ → Fin n → α} {B : List ℕ → Fin n → β} {u : List ℕ} (f : α → β)
    (h : ∀ b, InRange b u → ∀ t, f (A b t) = B b t) : ∀ b, InRange b (n :: u) → f (lift A b) = lift B b :=
  forall_inRange_cons.2 fun b hb t => by rw [lift_fin, lift_fin, h b hb]

theorem holdsVec_iff {d u x} {f : List ℕ → Vec d} : HoldsVec u x f ↔ HoldsReal (d :: u) x (lift f) :=
  and_congr_right fun _ => (forall_inRange_cons.trans (by simp only [lift_fin])).symm

theorem holdsMat_iff {r c u x} {A : List ℕ → Mat r c} :
    HoldsMat u x A ↔ HoldsVec (r :: u) x (lift fun b => (fun i j => A b i j : Fin r → Vec c)) :=
  and_congr_right fun _ => (forall_inRange_cons.trans (by simp only [lift_fin])).symm

theorem holdsVecs_iff {n d u x} {f : List ℕ → Fin n → Vec d} : HoldsVecs u x f ↔ HoldsVec (n :: u) x (lift f) :=
  and_congr_right fun _ => (forall_inRange_cons.trans (by simp only [lift_fin])).symm

theorem holdsMats_iff {n r c u x} {A : List ℕ → Fin n → Mat r c} : HoldsMats u x A ↔ HoldsMat (n :: u) x (lift A) :=
  and_congr_right fun _ => (forall_inRange_cons.trans (by simp only [lift_fin])).symm

theorem Spec.HoldsVecs.congr {n d u x} {f g : List ℕ → Fin n → Vec d} (h : HoldsVecs u x f) (e : ∀ b, InRange b u → f b = g b) :
    HoldsVecs u x g :=
  ⟨h.1, fun b hb t i => (h.2 b hb t i).trans (by rw [e b hb])⟩

theorem Spec.HoldsMats.congr {n r c u x} {f g : List ℕ → Fin n → Mat r c} (h : HoldsMats u x f) (e : ∀ b, InRange b u → f b = g b) :
    HoldsMats u x g :=
  ⟨h.1, fun b hb t i j => (h.2 b hb t i j).trans (by rw [e b hb])⟩

theorem BT_cons {n : ℕ} {s u : List ℕ} (h : BT s u) : BT (n :: s) (n :: u) := ⟨.inl rfl, h⟩

theorem bidx_cons_fin {n : ℕ} (t : Fin n) (s b : List ℕ) : bidx (n :: s) ((t : ℕ) :: b) = (t : ℕ) :: bidx s b := by
  simp only [bidx]
  split_ifs with h
  · subst h
    simp
  · rfl

theorem B1.b0 {d u x} {f : List ℕ → Vec d} (h : B1 u x f) : B0 (d :: u) x (lift f) := by
  obtain ⟨s, h1, h2, h3⟩ := h
  refine ⟨by rw [h1]; exact BT_cons h2, forall_inRange_cons.2 fun b hb t => ?_⟩
  rw [h1, lift_fin, bidx_cons_fin, h3 b hb]

theorem B2.b1 {r c u x} {A : List ℕ → Mat r c} (h : B2 u x A) : B1 (r :: u) x (lift fun b => (fun i j => A b i j : Fin r → Vec c)) := by
  obtain ⟨s, h1, h2, h3⟩ := h
  refine ⟨r :: s, h1, BT_cons h2, forall_inRange_cons.2 fun b hb t i => ?_⟩
  rw [lift_fin, bidx_cons_fin, h3 b hb]

/-! ### Element-wise ops -/

theorem zipWith_left {u x y} {f g : List ℕ → ℝ} (op : ℝ → ℝ → ℝ) (hx : HoldsReal u x f) (hy : B0 u y g) :
    ∃ z, zipWith op x y = .ok z ∧ HoldsReal u z fun b => op (f b) (g b) := by
  refine ⟨⟨u, fun i => op (x.val (bidx x.shape i)) (y.val (bidx y.shape i))⟩, ?_, rfl, fun b hb => ?_⟩
  · simp only [zipWith, hx.1, bshape_right hy.1]
    rfl
  · dsimp only
    rw [hy.2 b hb, hx.1, bidx_self hb, hx.2 b hb]

theorem zipWith_right {u x y} {f g : List ℕ → ℝ} (op : ℝ → ℝ → ℝ) (hx : B0 u x f) (hy : HoldsReal u y g) :
    ∃ z, zipWith op x y = .ok z ∧ HoldsReal u z fun b => op (f b) (g b) := by
  refine ⟨⟨u, fun i => op (x.val (bidx x.shape i)) (y.val (bidx y.shape i))⟩, ?_, rfl, fun b hb => ?_⟩
  · simp only [zipWith, hy.1, bshape_left hx.1]
    rfl
  · dsimp only
    rw [hx.2 b hb, hy.1, bidx_self hb, hy.2 b hb]

theorem zipWith_vec {d u x y} {f g : List ℕ → Vec d} (op : ℝ → ℝ → ℝ) (hx : HoldsVec u x f) (hy : B1 u y g) :
    ∃ z, zipWith op x y = .ok z ∧ HoldsVec u z fun b i => op (f b i) (g b i) := by
  obtain ⟨z, hz, h⟩ := zipWith_left op (holdsVec_iff.1 hx) hy.b0
  exact ⟨z, hz, holdsVec_iff.2 (h.congr (forall_inRange_cons.2 fun b _ t => by simp only [lift_fin]))⟩

theorem zipWith_vec' {d u x y} {f g : List ℕ → Vec d} (op : ℝ → ℝ → ℝ) (hx : B1 u x f) (hy : HoldsVec u y g) :
    ∃ z, zipWith op x y = .ok z ∧ HoldsVec u z fun b i => op (f b i) (g b i) := by
  obtain ⟨z, hz, h⟩ := zipWith_right op hx.b0 (holdsVec_iff.1 hy)
  exact ⟨z, hz, holdsVec_iff.2 (h.congr (forall_inRange_cons.2 fun b _ t => by simp only [lift_fin]))⟩

theorem zipWith_mat {r c u x y} {f g : List ℕ → Mat r c} (op : ℝ → ℝ → ℝ) (hx : HoldsMat u x f) (hy : B2 u y g) :
    ∃ z, zipWith op x y = .ok z ∧ HoldsMat u z fun b => Matrix.of fun i j => op (f b i j) (g b i j) := by
  obtain ⟨z, hz, h⟩ := zipWith_vec op (holdsMat_iff.1 hx) hy.b1
  refine ⟨z, hz, holdsMat_iff.2 (h.congr (forall_inRange_cons.2 fun b _ t => ?_))⟩
  simp only [lift_fin]
  rfl

theorem plus_mat {r c u x y} {f g : List ℕ → Mat r c} (hx : HoldsMat u x f) (hy : B2 u y g) :
    ∃ z, plus x y = .ok z ∧ HoldsMat u z fun b => f b + g b := zipWith_mat (· + ·) hx hy

theorem minus_mat {r c u x y} {f g : List ℕ → Mat r c} (hx : HoldsMat u x f) (hy : B2 u y g) :
    ∃ z, minus x y = .ok z ∧ HoldsMat u z fun b => f b - g b := zipWith_mat (· - ·) hx hy

theorem times_mat {r c u x y} {f g : List ℕ → Mat r c} (hx : HoldsMat u x f) (hy : B2 u y g) :
    ∃ z, times x y = .ok z ∧ HoldsMat u z fun b => Matrix.of fun i j => f b i j * g b i j := zipWith_mat (· * ·) hx hy

theorem plus_vec {d u x y} {f g : List ℕ → Vec d} (hx : HoldsVec u x f) (hy : B1 u y g) :
    ∃ z, plus x y = .ok z ∧ HoldsVec u z fun b => f b + g b := zipWith_vec (· + ·) hx hy

theorem plus_vec' {d u x y} {f g : List ℕ → Vec d} (hx : B1 u x f) (hy : HoldsVec u y g) :
    ∃ z, plus x y = .ok z ∧ HoldsVec u z fun b => f b + g b := zipWith_vec' (· + ·) hx hy

theorem minus_vec {d u x y} {f g : List ℕ → Vec d} (hx : HoldsVec u x f) (hy : B1 u y g) :
    ∃ z, minus x y = .ok z ∧ HoldsVec u z fun b => f b - g b := zipWith_vec (· - ·) hx hy

theorem times_vec {d u x y} {f g : List ℕ → Vec d} (hx : HoldsVec u x f) (hy : B1 u y g) :
    ∃ z, times x y = .ok z ∧ HoldsVec u z fun b i => f b i * g b i := zipWith_vec (· * ·) hx hy

theorem plus_real {u x y} {f g : List ℕ → ℝ} (hx : HoldsReal u x f) (hy : B0 u y g) :
    ∃ z, plus x y = .ok z ∧ HoldsReal u z fun b => f b + g b := zipWith_left (· + ·) hx hy

theorem minus_real {u x y} {f g : List ℕ → ℝ} (hx : HoldsReal u x f) (hy : B0 u y g) :
    ∃ z, minus x y = .ok z ∧ HoldsReal u z fun b => f b - g b := zipWith_left (· - ·) hx hy

theorem map_real {u x} {f : List ℕ → ℝ} (op : ℝ → ℝ) (hx : HoldsReal u x f) : HoldsReal u (x.map op) fun b => op (f b) :=
  ⟨hx.1, fun b hb => congrArg op (hx.2 b hb)⟩

theorem map_b0 {u x} {f : List ℕ → ℝ} (op : ℝ → ℝ) (hx : B0 u x f) : B0 u (x.map op) fun b => op (f b) :=
  ⟨hx.1, fun b hb => congrArg op (hx.2 b hb)⟩

theorem map_vec {d u x} {f : List ℕ → Vec d} (op : ℝ → ℝ) (hx : HoldsVec u x f) : HoldsVec u (x.map op) fun b i => op (f b i) :=
  ⟨hx.1, fun b hb i => congrArg op (hx.2 b hb i)⟩

theorem map_mat {r c u x} {f : List ℕ → Mat r c} (op : ℝ → ℝ) (hx : HoldsMat u x f) :
    HoldsMat u (x.map op) fun b => (f b).map op :=
  ⟨hx.1, fun b hb i j => congrArg op (hx.2 b hb i j)⟩

theorem neg_mat {r c u x} {f : List ℕ → Mat r c} (hx : HoldsMat u x f) : HoldsMat u (x.map (-·)) fun b => -f b :=
  (map_mat (-·) hx).congr fun b _ => by ext; simp

/-! ### Structure -/

theorem matT_mat {r c u x} {A : List ℕ → Mat r c} (hx : HoldsMat u x A) : HoldsMat u x.matT fun b => (A b)ᵀ := by
  refine ⟨by simp [matT, hx.1], fun b hb i j => ?_⟩
  exact hx.2 b hb j i

theorem diagPart_mat {d u x} {A : List ℕ → Mat d d} (hx : HoldsMat u x A) : HoldsVec u x.diagPart fun b i => A b i i := by
  refine ⟨by simp [diagPart, hx.1], fun b hb i => ?_⟩
  exact hx.2 b hb i i

theorem diag_vec {d u x} {f : List ℕ → Vec d} (hx : HoldsVec u x f) : HoldsMat u x.diag fun b => Matrix.diagonal (f b) := by
  refine ⟨by simp [Tensor.diag, hx.1], fun b hb i j => ?_⟩
  simp only [Tensor.diag, Matrix.diagonal_apply, Fin.val_inj]
  split_ifs with h
  · rw [← h, hx.2 b hb]
  · rfl

theorem sum1_vec {d u x} {f : List ℕ → Vec d} (hx : HoldsVec u x f) : HoldsReal u x.sum1 fun b => ∑ i, f b i := by
  have h : x.sum1 = ⟨u, fun b => ∑ i : Fin d, x.val ((i : ℕ) :: b)⟩ := by simp [sum1, hx.1]
  rw [h]
  exact ⟨rfl, fun b hb => by dsimp only; exact Finset.sum_congr rfl fun i _ => hx.2 b hb i⟩

theorem sum1_mat {r c u x} {A : List ℕ → Mat r c} (hx : HoldsMat u x A) : HoldsVec u x.sum1 fun b i => ∑ j, A b i j := by
  have h : x.sum1 = ⟨r :: u, fun b => ∑ i : Fin c, x.val ((i : ℕ) :: b)⟩ := by simp [sum1, hx.1]
  rw [h]
  exact ⟨rfl, fun b hb i => by dsimp only; exact Finset.sum_congr rfl fun j _ => hx.2 b hb i j⟩

theorem sum1_vecs {n d u x} {f : List ℕ → Fin n → Vec d} (hx : HoldsVecs u x f) : HoldsVec u x.sum1 fun b t => ∑ i, f b t i := by
  have h : x.sum1 = ⟨n :: u, fun b => ∑ i : Fin d, x.val ((i : ℕ) :: b)⟩ := by simp [sum1, hx.1]
  rw [h]
  exact ⟨rfl, fun b hb i => by dsimp only; exact Finset.sum_congr rfl fun j _ => hx.2 b hb i j⟩

theorem sum1_mats {n r c u x} {A : List ℕ → Fin n → Mat r c} (hx : HoldsMats u x A) :
    HoldsVecs u x.sum1 fun b t i => ∑ j, A b t i j := by
  have h : x.sum1 = ⟨r :: n :: u, fun b => ∑ i : Fin c, x.val ((i : ℕ) :: b)⟩ := by simp [sum1, hx.1]
  rw [h]
  exact ⟨rfl, fun b hb t i => by dsimp only; exact Finset.sum_congr rfl fun j _ => hx.2 b hb t i j⟩

/-! ### Slices and concatenation along the time axis -/

theorem expand_mat {r c u x} {A : List ℕ → Mat r c} (hx : HoldsMat u x A) : HoldsMats u (expand 2 x) fun b (_ : Fin 1) => A b := by
  refine ⟨by simp [expand, hx.1, insertAt], fun b hb t i j => ?_⟩
  simp only [expand, removeAt]
  exact hx.2 b hb i j

theorem expand_vec {d u x} {f : List ℕ → Vec d} (hx : HoldsVec u x f) : HoldsVecs u (expand 1 x) fun b (_ : Fin 1) => f b := by
  refine ⟨by simp [expand, hx.1, insertAt], fun b hb t i => ?_⟩
  simp only [expand, removeAt]
  exact hx.2 b hb i

theorem expand_real {u x} {f : List ℕ → ℝ} (hx : HoldsReal u x f) : HoldsVec u (expand 0 x) fun b (_ : Fin 1) => f b := by
  refine ⟨by simp [expand, hx.1, insertAt], fun b hb t => ?_⟩
  simp only [expand, removeAt]
  exact hx.2 b hb

/-- `x[..., None]`: a vector as a one-column matrix. -/
theorem expand_col {d u x} {f : List ℕ → Vec d} (hx : HoldsVec u x f) :
    HoldsMat u (expand 0 x) fun b => Matrix.of fun i (_ : Fin 1) => f b i := by
  refine ⟨by simp [expand, hx.1, insertAt], fun b hb i j => ?_⟩
  simp only [expand, removeAt]
  exact hx.2 b hb i

/-- `x[..., 0]`: the first column of a matrix. -/
theorem index_col {r c u x} {A : List ℕ → Mat r c} (hx : HoldsMat u x A) (k : Fin c) :
    HoldsVec u (index 0 k x) fun b i => A b i k := by
  refine ⟨by simp [index, hx.1, removeAt], fun b hb i => ?_⟩
  simp only [index, insertAt]
  exact hx.2 b hb i k

theorem index_vec {d u x} {f : List ℕ → Vec d} (hx : HoldsVec u x f) (k : Fin d) : HoldsReal u (index 0 k x) fun b => f b k := by
  refine ⟨by simp [index, hx.1, removeAt], fun b hb => ?_⟩
  simp only [index, insertAt]
  exact hx.2 b hb k

theorem index_vecs {n d u x} {f : List ℕ → Fin n → Vec d} (hx : HoldsVecs u x f) (k : Fin n) : HoldsVec u (index 1 k x) fun b => f b k := by
  refine ⟨by simp [index, hx.1, removeAt], fun b hb i => ?_⟩
  simp only [index, insertAt]
  exact hx.2 b hb k i

theorem index_mats {n r c u x} {A : List ℕ → Fin n → Mat r c} (hx : HoldsMats u x A) (k : Fin n) :
    HoldsMat u (index 2 k x) fun b => A b k := by
  refine ⟨by simp [index, hx.1, removeAt], fun b hb i j => ?_⟩
  simp only [index, insertAt]
  exact hx.2 b hb k i j

theorem sliceDrop_mats {n r c u x} {A : List ℕ → Fin (n + 1) → Mat r c} (hx : HoldsMats u x A) :
    HoldsMats u (sliceDrop 2 1 x) fun b (k : Fin n) => A b k.castSucc := by
  refine ⟨by simp [sliceDrop, hx.1, modifyAt], fun b hb t i j => ?_⟩
  exact hx.2 b hb t.castSucc i j

theorem sliceDrop_vecs {n d u x} {f : List ℕ → Fin (n + 1) → Vec d} (hx : HoldsVecs u x f) :
    HoldsVecs u (sliceDrop 1 1 x) fun b (k : Fin n) => f b k.castSucc := by
  refine ⟨by simp [sliceDrop, hx.1, modifyAt], fun b hb t i => ?_⟩
  exact hx.2 b hb t.castSucc i

theorem sliceFrom_mats {n r c u x} {A : List ℕ → Fin (n + 1) → Mat r c} (hx : HoldsMats u x A) :
    HoldsMats u (sliceFrom 2 1 x) fun b (k : Fin n) => A b k.succ := by
  refine ⟨by simp [sliceFrom, hx.1, modifyAt], fun b hb t i j => ?_⟩
  exact hx.2 b hb t.succ i j

theorem sliceFrom_vecs {n d u x} {f : List ℕ → Fin (n + 1) → Vec d} (hx : HoldsVecs u x f) :
    HoldsVecs u (sliceFrom 1 1 x) fun b (k : Fin n) => f b k.succ := by
  refine ⟨by simp [sliceFrom, hx.1, modifyAt], fun b hb t i => ?_⟩
  exact hx.2 b hb t.succ i

theorem sliceLast_mats {n r c u x} {A : List ℕ → Fin (n + 1) → Mat r c} (hx : HoldsMats u x A) :
    HoldsMats u (sliceFrom 2 n x) fun b (_ : Fin 1) => A b (Fin.last n) := by
  refine ⟨by simp [sliceFrom, hx.1, modifyAt], fun b hb t i j => ?_⟩
  have := hx.2 b hb (Fin.last n) i j
  simpa [sliceFrom, modifyAt] using this

theorem cons_mats {n r c u x y} {A : List ℕ → Fin 1 → Mat r c} {B : List ℕ → Fin n → Mat r c} (hx : HoldsMats u x A)
    (hy : HoldsMats u y B) :
    ∃ z, concat 2 x y = .ok z ∧ HoldsMats u z fun b => (Fin.cons (A b 0) (B b) : Fin (n + 1) → Mat r c) := by
  refine ⟨_, if_pos (by rw [hx.1, hy.1]; exact ⟨by simp, by simp, rfl⟩), ?_, fun b hb t i j => ?_⟩
  · simp [modifyAt, dim, hx.1, hy.1, add_comm]
  · simp only [dim, hx.1, List.getD_cons_succ, List.getD_cons_zero, modifyAt]
    refine Fin.cases ?_ (fun k => ?_) t
    · rw [if_pos (by simp), Fin.cons_zero]
      exact hx.2 b hb 0 i j
    · rw [if_neg (by simp), Fin.cons_succ]
      exact hy.2 b hb k i j

theorem cons_vecs {n d u x y} {f : List ℕ → Fin 1 → Vec d} {g : List ℕ → Fin n → Vec d} (hx : HoldsVecs u x f) (hy : HoldsVecs u y g) :
    ∃ z, concat 1 x y = .ok z ∧ HoldsVecs u z fun b => (Fin.cons (f b 0) (g b) : Fin (n + 1) → Vec d) := by
  refine ⟨_, if_pos (by rw [hx.1, hy.1]; exact ⟨by simp, by simp, rfl⟩), ?_, fun b hb t i => ?_⟩
  · simp [modifyAt, dim, hx.1, hy.1, add_comm]
  · simp only [dim, hx.1, List.getD_cons_succ, List.getD_cons_zero, modifyAt]
    refine Fin.cases ?_ (fun k => ?_) t
    · rw [if_pos (by simp), Fin.cons_zero]
      exact hx.2 b hb 0 i
    · rw [if_neg (by simp), Fin.cons_succ]
      exact hy.2 b hb k i

theorem cons_vec {n u x y} {f : List ℕ → Vec 1} {g : List ℕ → Vec n} (hx : HoldsVec u x f) (hy : HoldsVec u y g) :
    ∃ z, concat 0 x y = .ok z ∧ HoldsVec u z fun b => (Fin.cons (f b 0) (g b) : Fin (n + 1) → ℝ) := by
  refine ⟨_, if_pos (by rw [hx.1, hy.1]; exact ⟨by simp, by simp, rfl⟩), ?_, fun b hb t => ?_⟩
  · simp [modifyAt, dim, hx.1, hy.1, add_comm]
  · simp only [dim, hx.1, List.getD_cons_zero, modifyAt]
    refine Fin.cases ?_ (fun k => ?_) t
    · rw [if_pos (by simp), Fin.cons_zero]
      exact hx.2 b hb 0
    · rw [if_neg (by simp), Fin.cons_succ]
      exact hy.2 b hb k

theorem snoc_mats {n r c u x y} {A : List ℕ → Fin n → Mat r c} {B : List ℕ → Fin 1 → Mat r c} (hx : HoldsMats u x A)
    (hy : HoldsMats u y B) :
    ∃ z, concat 2 x y = .ok z ∧ HoldsMats u z fun b => (Fin.snoc (α := fun _ => Mat r c) (A b) (B b 0)) := by
  refine ⟨_, if_pos (by rw [hx.1, hy.1]; exact ⟨by simp, by simp, rfl⟩), ?_, fun b hb t i j => ?_⟩
  · simp [modifyAt, dim, hx.1, hy.1]
  · simp only [dim, hx.1, List.getD_cons_succ, List.getD_cons_zero, modifyAt]
    refine Fin.lastCases ?_ (fun k => ?_) t
    · rw [if_neg (by simp), Fin.snoc_last]
      simpa using hy.2 b hb 0 i j
    · rw [if_pos (by simp), Fin.snoc_castSucc]
      exact hx.2 b hb k i j

/-! ### Reshapes -/

theorem unflat_flat {s b : List ℕ} (h : InRange b s) : unflat s (flat s b) = b := by
  induction s generalizing b with
  | nil => cases b with
    | nil => rfl
    | cons => exact h.elim
  | cons n s ih =>
    obtain ⟨i, b', rfl, hi, hb⟩ := inRange_cons_iff.1 h
    simp only [flat, unflat]
    rw [Nat.add_mul_mod_self_left, Nat.mod_eq_of_lt hi, Nat.add_mul_div_left _ _ (by omega), Nat.div_eq_of_lt hi, zero_add, ih hb]

/-- A reshape that only touches the inner axes. -/
theorem unflat_append {es s : List ℕ} {f q : ℕ} (hf : f < es.prod) : unflat (es ++ s) (f + es.prod * q) = unflat es f ++ unflat s q := by
  induction es generalizing f with
  | nil =>
    have : f = 0 := by simpa using hf
    simp [this, unflat]
  | cons n es ih =>
    have hn : 0 < n := Nat.pos_of_ne_zero fun h => by simp [h] at hf
    simp only [List.cons_append, unflat, List.prod_cons]
    rw [mul_assoc, Nat.add_mul_mod_self_left, Nat.add_mul_div_left _ _ hn, ih]
    rw [List.prod_cons] at hf
    exact Nat.div_lt_of_lt_mul hf

theorem flat_append {es s e b : List ℕ} (he : InRange e es) : flat (es ++ s) (e ++ b) = flat es e + es.prod * flat s b := by
  induction es generalizing e with
  | nil => cases e with
    | nil => simp [flat]
    | cons => exact he.elim
  | cons n es ih =>
    obtain ⟨i, e', rfl, hi, hb⟩ := inRange_cons_iff.1 he
    simp only [List.cons_append, flat, ih hb, List.prod_cons]
    ring

theorem tflat_lt {s b : List ℕ} (h : InRange b s) : flat s b < s.prod := by
  induction s generalizing b with
  | nil => cases b with
    | nil => simp [flat]
    | cons => exact h.elim
  | cons n s ih =>
    obtain ⟨i, b', rfl, hi, hb⟩ := inRange_cons_iff.1 h
    simp only [flat, List.prod_cons]
    have := ih hb
    calc i + n * flat s b' < n + n * flat s b' := by omega
      _ = n * (flat s b' + 1) := by ring
      _ ≤ n * s.prod := Nat.mul_le_mul_left _ this

/-- A reshape that only touches the inner axes re-indexes every batch element in the same way. -/
theorem reshape_inner {x : Tensor} {es es' s : List ℕ} (hx : x.shape = es ++ s) (hp : es'.prod = es.prod) :
    ∃ z, reshape (es' ++ s) x = .ok z ∧ z.shape = es' ++ s ∧
      ∀ e b, InRange e es' → InRange b s → z.val (e ++ b) = x.val (unflat es (flat es' e) ++ b) := by
  refine ⟨_, if_pos (by rw [hx, List.prod_append, List.prod_append, hp]), rfl, fun e b he hb => ?_⟩
  dsimp only
  rw [hx, flat_append he, hp, unflat_append (by rw [← hp]; exact tflat_lt he), unflat_flat hb]

/-! ### Linear algebra -/

theorem entry_fin {r c : ℕ} (M : Mat r c) (i : Fin r) (j : Fin c) : entry M i j = M i j := by simp [entry]

theorem holds_ofMats {r c : ℕ} (s : List ℕ) (M : List ℕ → Mat r c) : HoldsMat s (ofMats s M) M :=
  ⟨rfl, fun b _ i j => entry_fin (M b) i j⟩

theorem B2.matAt {r c u x} {A : List ℕ → Mat r c} (h : B2 u x A) {s} (hs : x.shape = c :: r :: s) {b} (hb : InRange b u) :
    x.matAt r c (bidx s b) = A b := by
  obtain ⟨s', h1, h2, h3⟩ := h
  obtain rfl : s = s' := by simpa using hs.symm.trans h1
  ext i j
  exact h3 b hb i j

theorem Spec.HoldsMat.matAt {r c u x} {A : List ℕ → Mat r c} (h : HoldsMat u x A) {b} (hb : InRange b u) : x.matAt r c b = A b := by
  ext i j
  exact h.2 b hb i j

/-- One of two arguments has the full batch shape: then so has the result. -/
theorem bshape_one {s t u : List ℕ} (hs : BT s u) (ht : BT t u) (h : s = u ∨ t = u) : bshape s t = .ok u := by
  rcases h with rfl | rfl
  · exact bshape_right ht
  · exact bshape_left hs

theorem matmul_one {r k c u x y} {A : List ℕ → Mat r k} {B : List ℕ → Mat k c} (hx : B2 u x A) (hy : B2 u y B)
    (h : x.shape = k :: r :: u ∨ y.shape = c :: k :: u) : ∃ z, matmul x y = .ok z ∧ HoldsMat u z fun b => A b * B b := by
  obtain ⟨s, h1, h2, h3⟩ := hx
  obtain ⟨t, g1, g2, g3⟩ := hy
  have hw : bshape s t = .ok u := bshape_one h2 g2 (by simpa [h1, g1] using h)
  refine ⟨_, by simp only [matmul, h1, g1, if_true, hw]; rfl, rfl, fun b hb i j => ?_⟩
  dsimp only
  rw [Matrix.mul_apply]
  exact Finset.sum_congr rfl fun l _ => by rw [h3 b hb, g3 b hb]

theorem matmul_mat {r k c u x y} {A : List ℕ → Mat r k} {B : List ℕ → Mat k c} (hx : HoldsMat u x A) (hy : HoldsMat u y B) :
    ∃ z, matmul x y = .ok z ∧ HoldsMat u z fun b => A b * B b := matmul_one hx.b2 hy.b2 (.inl hx.1)

theorem solveWith_one {d c u x y} {A : List ℕ → Mat d d} {B : List ℕ → Mat d c} (op : {d c : ℕ} → Mat d d → Mat d c → Mat d c)
    (hx : B2 u x A) (hy : B2 u y B) (h : x.shape = d :: d :: u ∨ y.shape = c :: d :: u) :
    ∃ z, solveWith op x y = .ok z ∧ HoldsMat u z fun b => op (A b) (B b) := by
  obtain ⟨s, h1, h2, -⟩ := id hx
  obtain ⟨t, g1, g2, -⟩ := id hy
  have hw : bshape s t = .ok u := bshape_one h2 g2 (by simpa [h1, g1] using h)
  refine ⟨_, by simp only [solveWith, h1, g1, and_self, if_true, hw]; rfl, (holds_ofMats _ _).congr fun b hb => ?_⟩
  rw [hx.matAt h1 hb, hy.matAt g1 hb]

theorem cholSolve_mat {d c u x y} {A : List ℕ → Mat d d} {B : List ℕ → Mat d c} (hx : HoldsMat u x A) (hy : HoldsMat u y B) :
    ∃ z, cholSolveT x y = .ok z ∧ HoldsMat u z fun b => cholSolve (A b) (B b) :=
  solveWith_one (fun C R => cholSolve C R) hx.b2 hy.b2 (.inl hx.1)

theorem eye_mat (d : ℕ) (u : List ℕ) : HoldsMat u (eye d u) fun _ => (1 : Mat d d) :=
  ⟨rfl, fun b _ i j => by simp [eye, Matrix.one_apply, Fin.val_inj]⟩

/-! ### Elementwise calls -/

variable {α β α' β' : Type} {bs : List ℕ}

theorem Spec.Elementwise.ok {R : β → (List ℕ → α) → Prop} {x y} {Y : List ℕ → Except Err α} (h : R x y)
    (e : ∀ b, InRange b bs → Y b = .ok (y b)) : Elementwise bs R (.ok x) Y := .inl ⟨x, y, rfl, h, e⟩

theorem Spec.Elementwise.pure {R : β → (List ℕ → α) → Prop} {x y} (h : R x y) :
    Elementwise bs R (Except.ok x) fun b => Except.ok (y b) := .ok h fun _ _ => rfl

theorem Spec.Elementwise.congr {R : β → (List ℕ → α) → Prop} {X} {Y Z : List ℕ → Except Err α} (h : Elementwise bs R X Y)
    (e : ∀ b, InRange b bs → Z b = Y b) : Elementwise bs R X Z := by
  rcases h with ⟨x, y, hx, hr, hy⟩ | ⟨e', hx, b, hb, hy⟩
  · exact .inl ⟨x, y, hx, hr, fun b hb => (e b hb).trans (hy b hb)⟩
  · exact .inr ⟨e', hx, b, hb, (e b hb).trans hy⟩

theorem Spec.Elementwise.bind {R : β → (List ℕ → α) → Prop} {R' : β' → (List ℕ → α') → Prop} {X Y} {f : β → Except Err β'}
    {g : List ℕ → α → Except Err α'} (h : Elementwise bs R X Y)
    (hf : ∀ x y, R x y → Elementwise bs R' (f x) fun b => g b (y b)) : Elementwise bs R' (X >>= f) fun b => Y b >>= g b := by
  rcases h with ⟨x, y, hx, hr, hy⟩ | ⟨e', hx, b, hb, hy⟩
  · rw [hx]
    exact (hf x y hr).congr fun b hb => by rw [hy b hb]; rfl
  · rw [hx]
    exact .inr ⟨e', rfl, b, hb, by dsimp only; rw [hy]; rfl⟩

theorem Spec.Elementwise.of_ok {R : β → (List ℕ → α) → Prop} {X : Except Err β} {y : List ℕ → α} (h : ∃ x, X = .ok x ∧ R x y) :
    Elementwise bs R X fun b => Except.ok (y b) := by
  obtain ⟨x, rfl, hr⟩ := h
  exact .pure hr

theorem Spec.Elementwise.error {R : β → (List ℕ → α) → Prop} (hbs : ∀ n ∈ bs, 0 < n) {e : Err} {Y : List ℕ → Except Err α}
    (h : ∀ b, InRange b bs → Y b = .error e) : Elementwise bs R (.error e) Y := by
  obtain ⟨b, hb⟩ := inRange_exists hbs
  exact .inr ⟨e, rfl, b, hb, h b hb⟩

/-- Only `InvalidArgumentError` is raised. -/
def OnlyInvalid (X : Except Err α) : Prop := ∀ e, X = .error e → e = .invalidArgument

theorem onlyInvalid_cholesky {d : ℕ} (M : Mat d d) : OnlyInvalid (tfCholesky M) := by
  intro e h
  unfold tfCholesky at h
  split_ifs at h
  exact (Except.error.inj h).symm

theorem batched_mat {r c : ℕ} (s : List ℕ) {op : List ℕ → Except Err (Mat r c)} (h : ∀ b, InRange b s → OnlyInvalid (op b)) :
    Elementwise s (HoldsMat s) (batched s op) op := by
  unfold batched
  split_ifs with hb
  · refine .inl ⟨_, _, rfl, holds_ofMats _ _, fun b hb' => ?_⟩
    obtain ⟨M, hM⟩ := hb b hb'
    simp only [hM]
  · push Not at hb
    obtain ⟨b, hb1, hb2⟩ := hb
    refine .inr ⟨_, rfl, b, hb1, ?_⟩
    cases e : op b with
    | ok M => exact absurd e (hb2 M)
    | error e' => rw [h b hb1 e' e]

theorem cholesky_mat {d u x} {A : List ℕ → Mat d d} (hx : HoldsMat u x A) :
    Elementwise u (HoldsMat u) (choleskyT x) fun b => tfCholesky (A b) := by
  have : choleskyT x = batched u fun b => tfCholesky (x.matAt d d b) := by simp only [choleskyT, hx.1, if_true]
  rw [this]
  exact (batched_mat u fun b _ => onlyInvalid_cholesky _).congr fun b hb => by rw [hx.matAt hb]

/-- A batched call over a time axis is the sequence of calls for every batch element. -/
theorem Spec.Elementwise.seq [Zero α] {n : ℕ} {R : β → (List ℕ → α) → Prop} {X} {Y : List ℕ → Fin n → Except Err α}
    {Y' : List ℕ → Except Err α} (h : Elementwise (n :: bs) R X Y') (e : ∀ b, InRange b bs → ∀ t : Fin n, Y' ((t : ℕ) :: b) = Y b t)
    (hi : ∀ b t, OnlyInvalid (Y b t)) (hR : ∀ x y y', R x y → (∀ b, InRange b (n :: bs) → y b = y' b) → R x y') :
    Elementwise bs (fun x (y : List ℕ → Fin n → α) => R x (lift y)) X fun b => seqFin (Y b) := by
  have seq_ok : ∀ {m : ℕ} {f : Fin m → Except Err α} {y : Fin m → α}, (∀ t, f t = .ok (y t)) → seqFin f = .ok y := by
    intro m
    induction m with
    | zero => intro f y _; exact congrArg Except.ok (funext fun i : Fin 0 => i.elim0)
    | succ m ih =>
      intro f y hf
      simp only [seqFin, hf 0, ih (f := Fin.tail f) (y := Fin.tail y) fun t => hf t.succ]
      show Except.ok (Fin.cons (y 0) (Fin.tail y)) = _
      rw [Fin.cons_self_tail]
  have seq_err : ∀ {m : ℕ} {f : Fin m → Except Err α} (t : Fin m), (∀ t, OnlyInvalid (f t)) → (∃ e, f t = .error e) →
      seqFin f = .error .invalidArgument := by
    intro m
    induction m with
    | zero => intro f t; exact t.elim0
    | succ m ih =>
      intro f t hi he
      simp only [seqFin]
      cases h0 : f 0 with
      | error e' => rw [hi 0 e' h0]; rfl
      | ok v =>
        have : ∃ t', t = Fin.succ t' := by
          rcases Fin.eq_zero_or_eq_succ t with rfl | ⟨t', rfl⟩
          · obtain ⟨e, he⟩ := he
            rw [h0] at he
            cases he
          · exact ⟨t', rfl⟩
        obtain ⟨t', rfl⟩ := this
        have := ih (f := Fin.tail f) t' (fun t => hi t.succ) he
        show (seqFin (Fin.tail f) >>= _) = _
        rw [this]
        rfl
  rcases h with ⟨x, y, hx, hr, hy⟩ | ⟨e', hx, b', hb', hy⟩
  · refine .inl ⟨x, fun b t => y ((t : ℕ) :: b), hx, hR x y _ hr (forall_inRange_cons.2 fun b _ t => by rw [lift_fin]),
      fun b hb => seq_ok fun t => ?_⟩
    exact (e b hb t).symm.trans (hy _ (inRange_cons.2 ⟨t.2, hb⟩))
  · obtain ⟨t, b, rfl, ht, hb⟩ := inRange_cons_iff.1 hb'
    have h1 : Y b ⟨t, ht⟩ = .error e' := by rw [← e b hb]; exact hy
    have h2 := hi b ⟨t, ht⟩ e' h1
    refine .inr ⟨e', hx, b, hb, ?_⟩
    rw [h2]
    exact seq_err ⟨t, ht⟩ (hi b) ⟨e', h1⟩

end MF
