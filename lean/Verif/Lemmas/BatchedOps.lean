import Verif.Lemmas.BatchedKalman
import Verif.Spec.BatchedKernels

/-!
# The tensor operations of the kernels and conditionals
-/

namespace MF
open Matrix Spec Tensor

variable {r c d : ℕ} {u : List ℕ}

theorem zipWith_mat' {x y} {f g : List ℕ → Mat r c} (op : ℝ → ℝ → ℝ) (hx : B2 u x f) (hy : HoldsMat u y g) :
    ∃ z, zipWith op x y = .ok z ∧ HoldsMat u z fun b => Matrix.of fun i j => op (f b i j) (g b i j) := by
  obtain ⟨z, hz, h⟩ := zipWith_vec' op hx.b1 (holdsMat_iff.1 hy)
  refine ⟨z, hz, holdsMat_iff.2 (h.congr (forall_inRange_cons.2 fun b _ t => ?_))⟩
  simp only [lift_fin]
  rfl

theorem plus_mat' {x y} {f g : List ℕ → Mat r c} (hx : B2 u x f) (hy : HoldsMat u y g) :
    ∃ z, plus x y = .ok z ∧ HoldsMat u z fun b => f b + g b := zipWith_mat' (· + ·) hx hy

theorem minus_mat' {x y} {f g : List ℕ → Mat r c} (hx : B2 u x f) (hy : HoldsMat u y g) :
    ∃ z, minus x y = .ok z ∧ HoldsMat u z fun b => f b - g b := zipWith_mat' (· - ·) hx hy

theorem times_mat' {x y} {f g : List ℕ → Mat r c} (hx : B2 u x f) (hy : HoldsMat u y g) :
    ∃ z, times x y = .ok z ∧ HoldsMat u z fun b => Matrix.of fun i j => f b i j * g b i j := zipWith_mat' (· * ·) hx hy

/-- A matrix without batch axes broadcasts to every batch shape. -/
theorem Spec.HoldsMat.const {x} {A : List ℕ → Mat r c} (h : HoldsMat [] x A) (u : List ℕ) : B2 u x fun _ => A [] := by
  simpa using h.extend u

theorem Spec.HoldsVec.const {x} {A : List ℕ → Vec d} (h : HoldsVec [] x A) (u : List ℕ) : B1 u x fun _ => A [] := by
  simpa using h.extend u

theorem eye_b2 (d : ℕ) (u : List ℕ) : B2 u (eye d []) fun _ => (1 : Mat d d) := (eye_mat d []).const u

theorem ones_mat (r c : ℕ) (u : List ℕ) : HoldsMat u (ones (c :: r :: u)) fun _ => (Matrix.of fun _ _ => 1 : Mat r c) :=
  ⟨rfl, fun _ _ _ _ => rfl⟩

theorem zeros_mat (r c : ℕ) (u : List ℕ) : HoldsMat u (zeros (c :: r :: u)) fun _ => (0 : Mat r c) := ⟨rfl, fun _ _ _ _ => rfl⟩

theorem ofRows_mat (M : Mat r c) : HoldsMat [] (ofRows M) fun _ => M := holds_ofMats [] _

theorem matmul_left {k x y} {A : List ℕ → Mat r k} {B : List ℕ → Mat k c} (hx : HoldsMat u x A) (hy : B2 u y B) :
    ∃ z, matmul x y = .ok z ∧ HoldsMat u z fun b => A b * B b := matmul_one hx.b2 hy (.inl hx.1)

/-! ### Scalars times matrices -/

theorem bshape_scalar (r c : ℕ) (u : List ℕ) : bshape [c, r] (1 :: 1 :: u) = .ok (c :: r :: u) := by
  simp [bshape, Bind.bind, Except.bind]

theorem bshape_scalar' (r c : ℕ) (u : List ℕ) : bshape (1 :: 1 :: u) [c, r] = .ok (c :: r :: u) := by
  simp only [bshape, bshape_nil, Bind.bind, Except.bind]
  by_cases hr : r = 1 <;> by_cases hc : c = 1 <;> simp [hr, hc, eq_comm]

theorem BT_scalar (r c : ℕ) (u : List ℕ) : BT (1 :: 1 :: u) (c :: r :: u) := ⟨.inr rfl, .inr rfl, BT.refl u⟩

theorem expand2_shape {y : Tensor} {g : List ℕ → ℝ} (hy : HoldsReal u y g) : (expand2 y).shape = 1 :: 1 :: u := by
  simp [expand2, expand, insertAt, hy.1]

theorem expand2_val {y : Tensor} {g : List ℕ → ℝ} (hy : HoldsReal u y g) {b : List ℕ} (hb : InRange b u) (j i : ℕ) :
    (expand2 y).val (bidx (1 :: 1 :: u) (j :: i :: b)) = g b := by
  simp only [bidx, bidx_self hb, if_true, expand2, expand, removeAt]
  exact hy.2 b hb

/-- `x * δ[..., None, None]` with a matrix `x` without batch axes -/
theorem times_scalar {x y} {A : Mat r c} {g : List ℕ → ℝ} (hx : HoldsMat [] x fun _ => A) (hy : HoldsReal u y g) :
    ∃ z, times x (expand2 y) = .ok z ∧ HoldsMat u z fun b => g b • A := by
  refine ⟨_, by simp only [times, zipWith, hx.1, expand2_shape hy, bshape_scalar, Bind.bind, Except.bind]; rfl, rfl, fun b hb i j => ?_⟩
  dsimp only
  rw [expand2_val hy hb]
  obtain ⟨s, h1, h2, h3⟩ := hx.const u
  obtain rfl : s = [] := by simpa using h1.symm.trans hx.1
  have := h3 b hb i j
  rw [bidx_cons_fin, bidx_cons_fin, this, Matrix.smul_apply, smul_eq_mul, mul_comm]

/-- `δ[..., None, None] * x` with a matrix `x` without batch axes -/
theorem times_scalar' {x y} {A : Mat r c} {g : List ℕ → ℝ} (hx : HoldsMat [] x fun _ => A) (hy : HoldsReal u y g) :
    ∃ z, times (expand2 y) x = .ok z ∧ HoldsMat u z fun b => g b • A := by
  refine ⟨_, by simp only [times, zipWith, hx.1, expand2_shape hy, bshape_scalar', Bind.bind, Except.bind]; rfl, rfl, fun b hb i j => ?_⟩
  dsimp only
  rw [expand2_val hy hb]
  obtain ⟨s, h1, h2, h3⟩ := hx.const u
  obtain rfl : s = [] := by simpa using h1.symm.trans hx.1
  have := h3 b hb i j
  rw [bidx_cons_fin, bidx_cons_fin, this, Matrix.smul_apply, smul_eq_mul]

/-- `δ[..., None, None] * x` with a full batch of matrices -/
theorem times_scalar_full {x y} {A : List ℕ → Mat r c} {g : List ℕ → ℝ} (hx : HoldsMat u x A) (hy : HoldsReal u y g) :
    ∃ z, times (expand2 y) x = .ok z ∧ HoldsMat u z fun b => g b • A b := by
  refine ⟨_, by simp only [times, zipWith, hx.1, expand2_shape hy, bshape_left (BT_scalar r c u), Bind.bind, Except.bind]; rfl, rfl,
    fun b hb i j => ?_⟩
  dsimp only
  rw [expand2_val hy hb, bidx_cons_fin, bidx_cons_fin, bidx_self hb, hx.2 b hb, Matrix.smul_apply, smul_eq_mul]

theorem expand2_mat {y : Tensor} {g : List ℕ → ℝ} (hy : HoldsReal u y g) : HoldsMat u (expand2 y) fun b => !![g b] := by
  refine ⟨expand2_shape hy, fun b hb i j => ?_⟩
  fin_cases i
  fin_cases j
  exact hy.2 b hb

theorem smul_mat {x} {A : List ℕ → Mat r c} (a : ℝ) (hx : HoldsMat u x A) : HoldsMat u (x.map (a * ·)) fun b => a • A b :=
  (map_mat (a * ·) hx).congr fun b _ => by ext; simp

/-! ### Blocks -/

/-- `tf.concat([x, y], axis=-1)` of matrices -/
theorem concat_cols {c' x y} {A : List ℕ → Mat r c} {B : List ℕ → Mat r c'} (hx : HoldsMat u x A) (hy : HoldsMat u y B) :
    ∃ z, concat 0 x y = .ok z ∧ HoldsMat u z fun b => (fromCols (A b) (B b)).submatrix id finSumFinEquiv.symm := by
  refine ⟨_, if_pos (by rw [hx.1, hy.1]; exact ⟨by simp, by simp, rfl⟩), ?_, fun b hb i j => ?_⟩
  · simp [modifyAt, dim, hx.1, hy.1]
  · simp only [dim, hx.1, List.getD_cons_zero, modifyAt]
    refine Fin.addCases (fun j => ?_) (fun j => ?_) j
    · rw [if_pos (by simp)]
      simpa using hx.2 b hb i j
    · rw [if_neg (by simp)]
      simpa using hy.2 b hb i j

/-- `tf.concat([x, y], axis=-2)` of matrices -/
theorem concat_rows {r' x y} {A : List ℕ → Mat r c} {B : List ℕ → Mat r' c} (hx : HoldsMat u x A) (hy : HoldsMat u y B) :
    ∃ z, concat 1 x y = .ok z ∧ HoldsMat u z fun b => (fromRows (A b) (B b)).submatrix finSumFinEquiv.symm id := by
  refine ⟨_, if_pos (by rw [hx.1, hy.1]; exact ⟨by simp, by simp, rfl⟩), ?_, fun b hb i j => ?_⟩
  · simp [modifyAt, dim, hx.1, hy.1]
  · simp only [dim, hx.1, List.getD_cons_zero, List.getD_cons_succ, modifyAt]
    refine Fin.addCases (fun i => ?_) (fun i => ?_) i
    · rw [if_pos (by simp)]
      simpa using hx.2 b hb i j
    · rw [if_neg (by simp)]
      simpa using hy.2 b hb i j

/-- `tf.concat([x, y], axis=-1)` of vectors -/
theorem concat_vec {c' x y} {A : List ℕ → Vec c} {B : List ℕ → Vec c'} (hx : HoldsVec u x A) (hy : HoldsVec u y B) :
    ∃ z, concat 0 x y = .ok z ∧ HoldsVec u z fun b => Sum.elim (A b) (B b) ∘ finSumFinEquiv.symm := by
  refine ⟨_, if_pos (by rw [hx.1, hy.1]; exact ⟨by simp, by simp, rfl⟩), ?_, fun b hb j => ?_⟩
  · simp [modifyAt, dim, hx.1, hy.1]
  · simp only [dim, hx.1, List.getD_cons_zero, modifyAt]
    refine Fin.addCases (fun j => ?_) (fun j => ?_) j
    · rw [if_pos (by simp)]
      simpa using hx.2 b hb j
    · rw [if_neg (by simp)]
      simpa using hy.2 b hb j

theorem blockDiag2_mat {r' c' x y} {A : List ℕ → Mat r c} {B : List ℕ → Mat r' c'} (hx : HoldsMat u x A) (hy : B2 u y B) :
    ∃ z, blockDiag2 x y = .ok z ∧
      HoldsMat u z fun b => (fromBlocks (A b) 0 0 (B b)).submatrix finSumFinEquiv.symm finSumFinEquiv.symm := by
  obtain ⟨s, h1, h2, h3⟩ := hy
  refine ⟨_, by simp only [blockDiag2, hx.1, h1, bshape_right h2, Bind.bind, Except.bind]; rfl, rfl, fun b hb i j => ?_⟩
  dsimp only
  refine Fin.addCases (fun i => ?_) (fun i => ?_) i <;> refine Fin.addCases (fun j => ?_) (fun j => ?_) j
  · rw [if_pos (by simp), bidx_self hb]
    simpa using hx.2 b hb i j
  · rw [if_neg (by simp), if_neg (by simp)]
    simp
  · rw [if_neg (by simp), if_neg (by simp)]
    simp
  · rw [if_neg (by simp), if_pos (by simp)]
    simpa using h3 b hb i j

theorem kron2_mat {r' c' x y} {A : List ℕ → Mat r c} {B : List ℕ → Mat r' c'} (hx : HoldsMat u x A) (hy : B2 u y B) :
    ∃ z, kron2 x y = .ok z ∧
      HoldsMat u z fun b => (kroneckerMap (· * ·) (A b) (B b)).submatrix finProdFinEquiv.symm finProdFinEquiv.symm := by
  obtain ⟨s, h1, h2, h3⟩ := hy
  refine ⟨_, by simp only [kron2, hx.1, h1, bshape_right h2, Bind.bind, Except.bind]; rfl, rfl, fun b hb i j => ?_⟩
  dsimp only
  rw [bidx_self hb]
  have e1 := hx.2 b hb (finProdFinEquiv.symm i).1 (finProdFinEquiv.symm j).1
  have e2 := h3 b hb (finProdFinEquiv.symm i).2 (finProdFinEquiv.symm j).2
  rw [Matrix.submatrix_apply, kroneckerMap_apply, ← e1, ← e2]
  rfl

theorem expm_mat {x} {A : List ℕ → Mat d d} (hx : HoldsMat u x A) :
    ∃ z, expmT x = .ok z ∧ HoldsMat u z fun b => NormedSpace.exp (A b) := by
  refine ⟨_, by simp only [expmT, hx.1, if_true]; rfl, (holds_ofMats _ _).congr fun b hb => ?_⟩
  rw [hx.matAt hb]

/-! ### Lists -/

theorem mapM_ok {α β γ : Type*} {R : β → γ → Prop} {F : α → Except Err β} {l : List α} {m : List γ}
    (h : List.Forall₂ (fun a k => ∃ z, F a = .ok z ∧ R z k) l m) : ∃ zs, l.mapM F = .ok zs ∧ List.Forall₂ R zs m := by
  induction h with
  | nil => exact ⟨[], rfl, .nil⟩
  | cons h _ ih =>
    obtain ⟨z, hz, hr⟩ := h
    obtain ⟨zs, hzs, hrs⟩ := ih
    exact ⟨z :: zs, by rw [List.mapM_cons, hz, hzs]; rfl, .cons hr hrs⟩

theorem B2.holds {x} {A : List ℕ → Mat r c} (h : B2 u x A) (hs : x.shape = c :: r :: u) : HoldsMat u x A := by
  refine ⟨hs, fun b hb i j => ?_⟩
  obtain ⟨s, h1, h2, h3⟩ := h
  obtain rfl : s = u := by simpa using h1.symm.trans hs
  have := h3 b hb i j
  rwa [bidx_self hb] at this

section lists
variable {α : ℕ → Type} {zs : List Tensor} {ks : List (Σ d, α d)}

theorem blockDiagT_b2 {F : List ℕ → (d : ℕ) → α d → Mat d d} (h : List.Forall₂ (fun z k => HoldsMat u z fun b => F b k.1 k.2) zs ks) :
    ∃ z, blockDiagT zs = .ok z ∧ B2 u z (fun b => blockDiag (F b) ks) ∧ (ks ≠ [] → z.shape = sumDim ks :: sumDim ks :: u) := by
  induction h with
  | nil => exact ⟨_, rfl, ⟨[], rfl, trivial, fun _ _ i => i.elim0⟩, fun h => absurd rfl h⟩
  | cons h _ ih =>
    obtain ⟨y, hy, hyh, -⟩ := ih
    obtain ⟨z, hz, hzh⟩ := blockDiag2_mat h hyh
    exact ⟨z, by simp only [blockDiagT, hy, Bind.bind, Except.bind]; exact hz, hzh.b2, fun _ => hzh.1⟩

theorem blockDiagT_mat {F : List ℕ → (d : ℕ) → α d → Mat d d} (h : List.Forall₂ (fun z k => HoldsMat u z fun b => F b k.1 k.2) zs ks)
    (hne : ks ≠ []) : ∃ z, blockDiagT zs = .ok z ∧ HoldsMat u z fun b => blockDiag (F b) ks := by
  obtain ⟨z, hz, hzh, hs⟩ := blockDiagT_b2 h
  exact ⟨z, hz, hzh.holds (hs hne)⟩

theorem kronT_b2 {F : List ℕ → (d : ℕ) → α d → Mat d d} (h : List.Forall₂ (fun z k => HoldsMat u z fun b => F b k.1 k.2) zs ks) :
    ∃ z, kronT zs = .ok z ∧ B2 u z (fun b => kron (F b) ks) ∧ (ks ≠ [] → z.shape = prodDim ks :: prodDim ks :: u) := by
  induction h with
  | nil =>
    refine ⟨_, rfl, ⟨[], rfl, trivial, fun _ _ i j => ?_⟩, fun h => absurd rfl h⟩
    have hij : i = j := Subsingleton.elim (α := Fin 1) i j
    subst hij
    simp [kron]
  | cons h _ ih =>
    obtain ⟨y, hy, hyh, -⟩ := ih
    obtain ⟨z, hz, hzh⟩ := kron2_mat h hyh
    exact ⟨z, by simp only [kronT, hy, Bind.bind, Except.bind]; exact hz, hzh.b2, fun _ => hzh.1⟩

theorem kronT_mat {F : List ℕ → (d : ℕ) → α d → Mat d d} (h : List.Forall₂ (fun z k => HoldsMat u z fun b => F b k.1 k.2) zs ks)
    (hne : ks ≠ []) : ∃ z, kronT zs = .ok z ∧ HoldsMat u z fun b => kron (F b) ks := by
  obtain ⟨z, hz, hzh, hs⟩ := kronT_b2 h
  exact ⟨z, hz, hzh.holds (hs hne)⟩

theorem kronRowT_b2 {F : List ℕ → (d : ℕ) → α d → Mat 1 d} (h : List.Forall₂ (fun z k => HoldsMat u z fun b => F b k.1 k.2) zs ks) :
    ∃ z, kronT zs = .ok z ∧ B2 u z (fun b => kronRow (F b) ks) ∧ (ks ≠ [] → z.shape = prodDim ks :: 1 :: u) := by
  induction h with
  | nil => exact ⟨_, rfl, ⟨[], rfl, trivial, fun _ _ i j => by simp [kronRow]⟩, fun h => absurd rfl h⟩
  | @cons x k xs ks h _ ih =>
    obtain ⟨y, hy, hyh, -⟩ := ih
    obtain ⟨z, hz, hzh⟩ := kron2_mat h hyh
    refine ⟨z, by simp only [kronT, hy, Bind.bind, Except.bind]; exact hz, ?_⟩
    have : HoldsMat u z fun b => kronRow (F b) (k :: ks) := by
      refine ⟨hzh.1, fun b hb i j => ?_⟩
      obtain rfl : i = 0 := Subsingleton.elim i 0
      exact hzh.2 b hb 0 j
    exact ⟨this.b2, fun _ => this.1⟩

theorem kronRowT_mat {F : List ℕ → (d : ℕ) → α d → Mat 1 d} (h : List.Forall₂ (fun z k => HoldsMat u z fun b => F b k.1 k.2) zs ks)
    (hne : ks ≠ []) : ∃ z, kronT zs = .ok z ∧ HoldsMat u z fun b => kronRow (F b) ks := by
  obtain ⟨z, hz, hzh, hs⟩ := kronRowT_b2 h
  exact ⟨z, hz, hzh.holds (hs hne)⟩

theorem splitSum_inl (k : Σ d, α d) (ks : List (Σ d, α d)) {j : ℕ} (hj : j < sumDim (k :: ks)) (h : j < k.1) :
    splitSum k ks ⟨j, hj⟩ = Sum.inl ⟨j, h⟩ := (Equiv.symm_apply_eq finSumFinEquiv).2 (Fin.ext rfl)

theorem splitSum_inr (k : Σ d, α d) (ks : List (Σ d, α d)) {j : ℕ} (hj : j < sumDim (k :: ks)) (h : ¬ j < k.1) :
    splitSum k ks ⟨j, hj⟩ = Sum.inr ⟨j - k.1, by have : j < k.1 + sumDim ks := hj; omega⟩ :=
  (Equiv.symm_apply_eq finSumFinEquiv).2 (Fin.ext (by
    rw [finSumFinEquiv_apply_right]
    show j = k.1 + (j - k.1)
    omega))

theorem splitRows_inl (o : ℕ) (k : Σ d, α d) (ks : List (Σ d, α d)) {j : ℕ} (hj : j < (k :: ks).length * o) (h : j < o) :
    splitRows o k ks ⟨j, hj⟩ = Sum.inl ⟨j, h⟩ := (Equiv.symm_apply_eq finSumFinEquiv).2 (Fin.ext rfl)

theorem splitRows_inr (o : ℕ) (k : Σ d, α d) (ks : List (Σ d, α d)) {j : ℕ} (hj : j < (k :: ks).length * o) (h : ¬ j < o)
    (h' : j - o < ks.length * o) : splitRows o k ks ⟨j, hj⟩ = Sum.inr ⟨j - o, h'⟩ :=
  (Equiv.symm_apply_eq finSumFinEquiv).2 (Fin.ext (by
    rw [finSumFinEquiv_apply_right]
    show j = o + (j - o)
    omega))

theorem concatList_vec {F : List ℕ → (d : ℕ) → α d → Vec d} (h : List.Forall₂ (fun z k => HoldsVec u z fun b => F b k.1 k.2) zs ks)
    (hne : ks ≠ []) : ∃ z, concatList 0 zs = .ok z ∧ HoldsVec u z fun b => concatVec (F b) ks := by
  induction h with
  | nil => exact absurd rfl hne
  | @cons x k xs ks h t ih =>
    cases t with
    | nil =>
      refine ⟨x, rfl, h.1, fun b hb i => ?_⟩
      have e : splitSum k ([] : List (Σ d, α d)) i = Sum.inl i := splitSum_inl k [] i.2 i.2
      rw [h.2 b hb i]
      simp only [concatVec]
      rw [Function.comp_apply, e]
      rfl
    | cons h' t =>
      obtain ⟨y, hy, hyh⟩ := ih (by simp)
      obtain ⟨z, hz, hzh⟩ := concat_vec h hyh
      exact ⟨z, by simp only [concatList, hy, Bind.bind, Except.bind]; exact hz, hzh⟩

theorem concatList_cols {o : ℕ} {F : List ℕ → (d : ℕ) → α d → Mat o d} (h : List.Forall₂ (fun z k => HoldsMat u z fun b => F b k.1 k.2) zs ks)
    (hne : ks ≠ []) : ∃ z, concatList 0 zs = .ok z ∧ HoldsMat u z fun b => concatCols (F b) ks := by
  induction h with
  | nil => exact absurd rfl hne
  | @cons x k xs ks h t ih =>
    cases t with
    | nil =>
      refine ⟨x, rfl, h.1, fun b hb i j => ?_⟩
      have e : splitSum k ([] : List (Σ d, α d)) j = Sum.inl j := splitSum_inl k [] j.2 j.2
      rw [h.2 b hb i j]
      simp only [concatCols]
      rw [Matrix.submatrix_apply, e]
      rfl
    | cons h' t =>
      obtain ⟨y, hy, hyh⟩ := ih (by simp)
      obtain ⟨z, hz, hzh⟩ := concat_cols h hyh
      exact ⟨z, by simp only [concatList, hy, Bind.bind, Except.bind]; exact hz, hzh⟩

/-- The padded rows, before concatenation: `pre` columns of zeros, then the block diagonal arrangement. -/
theorem padLoop_mat {o : ℕ} {F : List ℕ → (d : ℕ) → α d → Mat o d} (h : List.Forall₂ (fun z k => HoldsMat u z fun b => F b k.1 k.2) zs ks)
    (hne : ks ≠ []) (pre : ℕ) : ∃ z, concatList 1 (padLoop pre (sumDim ks) zs) = .ok z ∧ z.shape = (pre + sumDim ks) :: (ks.length * o) :: u ∧
      ∀ b, InRange b u → ∀ i j, i < ks.length * o → j < pre + sumDim ks →
        z.val (j :: i :: b) = if pre ≤ j then entry (padConcatRows o (F b) ks) i (j - pre) else 0 := by
  induction h generalizing pre with
  | nil => exact absurd rfl hne
  | @cons x k xs ks h t ih =>
    have hd : x.dim 0 = k.1 := by simp [dim, h.1]
    have hs : sumDim (k :: ks) = k.1 + sumDim ks := rfl
    have hpost : sumDim (k :: ks) - k.1 = sumDim ks := by omega
    have hl : (k :: ks).length * o = o + ks.length * o := by rw [List.length_cons]; ring
    have hpad : (padLast pre (sumDim ks) x).shape = (pre + sumDim (k :: ks)) :: o :: u := by
      simp only [padLast, hd, h.1, List.drop_succ_cons, List.drop_zero, hs, add_assoc]
    have hent : ∀ (b : List ℕ) (i j : ℕ) (hi : i < (k :: ks).length * o) (hj : j < sumDim (k :: ks)),
        entry (padConcatRows o (F b) (k :: ks)) i j =
          if i < o then (if j < k.1 then entry (F b k.1 k.2) i j else 0) else
            (if j < k.1 then 0 else entry (padConcatRows o (F b) ks) (i - o) (j - k.1)) := by
      intro b i j hi hj
      rw [entry, dif_pos ⟨hi, hj⟩]
      simp only [padConcatRows, Matrix.submatrix_apply]
      by_cases h1 : i < o
      · have e1 := splitRows_inl o k ks hi h1
        rw [if_pos h1, e1]
        by_cases h2 : j < k.1
        · have e2 := splitSum_inl k ks hj h2
          rw [if_pos h2, e2, entry, dif_pos ⟨h1, h2⟩]
          rfl
        · have e2 := splitSum_inr k ks hj h2
          rw [if_neg h2, e2]
          rfl
      · have e1 := splitRows_inr o k ks hi h1 (by omega)
        rw [if_neg h1, e1]
        by_cases h2 : j < k.1
        · have e2 := splitSum_inl k ks hj h2
          rw [if_pos h2, e2]
          rfl
        · have e2 := splitSum_inr k ks hj h2
          rw [if_neg h2, e2, entry, dif_pos ⟨by omega, by omega⟩]
          rfl
    have hval : ∀ b, InRange b u → ∀ i j, i < o → (padLast pre (sumDim ks) x).val (j :: i :: b) =
        if pre ≤ j ∧ j < pre + k.1 then entry (F b k.1 k.2) i (j - pre) else 0 := by
      intro b hb i j hi
      simp only [padLast, hd]
      split_ifs with hj
      · have := h.2 b hb ⟨i, hi⟩ ⟨j - pre, by omega⟩
        rw [entry, dif_pos ⟨hi, by omega⟩]
        exact this
      · rfl
    cases t with
    | nil =>
      refine ⟨padLast pre (sumDim ([] : List (Σ d, α d))) x, by simp only [padLoop, hd, hpost]; rfl, ?_, fun b hb i j hi hj => ?_⟩
      · rw [hpad, hl]
        simp
      · have hi' : i < o := by simpa using hi
        have hs0 : sumDim ([] : List (Σ d, α d)) = 0 := rfl
        rw [hval b hb i j hi']
        by_cases hp : pre ≤ j
        · rw [if_pos ⟨hp, by omega⟩, if_pos hp, hent b i _ hi (by omega), if_pos hi', if_pos (by omega)]
        · rw [if_neg (by omega), if_neg hp]
    | @cons x' k' xs' ks' h' t =>
      obtain ⟨y, hy, hys, hyv⟩ := ih (by simp) (pre + k.1)
      refine ⟨⟨(pre + sumDim (k :: k' :: ks')) :: ((k :: k' :: ks').length * o) :: u, fun i =>
          if i.getD 1 0 < o then (padLast pre (sumDim (k' :: ks')) x).val i else y.val (modifyAt (· - o) 1 i)⟩, ?_, ?_, fun b hb i j hi hj => ?_⟩
      · have hc : concat 1 (padLast pre (sumDim (k' :: ks')) x) y = .ok
            ⟨(pre + sumDim (k :: k' :: ks')) :: ((k :: k' :: ks').length * o) :: u, fun i =>
              if i.getD 1 0 < o then (padLast pre (sumDim (k' :: ks')) x).val i else y.val (modifyAt (· - o) 1 i)⟩ := by
          unfold concat
          have hw : pre + sumDim (k :: k' :: ks') = pre + k.1 + sumDim (k' :: ks') := by rw [hs]; omega
          rw [if_pos (by rw [hpad, hys]; exact ⟨by simp, by simp, by simp [removeAt, hw]⟩)]
          simp only [hpad, hys, dim, List.getD_cons_succ, List.getD_cons_zero, modifyAt, hl]
        have e : padLoop pre (sumDim (k :: k' :: ks')) (x :: x' :: xs') =
            padLast pre (sumDim (k' :: ks')) x :: padLoop (pre + k.1) (sumDim (k' :: ks')) (x' :: xs') := by
          rw [padLoop]
          simp only [hd, hpost]
        have e' : ∃ a l, padLoop (pre + k.1) (sumDim (k' :: ks')) (x' :: xs') = a :: l := ⟨_, _, rfl⟩
        obtain ⟨a, l, e'⟩ := e'
        rw [e, e', concatList]
        · rw [← e', hy]
          exact hc
        · simp
      · rfl
      · dsimp only
        simp only [List.getD_cons_succ, List.getD_cons_zero, modifyAt]
        by_cases ho : i < o
        · rw [if_pos ho, hval b hb i j ho]
          by_cases hp : pre ≤ j
          · rw [if_pos hp, hent b i _ hi (by omega), if_pos ho]
            by_cases hj' : j < pre + k.1
            · rw [if_pos ⟨hp, hj'⟩, if_pos (by omega)]
            · rw [if_neg (by omega), if_neg (by omega)]
          · rw [if_neg (by omega), if_neg hp]
        · rw [if_neg ho, hyv b hb (i - o) j (by omega) (by omega)]
          by_cases hp : pre + k.1 ≤ j
          · rw [if_pos hp, if_pos (by omega), hent b i _ hi (by omega), if_neg ho, if_neg (by omega)]
            congr 1
            omega
          · rw [if_neg hp]
            by_cases hp' : pre ≤ j
            · rw [if_pos hp', hent b i _ hi (by omega), if_neg ho, if_pos (by omega)]
            · rw [if_neg hp']

theorem padConcat_mat {o : ℕ} {F : List ℕ → (d : ℕ) → α d → Mat o d} (h : List.Forall₂ (fun z k => HoldsMat u z fun b => F b k.1 k.2) zs ks)
    (hne : ks ≠ []) : ∃ z, concatList 1 (padLoop 0 (sumDim ks) zs) = .ok z ∧ HoldsMat u z fun b => padConcatRows o (F b) ks := by
  obtain ⟨z, hz, hs, hv⟩ := padLoop_mat h hne 0
  refine ⟨z, hz, by rw [hs, zero_add], fun b hb i j => ?_⟩
  rw [hv b hb i j i.2 (by omega), if_pos (Nat.zero_le _), Nat.sub_zero, entry_fin]

end lists

end MF
