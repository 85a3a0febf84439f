import Verif.Lemmas.GPBridge
import Verif.Lemmas.Cholesky
import Mathlib.Analysis.Asymptotics.Lemmas
import Mathlib.Analysis.SpecialFunctions.Pow.Real
import Mathlib.Topology.Instances.Matrix
import Mathlib.Algebra.Order.Floor.Semiring

/-! # Exponential forgetting, and asymptotics of matrix expressions -/

namespace MF
open Matrix Spec Filter Asymptotics
variable {d : ℕ}

theorem quad_le_frobenius {m : ℕ} (G : Matrix (Fin d) (Fin m) ℝ) (y : Fin d → ℝ) :
    y ⬝ᵥ (G * Gᵀ) *ᵥ y ≤ (∑ i, ∑ j, G j i ^ 2) * (y ⬝ᵥ y) := by
  rw [← mulVec_mulVec, dotProduct_mulVec, ← mulVec_transpose]
  simp only [dotProduct, Finset.sum_mul]
  refine Finset.sum_le_sum fun i _ => ?_
  have := Finset.sum_mul_sq_le_sq_mul_sq Finset.univ (fun j => G j i) y
  rw [← sq]
  refine le_trans (le_of_eq ?_) (this.trans (le_of_eq ?_))
  · simp [mulVec, dotProduct, transpose_apply]
  · rw [Finset.sum_mul]
    refine Finset.sum_congr rfl fun j _ => ?_
    congr 1
    exact Finset.sum_congr rfl fun j _ => sq (y j)

/-- A positive definite matrix dominates any positive semi-definite one up to a constant. -/
theorem exists_dominates {M P : Mat d d} (hM : M.PosDef) (hP : P.PosSemidef) :
    ∃ c : ℝ, 2 ≤ c ∧ ∀ x, x ⬝ᵥ P *ᵥ x ≤ c * (x ⬝ᵥ M *ᵥ x) := by
  obtain ⟨L, -, hL⟩ := tfCholesky_posDef hM
  obtain ⟨C, hC⟩ : ∃ C : Mat d d, P = C * Cᵀ := by
    obtain ⟨C, hC, -⟩ := gaussLaw_eq_map hP
    exact ⟨C, hC.symm⟩
  have hu : IsUnit L.det := (isUnit_iff_isUnit_det _).1 hL.isUnit
  refine ⟨max 2 (∑ i, ∑ j, (L⁻¹ * C) j i ^ 2), le_max_left _ _, fun x => ?_⟩
  have hx : x ⬝ᵥ M *ᵥ x = (Lᵀ *ᵥ x) ⬝ᵥ (Lᵀ *ᵥ x) := by
    rw [← hL.mul_transpose, ← mulVec_mulVec, dotProduct_mulVec, ← mulVec_transpose]
  have hp : x ⬝ᵥ P *ᵥ x = (Lᵀ *ᵥ x) ⬝ᵥ ((L⁻¹ * C) * (L⁻¹ * C)ᵀ) *ᵥ (Lᵀ *ᵥ x) := by
    have e : P = L * ((L⁻¹ * C) * (L⁻¹ * C)ᵀ) * Lᵀ := by
      rw [transpose_mul, hC]
      have e1 : L * (L⁻¹ * C * (Cᵀ * L⁻¹ᵀ)) * Lᵀ = (L * L⁻¹) * (C * Cᵀ) * (L⁻¹ᵀ * Lᵀ) := by
        simp only [Matrix.mul_assoc]
      rw [e1, mul_nonsing_inv _ hu, ← transpose_mul, mul_nonsing_inv _ hu, transpose_one, Matrix.mul_one,
        Matrix.one_mul]
    conv_lhs => rw [e]
    rw [← mulVec_mulVec, ← mulVec_mulVec, dotProduct_mulVec, ← mulVec_transpose]
  rw [hp, hx]
  refine (quad_le_frobenius _ _).trans (mul_le_mul_of_nonneg_right (le_max_right _ _) ?_)
  exact Finset.sum_nonneg fun i _ => mul_self_nonneg _

namespace StatProc
variable {A : ℝ → Mat d d} {P : Mat d d}

/-- A stationary process with strictly positive noise forgets exponentially fast. -/
theorem decay (h : StatProc A P) (hs : (P - A 1 * P * (A 1)ᵀ).PosDef) :
    ∃ κ : ℝ, 0 < κ ∧ ∃ C : ℝ, ∀ s, 0 ≤ s → ∀ i j, |A s i j| ≤ C * Real.exp (-(κ * s)) := by
  have hPd : P.PosDef := by
    have := hs.add_posSemidef (h.psd.mul_mul_conjTranspose_same (A 1))
    rwa [conjTranspose_eq_transpose_of_trivial, sub_add_cancel] at this
  obtain ⟨c, hc2, hc⟩ := exists_dominates hs h.psd
  obtain ⟨c', hc2', hc'⟩ := exists_dominates hPd (PosSemidef.one (n := Fin d) (R := ℝ))
  have hc0 : 0 < c := by linarith
  set ρ := 1 - 1 / c with hρ
  have hi : 1 / c ≤ 1 / 2 := one_div_le_one_div_of_le two_pos hc2
  have hi0 : 0 < 1 / c := one_div_pos.2 hc0
  have hρ0 : 0 < ρ := by rw [hρ]; linarith
  have hρ1 : ρ < 1 := by rw [hρ]; linarith
  let φ : ℝ → Vec d → ℝ := fun s v => v ⬝ᵥ (A s * P * (A s)ᵀ) *ᵥ v
  have hφ : ∀ s v, φ s v = ((A s)ᵀ *ᵥ v) ⬝ᵥ P *ᵥ ((A s)ᵀ *ᵥ v) := fun s v => by
    show v ⬝ᵥ _ = _
    rw [← mulVec_mulVec, ← mulVec_mulVec, dotProduct_mulVec, ← mulVec_transpose]
  have h1 : ∀ v, φ 1 v ≤ ρ * (v ⬝ᵥ P *ᵥ v) := fun v => by
    have := hc v
    rw [sub_mulVec, dotProduct_sub] at this
    have h2 : (1 / c) * (v ⬝ᵥ P *ᵥ v) ≤ v ⬝ᵥ P *ᵥ v - φ 1 v := by
      rw [one_div, inv_mul_le_iff₀ hc0]; exact this
    rw [hρ]; linarith
  have h0 : ∀ s, 0 ≤ s → ∀ v, φ s v ≤ v ⬝ᵥ P *ᵥ v := fun s hs v => by
    have := (h.contr s hs).dotProduct_mulVec_nonneg v
    rw [sub_mulVec, dotProduct_sub] at this
    simp only [star_trivial] at this
    show v ⬝ᵥ _ ≤ _
    linarith
  have hstep : ∀ s, 0 ≤ s → ∀ v, φ (s + 1) v ≤ ρ * φ s v := fun s hs v => by
    rw [hφ, hφ s v, h.add s 1 hs zero_le_one, transpose_mul, ← mulVec_mulVec]
    rw [← hφ 1 ((A s)ᵀ *ᵥ v)]
    exact h1 _
  have hpow : ∀ (k : ℕ) s, 0 ≤ s → ∀ v, φ (s + k) v ≤ ρ ^ k * (v ⬝ᵥ P *ᵥ v) := by
    intro k
    induction k with
    | zero => intro s hs v; simpa using h0 s hs v
    | succ k ih =>
      intro s hs v
      rw [Nat.cast_succ, ← add_assoc, pow_succ' ρ k, mul_assoc]
      exact (hstep _ (by positivity) v).trans (mul_le_mul_of_nonneg_left (ih s hs v) hρ0.le)
  refine ⟨-Real.log ρ / 2, div_pos (neg_pos.2 (Real.log_neg hρ0 hρ1)) two_pos,
    (∑ i, Real.sqrt (c' * P i i)) * Real.exp (-Real.log ρ / 2), fun s hs i j => ?_⟩
  have hfl := hpow ⌊s⌋₊ (s - ⌊s⌋₊) (sub_nonneg.2 (Nat.floor_le hs)) (Pi.single i 1)
  rw [sub_add_cancel, hφ] at hfl
  have he : ∀ M : Mat d d, (Pi.single i 1 : Vec d) ⬝ᵥ M *ᵥ Pi.single i 1 = M i i := fun M => by simp
  rw [he] at hfl
  have hPii : 0 ≤ P i i := h.psd.diag_nonneg
  have hsq : A s i j ^ 2 ≤ c' * (ρ ^ ⌊s⌋₊ * P i i) := by
    have e1 := hc' ((A s)ᵀ *ᵥ Pi.single i 1)
    rw [one_mulVec] at e1
    refine le_trans ?_ (e1.trans (mul_le_mul_of_nonneg_left hfl (by linarith)))
    have : A s i j ^ 2 = ((A s)ᵀ *ᵥ Pi.single i 1) j * ((A s)ᵀ *ᵥ Pi.single i 1) j := by simp [sq]
    rw [this]
    exact Finset.single_le_sum (f := fun j => ((A s)ᵀ *ᵥ Pi.single i 1) j * ((A s)ᵀ *ᵥ Pi.single i 1) j)
      (fun j _ => mul_self_nonneg _) (Finset.mem_univ j)
  have hρs : ρ ^ ⌊s⌋₊ ≤ (Real.exp (-Real.log ρ / 2) * Real.exp (-(-Real.log ρ / 2 * s))) ^ 2 := by
    rw [← Real.exp_add, ← Real.exp_nat_mul]
    rw [← Real.exp_log hρ0, ← Real.exp_nat_mul, Real.exp_log hρ0]
    apply Real.exp_le_exp.2
    have hl := Real.log_neg hρ0 hρ1
    have hf : s - 1 ≤ ⌊s⌋₊ := (Nat.sub_one_lt_floor s).le
    push_cast
    nlinarith
  have hb : A s i j ^ 2 ≤ (Real.sqrt (c' * P i i) * (Real.exp (-Real.log ρ / 2) * Real.exp (-(-Real.log ρ / 2 * s)))) ^ 2 := by
    rw [mul_pow, Real.sq_sqrt (mul_nonneg (by linarith) hPii)]
    refine hsq.trans ?_
    rw [mul_assoc, mul_comm (P i i)]
    exact mul_le_mul_of_nonneg_left (mul_le_mul_of_nonneg_right hρs hPii) (by linarith)
  have := abs_le_of_sq_le_sq hb (by positivity)
  refine this.trans ?_
  rw [mul_assoc]
  refine mul_le_mul_of_nonneg_right ?_ (by positivity)
  exact Finset.single_le_sum (f := fun i => Real.sqrt (c' * P i i)) (fun i _ => Real.sqrt_nonneg _) (Finset.mem_univ i)

end StatProc

/-! ## Entrywise bounds -/

section EO
variable {α ι κ τ : Type*} [Fintype κ] {F : Filter α}

/-- Every entry is `O(g)`. -/
def EO (F : Filter α) (M : α → Matrix ι κ ℝ) (g : α → ℝ) : Prop :=
  ∀ i j, (fun x => M x i j) =O[F] g

omit [Fintype κ] in
theorem EO.add {M N : α → Matrix ι κ ℝ} {g} (h : EO F M g) (h' : EO F N g) : EO F (fun x => M x + N x) g :=
  fun i j => (h i j).add (h' i j)

omit [Fintype κ] in
theorem EO.sub {M N : α → Matrix ι κ ℝ} {g} (h : EO F M g) (h' : EO F N g) : EO F (fun x => M x - N x) g :=
  fun i j => (h i j).sub (h' i j)

omit [Fintype κ] in
theorem EO.neg {M : α → Matrix ι κ ℝ} {g} (h : EO F M g) : EO F (fun x => -M x) g :=
  fun i j => (h i j).neg_left

omit [Fintype κ] in
theorem EO.transpose {M : α → Matrix ι κ ℝ} {g} (h : EO F M g) : EO F (fun x => (M x)ᵀ) g :=
  fun i j => h j i

theorem EO.mul {M : α → Matrix ι κ ℝ} {N : α → Matrix κ τ ℝ} {f g : α → ℝ} (h : EO F M f)
    (h' : EO F N g) : EO F (fun x => M x * N x) (fun x => f x * g x) := fun i j => by
  simp only [Matrix.mul_apply]
  exact IsBigO.fun_sum fun k _ => (h i k).mul (h' k j)

theorem EO.mul_one {M : α → Matrix ι κ ℝ} {N : α → Matrix κ τ ℝ} {f : α → ℝ} (h : EO F M f)
    (h' : EO F N 1) : EO F (fun x => M x * N x) f := by
  have := h.mul h'
  simpa using this

theorem EO.one_mul {M : α → Matrix ι κ ℝ} {N : α → Matrix κ τ ℝ} {f : α → ℝ} (h : EO F M 1)
    (h' : EO F N f) : EO F (fun x => M x * N x) f := by
  have := h.mul h'
  simpa using this

omit [Fintype κ] in
theorem EO.const (M : Matrix ι κ ℝ) : EO F (fun _ => M) (1 : α → ℝ) := fun _ _ =>
  isBigO_const_const _ one_ne_zero _

omit [Fintype κ] in
theorem EO.mono {M : α → Matrix ι κ ℝ} {f g : α → ℝ} (h : EO F M f) (hfg : f =O[F] g) : EO F M g :=
  fun i j => (h i j).trans hfg

omit [Fintype κ] in
theorem EO.congr {M N : α → Matrix ι κ ℝ} {g : α → ℝ} (h : EO F M g) (e : ∀ x, M x = N x) : EO F N g := by
  have : M = N := funext e
  rwa [← this]

theorem EO.mulVec {M : α → Matrix ι κ ℝ} {g : α → ℝ} (h : EO F M g) (v : κ → ℝ) (i : ι) :
    (fun x => (M x *ᵥ v) i) =O[F] g := by
  simp only [Matrix.mulVec, dotProduct]
  refine IsBigO.fun_sum fun k _ => ?_
  simpa [mul_comm] using (h i k).const_mul_left (v k)

end EO

/-- The inverse of a matrix dominating a fixed positive definite one is bounded. -/
theorem exists_inv_bound {M : Mat d d} (hM : M.PosDef) :
    ∃ c : ℝ, ∀ S : Mat d d, (S - M).PosSemidef → ∀ i j, |S⁻¹ i j| ≤ c := by
  obtain ⟨c, hc2, hc⟩ := exists_dominates hM (PosSemidef.one (n := Fin d) (R := ℝ))
  refine ⟨c, fun S hS i j => ?_⟩
  have hSd : S.PosDef := by simpa using hM.add_posSemidef hS
  set y : Vec d := S⁻¹ *ᵥ Pi.single j 1 with hy
  have hSy : S *ᵥ y = Pi.single j 1 := by
    rw [hy, mulVec_mulVec, mul_nonsing_inv _ ((isUnit_iff_isUnit_det _).1 hSd.isUnit), one_mulVec]
  have h1 : y ⬝ᵥ y ≤ c * y j := by
    have e1 := hc y
    rw [one_mulVec] at e1
    have e2 := hS.dotProduct_mulVec_nonneg y
    simp only [star_trivial] at e2
    rw [sub_mulVec, dotProduct_sub, hSy] at e2
    have e3 : y ⬝ᵥ Pi.single j 1 = y j := by simp
    rw [e3] at e2
    exact e1.trans (mul_le_mul_of_nonneg_left (by linarith) (by linarith))
  have hcoord : ∀ k, y k ^ 2 ≤ y ⬝ᵥ y := fun k => by
    rw [sq]
    exact Finset.single_le_sum (f := fun k => y k * y k) (fun k _ => mul_self_nonneg _) (Finset.mem_univ k)
  have hc0 : 0 < c := by linarith
  have h2 : y j ≤ c := by
    by_contra hcon
    have := hcoord j
    nlinarith
  have hij : S⁻¹ i j = y i := by simp [hy]
  rw [hij]
  refine abs_le_of_sq_le_sq ?_ hc0.le
  calc y i ^ 2 ≤ c * y j := (hcoord i).trans h1
    _ ≤ c * c := mul_le_mul_of_nonneg_left h2 hc0.le
    _ = c ^ 2 := (sq c).symm

namespace StatProc
variable {A : ℝ → Mat d d} {P : Mat d d}

theorem noise_mono (h : StatProc A P) {s t : ℝ} (hs : 0 ≤ s) (hst : s ≤ t) :
    ((P - A t * P * (A t)ᵀ) - (P - A s * P * (A s)ᵀ)).PosSemidef := by
  have e : A t = A s * A (t - s) := by rw [← h.add _ _ hs (sub_nonneg.2 hst)]; congr 1; ring
  have := (h.contr (t - s) (sub_nonneg.2 hst)).mul_mul_conjTranspose_same (A s)
  convert this using 1
  rw [conjTranspose_eq_transpose_of_trivial, e, transpose_mul]
  simp only [Matrix.mul_sub, Matrix.sub_mul, Matrix.mul_assoc]
  abel

/-- The innovation covariance depends on the two end times only. -/
theorem innov (h : StatProc A P) {s t : ℝ} (hs : 0 ≤ s) (ht : 0 ≤ t) :
    (P - A t * P * (A t)ᵀ) + A t * (P - A s * P * (A s)ᵀ) * (A t)ᵀ = P - A (t + s) * P * (A (t + s))ᵀ := by
  rw [h.add _ _ ht hs, transpose_mul]
  simp only [Matrix.mul_sub, Matrix.sub_mul, Matrix.mul_assoc]
  abel

/-- A configuration: nearest conditioning time at distance `near` from the query, the far end at
distance `far`. -/
abbrev Cfg := {x : ℝ × ℝ // 0 ≤ x.1 ∧ 0 ≤ x.2 ∧ 1 ≤ x.1 + x.2}

theorem EO_near (h : StatProc A P) (hs : (P - A 1 * P * (A 1)ᵀ).PosDef) :
    ∃ κ : ℝ, 0 < κ ∧ EO (⊤ : Filter Cfg) (fun x => A x.1.1) 1 ∧
      EO (⊤ : Filter Cfg) (fun x => A x.1.2) (fun x => Real.exp (-(κ * x.1.2))) ∧
      EO (⊤ : Filter Cfg) (fun x => A (x.1.1 + x.1.2)) (fun x => Real.exp (-(κ * x.1.2))) ∧
      EO (⊤ : Filter Cfg) (fun x => (P - A (x.1.1 + x.1.2) * P * (A (x.1.1 + x.1.2))ᵀ)⁻¹) 1 := by
  obtain ⟨κ, hκ, C, hC⟩ := h.decay hs
  obtain ⟨c, hc⟩ := exists_inv_bound hs
  refine ⟨κ, hκ, fun i j => ?_, fun i j => ?_, fun i j => ?_, fun i j => ?_⟩
  · refine isBigO_top.2 ⟨C, fun x => ?_⟩
    have h1 := hC x.1.1 x.2.1 i j
    have hC0 : 0 ≤ C := by
      have := (abs_nonneg _).trans (hC 0 le_rfl i j)
      simpa using this
    rw [Real.norm_eq_abs, Pi.one_apply, norm_one]
    refine h1.trans (mul_le_mul_of_nonneg_left ?_ hC0)
    rw [Real.exp_le_one_iff]
    have := mul_nonneg hκ.le x.2.1
    linarith
  · refine isBigO_top.2 ⟨C, fun x => ?_⟩
    rw [Real.norm_eq_abs, Real.norm_eq_abs, abs_of_pos (Real.exp_pos _)]
    exact hC _ x.2.2.1 i j
  · refine isBigO_top.2 ⟨C, fun x => ?_⟩
    have h1 := hC (x.1.1 + x.1.2) (add_nonneg x.2.1 x.2.2.1) i j
    have hC0 : 0 ≤ C := by
      have := (abs_nonneg _).trans (hC 0 le_rfl i j)
      simpa using this
    rw [Real.norm_eq_abs, Real.norm_eq_abs, abs_of_pos (Real.exp_pos _)]
    refine h1.trans (mul_le_mul_of_nonneg_left ?_ hC0)
    apply Real.exp_le_exp.2
    have := mul_nonneg hκ.le x.2.1
    nlinarith
  · refine isBigO_top.2 ⟨c, fun x => ?_⟩
    rw [Real.norm_eq_abs, Pi.one_apply, norm_one, _root_.mul_one]
    exact hc _ (h.noise_mono zero_le_one x.2.2.2) i j

variable (A P)

/-- Stationary transition noise. -/
def Qn (s : ℝ) : Mat d d := P - A s * P * (A s)ᵀ

/-- Gain towards the far right end, and towards the near right neighbour. -/
noncomputable def gainE (s t : ℝ) : Mat d d := Qn A P s * (A t)ᵀ * (Qn A P t + A t * Qn A P s * (A t)ᵀ)⁻¹

variable {A P}

theorem gainE_eq (h : StatProc A P) {s t : ℝ} (hs : 0 ≤ s) (ht : 0 ≤ t) :
    gainE A P s t = Qn A P s * (A t)ᵀ * (P - A (t + s) * P * (A (t + s))ᵀ)⁻¹ := by
  unfold gainE
  congr 2
  exact h.innov hs ht

section rates
variable {κ : ℝ}

theorem EO_one_of (hκ : 0 < κ) {M : Cfg → Mat d d} (h : EO (⊤ : Filter Cfg) M fun x => Real.exp (-(κ * x.1.2))) :
    EO (⊤ : Filter Cfg) M 1 := by
  refine h.mono (isBigO_top.2 ⟨1, fun x => ?_⟩)
  rw [Real.norm_eq_abs, abs_of_pos (Real.exp_pos _), Pi.one_apply, norm_one, _root_.mul_one,
    Real.exp_le_one_iff]
  have := mul_nonneg hκ.le x.2.2.1
  linarith

/-- Beyond the last conditioning time: the code's statistics against the exact ones. -/
theorem right_rates (h : StatProc A P) (hs : (P - A 1 * P * (A 1)ᵀ).PosDef) :
    ∃ κ : ℝ, 0 < κ ∧
      EO (⊤ : Filter Cfg) (fun x => gainE A P x.1.1 x.1.2) (fun x => Real.exp (-(κ * x.1.2))) ∧
      EO (⊤ : Filter Cfg) (fun x => (A x.1.1 - gainE A P x.1.1 x.1.2 * A x.1.2 * A x.1.1) - A x.1.1)
        (fun x => Real.exp (-(κ * x.1.2))) ∧
      EO (⊤ : Filter Cfg) (fun x => (Qn A P x.1.1 - gainE A P x.1.1 x.1.2 * A x.1.2 * Qn A P x.1.1) - Qn A P x.1.1)
        (fun x => Real.exp (-(κ * x.1.2))) ∧
      EO (⊤ : Filter Cfg) (fun x => A x.1.1) 1 := by
  obtain ⟨κ, hκ, h1, h2, -, h4⟩ := h.EO_near hs
  have hQ : EO (⊤ : Filter Cfg) (fun x => Qn A P x.1.1) 1 :=
    (EO.const P).sub ((h1.mul_one (EO.const P)).mul_one h1.transpose)
  have hE : EO (⊤ : Filter Cfg) (fun x => gainE A P x.1.1 x.1.2) (fun x => Real.exp (-(κ * x.1.2))) := by
    refine ((hQ.one_mul h2.transpose).mul_one h4).congr fun x => ?_
    rw [h.gainE_eq x.2.1 x.2.2.1, add_comm x.1.2]
  have hEA := hE.mul_one (EO_one_of hκ h2)
  refine ⟨κ, hκ, hE, ?_, ?_, h1⟩
  · exact (hEA.mul_one h1).neg.congr fun x => by abel
  · exact (hEA.mul_one hQ).neg.congr fun x => by abel

/-- Before the first conditioning time: `near` is the distance to the first conditioning time. -/
theorem left_rates (h : StatProc A P) (hs : (P - A 1 * P * (A 1)ᵀ).PosDef) :
    ∃ κ : ℝ, 0 < κ ∧
      EO (⊤ : Filter Cfg) (fun x => A x.1.2 - gainE A P x.1.2 x.1.1 * A x.1.1 * A x.1.2)
        (fun x => Real.exp (-(κ * x.1.2))) ∧
      EO (⊤ : Filter Cfg) (fun x => gainE A P x.1.2 x.1.1 - P * (A x.1.1)ᵀ * P⁻¹) (fun x => Real.exp (-(κ * x.1.2))) ∧
      EO (⊤ : Filter Cfg) (fun x => (Qn A P x.1.2 - gainE A P x.1.2 x.1.1 * A x.1.1 * Qn A P x.1.2) -
        (P - P * (A x.1.1)ᵀ * P⁻¹ * A x.1.1 * P)) (fun x => Real.exp (-(κ * x.1.2))) ∧
      EO (⊤ : Filter Cfg) (fun x => P * (A x.1.1)ᵀ * P⁻¹) 1 := by
  obtain ⟨κ, hκ, h1, h2, h3, h4⟩ := h.EO_near hs
  have hPd : P.PosDef := by
    have := hs.add_posSemidef (h.psd.mul_mul_conjTranspose_same (A 1))
    rwa [conjTranspose_eq_transpose_of_trivial, sub_add_cancel] at this
  have hPu : IsUnit P.det := (isUnit_iff_isUnit_det _).1 hPd.isUnit
  have h2' := EO_one_of hκ h2
  have h3' := EO_one_of hκ h3
  have hdQ : EO (⊤ : Filter Cfg) (fun x => Qn A P x.1.2 - P) (fun x => Real.exp (-(κ * x.1.2))) :=
    ((h2.mul_one (EO.const P)).mul_one h2'.transpose).neg.congr fun x => by unfold Qn; abel
  have hQ : EO (⊤ : Filter Cfg) (fun x => Qn A P x.1.2) 1 :=
    ((EO_one_of hκ hdQ).add (EO.const P)).congr fun x => by abel
  have hSinv : EO (⊤ : Filter Cfg) (fun x => (P - A (x.1.1 + x.1.2) * P * (A (x.1.1 + x.1.2))ᵀ)⁻¹ - P⁻¹)
      (fun x => Real.exp (-(κ * x.1.2))) := by
    refine ((h4.one_mul ((h3.mul_one (EO.const P)).mul_one h3'.transpose)).mul_one (EO.const P⁻¹)).congr fun x => ?_
    set S := P - A (x.1.1 + x.1.2) * P * (A (x.1.1 + x.1.2))ᵀ with hS
    have hSd : S.PosDef := by
      have := hs.add_posSemidef (h.noise_mono zero_le_one x.2.2.2)
      simpa [hS] using this
    have hSu : IsUnit S.det := (isUnit_iff_isUnit_det _).1 hSd.isUnit
    have e : A (x.1.1 + x.1.2) * P * (A (x.1.1 + x.1.2))ᵀ = P - S := by rw [hS]; abel
    rw [e, Matrix.mul_sub, nonsing_inv_mul _ hSu, Matrix.sub_mul, Matrix.one_mul, Matrix.mul_assoc,
      mul_nonsing_inv _ hPu, Matrix.mul_one]
  have hEi : EO (⊤ : Filter Cfg) (fun x => P * (A x.1.1)ᵀ * P⁻¹) 1 :=
    ((EO.const P).mul_one h1.transpose).mul_one (EO.const P⁻¹)
  have hdE : EO (⊤ : Filter Cfg) (fun x => gainE A P x.1.2 x.1.1 - P * (A x.1.1)ᵀ * P⁻¹)
      (fun x => Real.exp (-(κ * x.1.2))) := by
    refine (((hdQ.mul_one h1.transpose).mul_one h4).add
      (((EO.const P).mul_one h1.transpose).one_mul hSinv)).congr fun x => ?_
    rw [h.gainE_eq x.2.2.1 x.2.1]
    simp only [Matrix.sub_mul, Matrix.mul_sub]
    abel
  have hE : EO (⊤ : Filter Cfg) (fun x => gainE A P x.1.2 x.1.1) 1 :=
    ((EO_one_of hκ hdE).add hEi).congr fun x => by abel
  refine ⟨κ, hκ, ?_, hdE, ?_, hEi⟩
  · exact h2.sub ((hE.mul_one h1).one_mul h2)
  · refine (hdQ.sub (((hdE.mul_one h1).mul_one hQ).add ((hEi.mul_one h1).one_mul hdQ))).congr fun x => ?_
    simp only [Matrix.sub_mul, Matrix.mul_sub]
    abel

end rates
end StatProc
end MF
