import Verif.Lemmas.SDE
import Verif.Model.Kernels
import Mathlib.Analysis.SpecialFunctions.ExpDeriv
import Mathlib.Analysis.SpecialFunctions.Trigonometric.Deriv
import Mathlib.Tactic.FinCases
import Mathlib.Tactic.LinearCombination
import Mathlib.Tactic.NoncommRing

/-! # The elementary kernels -/

namespace MF
open Matrix Spec

variable {d : ℕ}

theorem hasDerivAt_exp_mul (a t : ℝ) :
    HasDerivAt (fun s => Real.exp (a * s)) (a * Real.exp (a * t)) t := by
  have h1 : HasDerivAt (fun s : ℝ => a * s) a t := by
    simpa using (hasDerivAt_id t).const_mul a
  simpa [mul_comm] using h1.exp

/-- `exp(-λt)(1 + tN + (tN)²/2)` with `N³ = 0` is the semigroup of `N - λ`. -/
theorem solvesSDE_nilpotent (N : Mat d d) (hN : N * N * N = 0) (lam : ℝ) :
    SolvesSDE (N - lam • 1)
      (fun t => Real.exp (-lam * t) • (1 + t • N + (1 / 2 : ℝ) • ((t • N) * (t • N)))) where
  zero := by simp
  add s t := by
    have e : -lam * (s + t) = -lam * s + -lam * t := by ring
    rw [e, Real.exp_add, Matrix.smul_mul, Matrix.mul_smul, smul_smul]
    congr 1
    have h3 : N * (N * N) = 0 := by rw [← Matrix.mul_assoc, hN]
    have h4 : N * N * (N * N) = 0 := by rw [← Matrix.mul_assoc, hN, Matrix.zero_mul]
    simp only [Matrix.smul_mul, Matrix.mul_smul, Matrix.add_mul, Matrix.mul_add, Matrix.one_mul,
      Matrix.mul_one, hN, h3, h4, smul_zero, add_zero, smul_smul, smul_add]
    module
  deriv t i j := by
    have h3 : N * (N * N) = 0 := by rw [← Matrix.mul_assoc, hN]
    have e : (fun s => (Real.exp (-lam * s) • (1 + s • N + (1 / 2 : ℝ) • ((s • N) * (s • N)))) i j) =
        fun s => Real.exp (-lam * s) * ((1 : Mat d d) i j + s * N i j + s ^ 2 * ((1 / 2) * (N * N) i j)) := by
      funext s
      simp only [Matrix.smul_mul, Matrix.mul_smul, Matrix.smul_apply, Matrix.add_apply, smul_eq_mul]
      ring
    rw [e]
    have d1 := hasDerivAt_exp_mul (-lam) t
    have d2 : HasDerivAt (fun s : ℝ => (1 : Mat d d) i j + s * N i j + s ^ 2 * ((1 / 2) * (N * N) i j))
        (N i j + t * (N * N) i j) t := by
      have a1 : HasDerivAt (fun s : ℝ => s * N i j) (N i j) t := by
        simpa using (hasDerivAt_id t).mul_const (N i j)
      have a2 : HasDerivAt (fun s : ℝ => s ^ 2 * ((1 / 2) * (N * N) i j)) (t * (N * N) i j) t := by
        have := (hasDerivAt_pow 2 t).mul_const ((1 / 2) * (N * N) i j)
        exact this.congr_deriv (by push_cast; ring)
      have := (a1.const_add ((1 : Mat d d) i j)).add a2
      exact this
    have d3 := d1.mul d2
    refine d3.congr_deriv ?_
    have e2 : (N - lam • (1 : Mat d d)) *
        (Real.exp (-lam * t) • (1 + t • N + (1 / 2 : ℝ) • ((t • N) * (t • N)))) =
        Real.exp (-lam * t) • ((N + t • (N * N)) -
          lam • (1 + t • N + (t ^ 2 * (1 / 2)) • (N * N))) := by
      simp only [Matrix.smul_mul, Matrix.mul_smul, Matrix.sub_mul, Matrix.mul_add,
        Matrix.mul_one, h3, smul_zero, add_zero, Matrix.one_mul, smul_smul, smul_add, smul_sub]
      module
    rw [e2]
    simp only [Matrix.smul_apply, Matrix.sub_apply, Matrix.add_apply, smul_eq_mul]
    ring

/-! ### scalar kernels -/

theorem solvesSDE_scalar (a : ℝ) (f : ℝ → ℝ) (hf : ∀ t, f t = Real.exp (a * t)) :
    SolvesSDE !![a] (fun t => !![f t]) where
  zero := by ext i j; fin_cases i; fin_cases j; simp [hf]
  add s t := by
    ext i j; fin_cases i; fin_cases j
    simp [hf, mul_add, Real.exp_add, Matrix.mul_apply]
  deriv t i j := by
    fin_cases i; fin_cases j
    simp only [Matrix.mul_apply, Finset.univ_unique, Finset.sum_singleton]
    have : (fun s => !![f s] ((fun i => i) ⟨0, by norm_num⟩ : Fin 1) ((fun i => i) ⟨0, by norm_num⟩ : Fin 1)) =
        fun s => Real.exp (a * s) := by
      funext s; exact hf s
    show HasDerivAt (fun s => f s) (a * f t) t
    simp only [hf]
    exact hasDerivAt_exp_mul a t

theorem posDef_scalar {a : ℝ} (ha : 0 < a) : (!![a] : Mat 1 1).PosDef := by
  have : (!![a] : Mat 1 1) = diagonal ![a] := by
    ext i j; fin_cases i; fin_cases j; simp
  rw [this, posDef_diagonal_iff]
  intro i; fin_cases i; exact ha

theorem noise_scalar (e v : ℝ) :
    (!![v] - !![e] * !![v] * (!![e])ᵀ : Mat 1 1) = !![v * (1 - e ^ 2)] := by
  ext i j; fin_cases i; fin_cases j
  show v - ((!![e] * !![v] * (!![e])ᵀ : Mat 1 1)) 0 0 = v * (1 - e ^ 2)
  simp only [Matrix.mul_apply, Finset.univ_unique, Finset.sum_singleton, transpose_apply]
  simp
  ring

/-! ### Matérn 3/2 -/

theorem feedback32_add (lam : ℝ) :
    feedback32 lam + lam • (1 : Mat 2 2) = !![lam, 1; -lam ^ 2, -lam] := by
  simp only [← Matrix.ext_iff, Fin.forall_fin_two, feedback32, Matrix.add_apply, Matrix.smul_apply,
    Matrix.one_apply]
  refine ⟨⟨?_, ?_⟩, ?_, ?_⟩ <;> simp <;> ring

theorem feedback32_nil (lam : ℝ) :
    (feedback32 lam + lam • (1 : Mat 2 2)) * (feedback32 lam + lam • (1 : Mat 2 2)) = 0 := by
  rw [feedback32_add]
  simp only [← Matrix.ext_iff, Fin.forall_fin_two, Matrix.mul_apply, Fin.sum_univ_two]
  refine ⟨⟨?_, ?_⟩, ?_, ?_⟩ <;> simp <;> ring

theorem solvesSDE_32 (lam : ℝ) : SolvesSDE (feedback32 lam) (fun t =>
    Real.exp (-lam * t) • (1 + t • (feedback32 lam + lam • (1 : Mat 2 2)))) := by
  have h := solvesSDE_nilpotent (feedback32 lam + lam • (1 : Mat 2 2))
    (by rw [feedback32_nil, Matrix.zero_mul]) lam
  have e : feedback32 lam + lam • (1 : Mat 2 2) - lam • 1 = feedback32 lam := by abel
  rw [e] at h
  convert h using 3 with t
  simp only [Matrix.smul_mul, Matrix.mul_smul, feedback32_nil, smul_zero, add_zero]

theorem lyap32 (lam v : ℝ) :
    -(feedback32 lam * (v • !![1, 0; 0, lam ^ 2]) + (v • !![1, 0; 0, lam ^ 2]) * (feedback32 lam)ᵀ) =
      diagonal ![0, 4 * lam ^ 3 * v] := by
  simp only [← Matrix.ext_iff, Fin.forall_fin_two, Matrix.mul_apply, Fin.sum_univ_two, feedback32,
    Matrix.neg_apply, Matrix.add_apply, Matrix.smul_apply, transpose_apply, diagonal_apply]
  refine ⟨⟨?_, ?_⟩, ?_, ?_⟩ <;> simp <;> ring

/-! ### Matérn 5/2 -/

theorem forall_fin_three {p : Fin 3 → Prop} : (∀ i, p i) ↔ p 0 ∧ p 1 ∧ p 2 := by
  constructor
  · intro h; exact ⟨h 0, h 1, h 2⟩
  · rintro ⟨h0, h1, h2⟩ i
    fin_cases i <;> assumption

theorem feedback52_add (lam : ℝ) :
    feedback52 lam + lam • (1 : Mat 3 3) =
      !![lam, 1, 0; 0, lam, 1; -lam ^ 3, -3 * lam ^ 2, -2 * lam] := by
  simp only [← Matrix.ext_iff, forall_fin_three, feedback52, Matrix.add_apply, Matrix.smul_apply,
    Matrix.one_apply]
  refine ⟨⟨?_, ?_, ?_⟩, ⟨?_, ?_, ?_⟩, ?_, ?_, ?_⟩ <;> simp <;> ring

theorem feedback52_sq (lam : ℝ) :
    (feedback52 lam + lam • (1 : Mat 3 3)) * (feedback52 lam + lam • (1 : Mat 3 3)) =
      !![lam ^ 2, 2 * lam, 1; -lam ^ 3, -2 * lam ^ 2, -lam; lam ^ 4, 2 * lam ^ 3, lam ^ 2] := by
  rw [feedback52_add]
  simp only [← Matrix.ext_iff, forall_fin_three, Matrix.mul_apply, Fin.sum_univ_three]
  refine ⟨⟨?_, ?_, ?_⟩, ⟨?_, ?_, ?_⟩, ?_, ?_, ?_⟩ <;> simp <;> ring

theorem feedback52_nil (lam : ℝ) :
    (feedback52 lam + lam • (1 : Mat 3 3)) * (feedback52 lam + lam • (1 : Mat 3 3)) *
      (feedback52 lam + lam • (1 : Mat 3 3)) = 0 := by
  rw [feedback52_sq, feedback52_add]
  simp only [← Matrix.ext_iff, forall_fin_three, Matrix.mul_apply, Fin.sum_univ_three]
  refine ⟨⟨?_, ?_, ?_⟩, ⟨?_, ?_, ?_⟩, ?_, ?_, ?_⟩ <;> simp <;> ring

theorem solvesSDE_52 (lam : ℝ) : SolvesSDE (feedback52 lam) (fun t =>
    Real.exp (-lam * t) • (1 + t • (feedback52 lam + lam • (1 : Mat 3 3)) +
      (1 / 2 : ℝ) • ((t • (feedback52 lam + lam • (1 : Mat 3 3))) *
        (t • (feedback52 lam + lam • (1 : Mat 3 3)))))) := by
  have h := solvesSDE_nilpotent (feedback52 lam + lam • (1 : Mat 3 3)) (feedback52_nil lam) lam
  have e : feedback52 lam + lam • (1 : Mat 3 3) - lam • 1 = feedback52 lam := by abel
  rwa [e] at h

/-- `P∞` of Matérn 5/2 (up to the variance). -/
noncomputable def pinf52 (lam : ℝ) : Mat 3 3 :=
  !![1, 0, -(lam ^ 2 / 3); 0, lam ^ 2 / 3, 0; -(lam ^ 2 / 3), 0, lam ^ 4]

theorem lyap52 (lam v : ℝ) :
    -(feedback52 lam * (v • pinf52 lam) + (v • pinf52 lam) * (feedback52 lam)ᵀ) =
      diagonal ![0, 0, 16 / 3 * lam ^ 5 * v] := by
  simp only [← Matrix.ext_iff, forall_fin_three, Matrix.mul_apply, Fin.sum_univ_three, feedback52,
    pinf52, Matrix.neg_apply, Matrix.add_apply, Matrix.smul_apply, transpose_apply, diagonal_apply]
  refine ⟨⟨?_, ?_, ?_⟩, ⟨?_, ?_, ?_⟩, ?_, ?_, ?_⟩ <;> simp <;> ring

/-! ### positivity -/

theorem posSemidef_diag {ι : Type*} [Fintype ι] [DecidableEq ι] {f : ι → ℝ} (h : ∀ i, 0 ≤ f i) :
    (diagonal f).PosSemidef := posSemidef_diagonal_iff.2 h

/-- `vᵀ A diag(0,…,w) Aᵀ v = w (vᵀ A e)²`. -/
theorem quad_diag {d : ℕ} (A : Mat d d) (f : Fin d → ℝ) (v : Vec d) :
    v ⬝ᵥ ((A * diagonal f * Aᵀ) *ᵥ v) = ∑ k, f k * (∑ i, v i * A i k) ^ 2 := by
  rw [← mulVec_mulVec, ← mulVec_mulVec, dotProduct_mulVec]
  simp only [dotProduct, mulVec_diagonal]
  refine Finset.sum_congr rfl fun k _ => ?_
  have h1 : (v ᵥ* A) k = ∑ i, v i * A i k := rfl
  have h2 : (Aᵀ *ᵥ v) k = ∑ i, v i * A i k := by
    simp only [mulVec, dotProduct, transpose_apply, mul_comm]
  rw [h1, h2]; ring

theorem posDef_pinf32 {lam v : ℝ} (hl : 0 < lam) (hv : 0 < v) :
    (v • !![1, 0; 0, lam ^ 2] : Mat 2 2).PosDef := by
  have : (v • !![1, 0; 0, lam ^ 2] : Mat 2 2) = diagonal ![v, v * lam ^ 2] := by
    simp only [← Matrix.ext_iff, Fin.forall_fin_two, Matrix.smul_apply, diagonal_apply]
    refine ⟨⟨?_, ?_⟩, ?_, ?_⟩ <;> simp
  rw [this, posDef_diagonal_iff]
  intro i
  fin_cases i
  · exact hv
  · show 0 < v * lam ^ 2
    positivity

theorem noise32_posDef {lam v t : ℝ} (hl : 0 < lam) (hv : 0 < v) (ht : 0 < t) :
    ((v • !![1, 0; 0, lam ^ 2]) -
      (Real.exp (-lam * t) • (1 + t • (feedback32 lam + lam • (1 : Mat 2 2)))) *
        (v • !![1, 0; 0, lam ^ 2]) *
      (Real.exp (-lam * t) • (1 + t • (feedback32 lam + lam • (1 : Mat 2 2))))ᵀ).PosDef := by
  have hW : (diagonal ![0, 4 * lam ^ 3 * v] : Mat 2 2).PosSemidef := by
    apply posSemidef_diag
    intro i; fin_cases i
    · exact le_rfl
    · show 0 ≤ 4 * lam ^ 3 * v
      positivity
  have hT : (v • !![1, 0; 0, lam ^ 2] : Mat 2 2)ᵀ = v • !![1, 0; 0, lam ^ 2] := by
    have := (posDef_pinf32 hl hv).isHermitian
    rwa [IsHermitian, conjTranspose_eq_transpose_of_trivial] at this
  refine (solvesSDE_32 lam).noise_posDef hT (lyap32 lam v ▸ hW) ht ?_
  intro x hx
  rw [lyap32] at hx
  have key : ∀ s ∈ Set.Ioo 0 t, x 0 * s + x 1 * (1 - lam * s) = 0 := by
    intro s hs
    have := hx s hs
    rw [quad_diag, feedback32_add] at this
    simp only [Fin.sum_univ_two, Matrix.smul_apply, Matrix.add_apply, Matrix.one_apply] at this
    have hw : 0 < 4 * lam ^ 3 * v := by positivity
    have he := Real.exp_pos (-lam * s)
    simp at this
    rcases this with h | h
    · rcases h with h | h
      · exact absurd h hl.ne'
      · exact absurd h hv.ne'
    · have h2 : Real.exp (-(lam * s)) * (x 0 * s + x 1 * (1 - lam * s)) = 0 := by
        linear_combination h
      exact (mul_eq_zero.1 h2).resolve_left (Real.exp_pos _).ne'
  have k1 := key (t / 2) ⟨by linarith, by linarith⟩
  have k2 := key (t / 4) ⟨by linarith, by linarith⟩
  have h1 : x 1 = 0 := by linear_combination 2 * k2 - k1
  have h0 : x 0 = 0 := by
    rw [h1] at k1
    have : x 0 * (t / 2) = 0 := by linear_combination k1
    exact (mul_eq_zero.1 this).resolve_right (by linarith)
  funext i; fin_cases i
  · exact h0
  · exact h1

theorem posDef_pinf52 {lam v : ℝ} (hl : 0 < lam) (hv : 0 < v) : (v • pinf52 lam).PosDef := by
  refine PosDef.of_dotProduct_mulVec_pos ?_ fun x hx => ?_
  · rw [IsHermitian, conjTranspose_eq_transpose_of_trivial]
    simp only [← Matrix.ext_iff, forall_fin_three, pinf52, Matrix.smul_apply, transpose_apply]
    refine ⟨⟨?_, ?_, ?_⟩, ⟨?_, ?_, ?_⟩, ?_, ?_, ?_⟩ <;> simp
  · have e : star x ⬝ᵥ ((v • pinf52 lam) *ᵥ x) =
        v * ((x 0 - lam ^ 2 / 3 * x 2) ^ 2 + lam ^ 2 / 3 * (x 1) ^ 2 + 8 / 9 * lam ^ 4 * (x 2) ^ 2) := by
      simp only [dotProduct, mulVec, Fin.sum_univ_three, pinf52, Matrix.smul_apply, star_trivial]
      simp
      ring
    rw [e]
    apply mul_pos hv
    by_contra hneg
    have h4 : 0 < lam ^ 4 := by positivity
    have h2 : 0 < lam ^ 2 := by positivity
    have a := sq_nonneg (x 0 - lam ^ 2 / 3 * x 2)
    have b : 0 ≤ lam ^ 2 / 3 * (x 1) ^ 2 := by positivity
    have c : 0 ≤ 8 / 9 * lam ^ 4 * (x 2) ^ 2 := by positivity
    have hc : 8 / 9 * lam ^ 4 * (x 2) ^ 2 = 0 := by linarith
    have hb : lam ^ 2 / 3 * (x 1) ^ 2 = 0 := by linarith
    have ha : (x 0 - lam ^ 2 / 3 * x 2) ^ 2 = 0 := by linarith
    have x2 : x 2 = 0 := by
      have := (mul_eq_zero.1 hc).resolve_left (by positivity)
      exact pow_eq_zero_iff (two_ne_zero) |>.1 this
    have x1 : x 1 = 0 := by
      have := (mul_eq_zero.1 hb).resolve_left (by positivity)
      exact pow_eq_zero_iff (two_ne_zero) |>.1 this
    have x0 : x 0 = 0 := by
      have := pow_eq_zero_iff (two_ne_zero) |>.1 ha
      rw [x2] at this; linarith
    apply hx
    funext i; fin_cases i
    · exact x0
    · exact x1
    · exact x2

theorem noise52_posDef {lam v t : ℝ} (hl : 0 < lam) (hv : 0 < v) (ht : 0 < t) :
    ((v • pinf52 lam) -
      (Real.exp (-lam * t) • (1 + t • (feedback52 lam + lam • (1 : Mat 3 3)) +
      (1 / 2 : ℝ) • ((t • (feedback52 lam + lam • (1 : Mat 3 3))) *
        (t • (feedback52 lam + lam • (1 : Mat 3 3)))))) * (v • pinf52 lam) *
      (Real.exp (-lam * t) • (1 + t • (feedback52 lam + lam • (1 : Mat 3 3)) +
      (1 / 2 : ℝ) • ((t • (feedback52 lam + lam • (1 : Mat 3 3))) *
        (t • (feedback52 lam + lam • (1 : Mat 3 3))))))ᵀ).PosDef := by
  have hW : (diagonal ![0, 0, 16 / 3 * lam ^ 5 * v] : Mat 3 3).PosSemidef := by
    apply posSemidef_diag
    intro i; fin_cases i
    · exact le_rfl
    · exact le_rfl
    · show 0 ≤ 16 / 3 * lam ^ 5 * v
      positivity
  have hT : (v • pinf52 lam)ᵀ = v • pinf52 lam := by
    have := (posDef_pinf52 hl hv).isHermitian
    rwa [IsHermitian, conjTranspose_eq_transpose_of_trivial] at this
  refine (solvesSDE_52 lam).noise_posDef hT (lyap52 lam v ▸ hW) ht ?_
  intro x hx
  rw [lyap52] at hx
  have key : ∀ s ∈ Set.Ioo 0 t, x 0 * (s ^ 2 / 2) + x 1 * (s - lam * s ^ 2 / 2) +
      x 2 * (1 - 2 * lam * s + lam ^ 2 * s ^ 2 / 2) = 0 := by
    intro s hs
    have := hx s hs
    rw [quad_diag] at this
    simp only [Matrix.smul_mul, Matrix.mul_smul, feedback52_sq] at this
    rw [feedback52_add] at this
    simp only [Fin.sum_univ_three, Matrix.smul_apply, Matrix.add_apply, Matrix.one_apply] at this
    simp at this
    rcases this with h | h
    · rcases h with h | h
      · exact absurd h hl.ne'
      · exact absurd h hv.ne'
    · have h2 : Real.exp (-(lam * s)) * (x 0 * (s ^ 2 / 2) + x 1 * (s - lam * s ^ 2 / 2) +
          x 2 * (1 - 2 * lam * s + lam ^ 2 * s ^ 2 / 2)) = 0 := by
        linear_combination h
      exact (mul_eq_zero.1 h2).resolve_left (Real.exp_pos _).ne'
  have k1 := key (t / 4) ⟨by linarith, by linarith⟩
  have k2 := key (t / 2) ⟨by linarith, by linarith⟩
  have k3 := key (3 * t / 4) ⟨by linarith, by linarith⟩
  have h2 : x 2 = 0 := by linear_combination 3 * k1 - 3 * k2 + k3
  rw [h2] at k1 k2 k3
  have h1 : x 1 = 0 := by
    have : x 1 * t = 0 := by linear_combination 8 * k1 - 2 * k2
    exact (mul_eq_zero.1 this).resolve_right ht.ne'
  rw [h1] at k1
  have h0 : x 0 = 0 := by
    have : x 0 * t ^ 2 = 0 := by linear_combination 32 * k1
    exact (mul_eq_zero.1 this).resolve_right (by positivity)
  funext i; fin_cases i
  · exact h0
  · exact h1
  · exact h2

/-! ### harmonic oscillator, constant -/

theorem solvesSDE_rotation (lam : ℝ) : SolvesSDE !![0, -lam; lam, 0] (fun t =>
    !![Real.cos (t * lam), -Real.sin (t * lam); Real.sin (t * lam), Real.cos (t * lam)]) where
  zero := by
    simp only [← Matrix.ext_iff, Fin.forall_fin_two]
    refine ⟨⟨?_, ?_⟩, ?_, ?_⟩ <;> simp
  add s t := by
    simp only [← Matrix.ext_iff, Fin.forall_fin_two, Matrix.mul_apply, Fin.sum_univ_two, add_mul,
      Real.cos_add, Real.sin_add]
    refine ⟨⟨?_, ?_⟩, ?_, ?_⟩ <;> simp <;> ring
  deriv t := by
    have h : HasDerivAt (fun s : ℝ => s * lam) lam t := by
      simpa using (hasDerivAt_id t).mul_const lam
    simp only [Fin.forall_fin_two, Matrix.mul_apply, Fin.sum_univ_two]
    have hc : HasDerivAt (fun s => Real.cos (s * lam)) (-Real.sin (t * lam) * lam) t := h.cos
    have hs : HasDerivAt (fun s => Real.sin (s * lam)) (Real.cos (t * lam) * lam) t := h.sin
    refine ⟨⟨?_, ?_⟩, ?_, ?_⟩
    · exact hc.congr_deriv (by simp; ring)
    · exact hs.neg.congr_deriv (by simp; ring)
    · exact hs.congr_deriv (by simp; ring)
    · exact hc.congr_deriv (by simp; ring)

theorem rotation_noise (lam v t : ℝ) :
    (v • (1 : Mat 2 2)) -
      !![Real.cos (t * lam), -Real.sin (t * lam); Real.sin (t * lam), Real.cos (t * lam)] *
        (v • (1 : Mat 2 2)) *
      (!![Real.cos (t * lam), -Real.sin (t * lam); Real.sin (t * lam), Real.cos (t * lam)])ᵀ = 0 := by
  have h := Real.sin_sq_add_cos_sq (t * lam)
  rw [Matrix.mul_smul, Matrix.mul_one, Matrix.smul_mul]
  simp only [← Matrix.ext_iff, Fin.forall_fin_two, Matrix.mul_apply, Fin.sum_univ_two,
    Matrix.sub_apply, Matrix.smul_apply, transpose_apply]
  refine ⟨⟨?_, ?_⟩, ?_, ?_⟩
  · simp; linear_combination -v * h
  · simp; right; ring
  · simp; right; ring
  · simp; linear_combination -v * h

theorem solvesSDE_const : SolvesSDE (0 : Mat 1 1) (fun _ => !![1]) where
  zero := by ext i j; fin_cases i; fin_cases j; simp
  add s t := by ext i j; fin_cases i; fin_cases j; simp
  deriv t i j := by
    simp only [Matrix.zero_mul]
    exact hasDerivAt_const _ _

end MF
