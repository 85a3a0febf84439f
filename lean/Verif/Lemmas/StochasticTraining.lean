import Verif.Spec.StochasticTraining

/-!
# Averages over random minibatches
-/

namespace MF
open Matrix Spec MeasureTheory InformationTheory Filter Topology
variable {n d o p N : ℕ}

section average
variable {ι κ B V : Type*} [Fintype ι] [Fintype κ] [Fintype B] [AddCommGroup V] [Module ℝ V]

theorem Spec.average_add (x y : ι → V) : average (fun i => x i + y i) = average x + average y := by
  unfold average; rw [Finset.sum_add_distrib, smul_add]

theorem Spec.average_smul (c : ℝ) (x : ι → V) : average (fun i => c • x i) = c • average x := by
  unfold average; rw [← Finset.smul_sum, smul_comm]

theorem Spec.average_mul (c : ℝ) (x : ι → ℝ) : average (fun i => c * x i) = c * average x := average_smul c x

theorem Spec.average_const [Nonempty ι] (c : V) : average (fun _ : ι => c) = c := by
  unfold average
  rw [Finset.sum_const, Finset.card_univ, ← Nat.cast_smul_eq_nsmul ℝ, smul_smul, inv_mul_cancel₀ (Nat.cast_ne_zero.2 Fintype.card_ne_zero), one_smul]

theorem Spec.average_sub (x y : ι → V) : average (fun i => x i - y i) = average x - average y := by
  unfold average; rw [Finset.sum_sub_distrib, smul_sub]

theorem Spec.average_map {W : Type*} [AddCommGroup W] [Module ℝ W] (φ : V →ₗ[ℝ] W) (x : ι → V) : average (fun i => φ (x i)) = φ (average x) := by
  unfold average; rw [map_smul, map_sum]

theorem Spec.average_nonneg {x : ι → ℝ} (h : ∀ i, 0 ≤ x i) : 0 ≤ average x := by
  unfold average
  exact mul_nonneg (by positivity) (Finset.sum_nonneg fun i _ => h i)

theorem Spec.average_le {x y : ι → ℝ} (h : ∀ i, x i ≤ y i) : average x ≤ average y := by
  unfold average
  exact mul_le_mul_of_nonneg_left (Finset.sum_le_sum fun i _ => h i) (by positivity)

/-- A random sequence of length `T + 1` is a random sequence of length `T` and one more random element. -/
theorem Spec.average_snoc {T : ℕ} (G : (Fin T → B) → B → V) :
    average (fun F : Fin (T + 1) → B => G (fun i => F i.castSucc) (F (Fin.last T))) = average fun F => average (G F) := by
  classical
  unfold average
  rw [← (Fin.snocEquiv fun _ => B).sum_comp, Fintype.sum_prod_type_right, ← Finset.smul_sum, smul_smul]
  simp only [Fin.snocEquiv, Equiv.coe_fn_mk, Fin.snoc_castSucc, Fin.snoc_last, Fintype.card_fun, Fintype.card_fin]
  congr 1
  push_cast
  rw [← _root_.mul_inv_rev, pow_succ']

/-- The average of a sum of independent parts, the second of which has average zero. -/
theorem average_sq_snoc [Nonempty B] {T : ℕ} (a b : ℝ) (e : (Fin T → B) → ℝ) (δ : B → ℝ) (h0 : average δ = 0) :
    average (fun F : Fin (T + 1) → B => (a * e (fun i => F i.castSucc) + b * δ (F (Fin.last T))) ^ 2) =
      a ^ 2 * average (fun F => e F ^ 2) + b ^ 2 * average fun x => δ x ^ 2 := by
  rw [Spec.average_snoc fun F x => (a * e F + b * δ x) ^ 2]
  have : ∀ F, average (fun x => (a * e F + b * δ x) ^ 2) = a ^ 2 * e F ^ 2 + b ^ 2 * average fun x => δ x ^ 2 := fun F => by
    have e1 : (fun x => (a * e F + b * δ x) ^ 2) = fun x => (a ^ 2 * e F ^ 2 + (2 * a * e F * b) * δ x) + b ^ 2 * δ x ^ 2 := by
      funext x; ring
    rw [e1, Spec.average_add, Spec.average_add, Spec.average_const, Spec.average_mul, Spec.average_mul, h0, mul_zero, add_zero]
  simp only [this]
  rw [Spec.average_add, Spec.average_const, Spec.average_mul]

/-- The variance of the average of `p` independent draws. -/
theorem average_sq_batch [Nonempty B] (δ : B → ℝ) (h0 : average δ = 0) (p : ℕ) :
    average (fun f : Fin p → B => (∑ i, δ (f i)) ^ 2) = p * average fun x => δ x ^ 2 := by
  induction p with
  | zero => simp [Spec.average]
  | succ p ih =>
    have := average_sq_snoc 1 1 (fun f : Fin p → B => ∑ i, δ (f i)) δ h0
    simp only [one_mul, one_pow] at this
    simp only [Fin.sum_univ_castSucc]
    rw [this, ih]; push_cast; ring

theorem average_sum_batch [Nonempty B] (x : B → V) (p : ℕ) :
    average (fun f : Fin p → B => ∑ i, x (f i)) = (p : ℝ) • average x := by
  induction p with
  | zero => simp [Spec.average]
  | succ p ih =>
    simp only [Fin.sum_univ_castSucc]
    rw [Spec.average_snoc fun f b => (∑ i, x (f i)) + x b]
    simp only [Spec.average_add, Spec.average_const, ih]
    push_cast; module

end average

/-! ### recursions -/

/-- Robbins and Monro: `x (t + 1) ≤ (1 - γ) x + γ ε` with `ε → 0` and a divergent sum of rates. -/
theorem tendsto_of_rates {x γ ε : ℕ → ℝ} (hx : ∀ t, 0 ≤ x t) (hγ : ∀ t, 0 ≤ γ t ∧ γ t ≤ 1)
    (hs : Tendsto (fun T => ∑ t ∈ Finset.range T, γ t) atTop atTop) (hε : Tendsto ε atTop (𝓝 0))
    (h : ∀ t, x (t + 1) ≤ (1 - γ t) * x t + γ t * ε t) : Tendsto x atTop (𝓝 0) := by
  rw [Metric.tendsto_atTop]
  intro r hr
  obtain ⟨t0, ht0⟩ := (Metric.tendsto_atTop.1 hε) (r / 2) (by positivity)
  have hb : ∀ k, x (t0 + k) - r / 2 ≤ Real.exp (-∑ t ∈ Finset.range k, γ (t0 + t)) * x t0 := fun k => by
    induction k with
    | zero => simp; linarith
    | succ k ih =>
      have e1 := h (t0 + k)
      have e2 := ht0 (t0 + k) (by omega)
      rw [Real.dist_eq, sub_zero] at e2
      have e3 := (abs_lt.1 e2).2
      obtain ⟨g0, g1⟩ := hγ (t0 + k)
      rw [Finset.sum_range_succ, neg_add, Real.exp_add]
      have e4 : 1 - γ (t0 + k) ≤ Real.exp (-γ (t0 + k)) := by
        have := Real.add_one_le_exp (-γ (t0 + k)); linarith
      have e5 : 0 ≤ Real.exp (-∑ t ∈ Finset.range k, γ (t0 + t)) * x t0 := mul_nonneg (Real.exp_pos _).le (hx _)
      rw [← add_assoc]
      calc x (t0 + k + 1) - r / 2 ≤ (1 - γ (t0 + k)) * (x (t0 + k) - r / 2) := by nlinarith
        _ ≤ (1 - γ (t0 + k)) * (Real.exp (-∑ t ∈ Finset.range k, γ (t0 + t)) * x t0) := mul_le_mul_of_nonneg_left ih (by linarith)
        _ ≤ Real.exp (-γ (t0 + k)) * (Real.exp (-∑ t ∈ Finset.range k, γ (t0 + t)) * x t0) := mul_le_mul_of_nonneg_right e4 e5
        _ = _ := by ring
  have hs' : Tendsto (fun k => ∑ t ∈ Finset.range k, γ (t0 + t)) atTop atTop := by
    have e : ∀ k, ∑ t ∈ Finset.range k, γ (t0 + t) = (∑ t ∈ Finset.range (t0 + k), γ t) - ∑ t ∈ Finset.range t0, γ t := fun k => by
      rw [Finset.sum_range_add]; ring
    simp only [e]
    refine tendsto_atTop_add_const_right _ _ ?_
    exact hs.comp (tendsto_atTop_mono (fun k => Nat.le_add_left k t0) tendsto_id)
  have hl : Tendsto (fun k => Real.exp (-∑ t ∈ Finset.range k, γ (t0 + t)) * x t0) atTop (𝓝 (0 * x t0)) :=
    (Real.tendsto_exp_neg_atTop_nhds_zero.comp hs').mul_const _
  rw [zero_mul] at hl
  obtain ⟨k0, hk0⟩ := (Metric.tendsto_atTop.1 hl) (r / 2) (by positivity)
  refine ⟨t0 + k0, fun t ht => ?_⟩
  obtain ⟨k, rfl⟩ : ∃ k, t = t0 + k := ⟨t - t0, by omega⟩
  have e1 := hk0 k (by omega)
  rw [Real.dist_eq, sub_zero] at e1 ⊢
  rw [abs_of_nonneg (hx _)]
  have := (abs_lt.1 e1).2
  linarith [hb k]

/-! ### conjugate losses -/

/-- If an average of divergences is a divergence, up to a constant, its target has the average of the natural parameters. -/
theorem naturals_of_kl_average {ι : Type*} [Fintype ι] {w : ι → ℝ} (hw : ∑ i, w i = 1) {r : ι → SSM n d} (hr : ∀ i, (r i).Nondegenerate)
    {P : SSM n d} (hP : P.Nondegenerate) {c : ℝ}
    (h : ∀ s : SSM n d, s.Nondegenerate → ∑ i, w i * (klDiv s.law (r i).law).toReal = (klDiv s.law P.law).toReal + c) :
    ssmToNaturals P = ∑ i, w i • ssmToNaturals (r i) := by
  have g1 := gradient_kl hP hP (L := fun s => ∑ i, w i * (klDiv s.law (r i).law).toReal) h
  have g2 : ∀ i, IsGradient (lossOfExpectations fun s : SSM n d => (klDiv s.law (r i).law).toReal) (expPar P)
      (ssmToNaturals P - ssmToNaturals (r i)) := fun i => gradient_kl hP (hr i) (c := 0) fun s _ => (add_zero _).symm
  have g3 : IsGradient (lossOfExpectations fun s : SSM n d => ∑ i, w i * (klDiv s.law (r i).law).toReal) (expPar P)
      (∑ i, w i • (ssmToNaturals P - ssmToNaturals (r i))) := by
    refine ⟨SymDiag.sum _ fun i => SymDiag.smul (g2 i).1 _, fun hh hsym => ?_⟩
    rw [pairing_sum_left]
    simp only [pairing_smul_left]
    have hsum := HasDerivAt.fun_sum (u := Finset.univ) fun i _ => ((g2 i).2 hh hsym).const_mul (w i)
    refine hsum.congr_of_eventuallyEq (Eventually.of_forall fun t => ?_)
    unfold lossOfExpectations
    dsimp only
    split <;> simp
  have e := IsGradient.unique g1 g3
  simp only [smul_sub, Finset.sum_sub_distrib] at e
  rw [← Finset.sum_smul, hw, one_smul] at e
  have := sub_right_injective e
  exact this

end MF
