import Verif.Lemmas.SparseCVI
import Verif.Spec.Minibatch
import Mathlib.Algebra.BigOperators.Fin
import Mathlib.Analysis.SpecificLimits.Basic

/-!
# Averages over random minibatches
-/

namespace MF
open Matrix Spec
variable {N p T : ℕ} {E : Type*} [AddCommGroup E] [Module ℝ E]

/-- One step towards the sum of the contributions of a minibatch. -/
noncomputable def siteStep (r : ℝ) (a : Fin N → E) (θ : E) (f : Fin p → Fin N) : E := (1 - r) • θ + r • ∑ i, a (f i)

theorem sum_pi_eval_smul (a : Fin N → E) (i : Fin (p + 1)) :
    ∑ f : Fin (p + 1) → Fin N, a (f i) = ((N : ℝ) ^ p) • ∑ x, a x := by
  rw [← (Fin.insertNthEquiv (fun _ => Fin N) i).sum_comp, Fintype.sum_prod_type]
  simp only [Fin.insertNthEquiv, Equiv.coe_fn_mk, Fin.insertNth_apply_same, Finset.sum_const, Finset.card_univ,
    Fintype.card_fun, Fintype.card_fin]
  rw [Finset.smul_sum]
  refine Finset.sum_congr rfl fun x _ => ?_
  rw [← Nat.cast_smul_eq_nsmul ℝ, Nat.cast_pow]

/-- The sum over all minibatches of size `p` of the sum of the contributions. -/
theorem sum_batches (hN : 0 < N) (a : Fin N → E) :
    ∑ f : Fin p → Fin N, ∑ i, a (f i) = ((N : ℝ) ^ p) • (p / N : ℝ) • ∑ x, a x := by
  rw [Finset.sum_comm]
  cases p with
  | zero => simp
  | succ p =>
    simp only [sum_pi_eval_smul, Finset.sum_const, Finset.card_univ, Fintype.card_fin]
    rw [← Nat.cast_smul_eq_nsmul ℝ, smul_smul, smul_smul]
    congr 1
    have : (N : ℝ) ≠ 0 := Nat.cast_ne_zero.2 hN.ne'
    field_simp
    rw [pow_succ]

theorem sum_siteStep (hN : 0 < N) (r : ℝ) (a : Fin N → E) (θ : E) :
    ∑ f : Fin p → Fin N, siteStep r a θ f = ((N : ℝ) ^ p) • ((1 - r) • θ + r • (p / N : ℝ) • ∑ x, a x) := by
  simp only [siteStep, Finset.sum_add_distrib, Finset.sum_const, Finset.card_univ, Fintype.card_fun, Fintype.card_fin,
    ← Finset.smul_sum, sum_batches hN]
  rw [← Nat.cast_smul_eq_nsmul ℝ, Nat.cast_pow, smul_add, smul_comm r]

/-- The sum over all sequences of `T` minibatches. -/
theorem sum_runs (hN : 0 < N) (r : ℝ) (a : Fin N → E) : ∀ (T : ℕ) (θ : E),
    ∑ F : Fin T → Fin p → Fin N, (List.ofFn F).foldl (siteStep r a) θ =
      ((N : ℝ) ^ (p * T)) • ((1 - r) ^ T • θ + (1 - (1 - r) ^ T) • (p / N : ℝ) • ∑ x, a x)
  | 0, θ => by simp
  | T + 1, θ => by
    rw [← (Fin.consEquiv fun _ => (Fin p → Fin N)).sum_comp, Fintype.sum_prod_type]
    simp only [Fin.consEquiv, Equiv.coe_fn_mk, List.ofFn_succ, Fin.cons_zero, Fin.cons_succ, List.foldl_cons,
      sum_runs hN r a T]
    rw [← Finset.smul_sum, Finset.sum_add_distrib, ← Finset.smul_sum, sum_siteStep hN, Finset.sum_const,
      Finset.card_univ]
    simp only [Fintype.card_fun, Fintype.card_fin]
    rw [← Nat.cast_smul_eq_nsmul ℝ, Nat.cast_pow]
    generalize ∑ x, a x = s
    rw [smul_comm ((1 - r) ^ T) ((N : ℝ) ^ p), ← smul_add, smul_smul, ← pow_add, ← mul_add_one]
    congr 1
    module

/-- The average over all minibatches, in terms of the step on all data. -/
theorem avg_siteStep (hN : 0 < N) (r : ℝ) (a : Fin N → E) (θ : E) :
    ((N : ℝ) ^ p)⁻¹ • ∑ f : Fin p → Fin N, siteStep r a θ f =
      (1 - r) • θ + (p / N : ℝ) • (siteStep r a θ id - (1 - r) • θ) := by
  have hN' : ((N : ℝ) ^ p) ≠ 0 := pow_ne_zero _ (Nat.cast_ne_zero.2 hN.ne')
  rw [sum_siteStep hN, smul_smul, inv_mul_cancel₀ hN', one_smul]
  simp only [siteStep, id, add_sub_cancel_left]
  rw [smul_comm (p / N : ℝ)]

theorem partition_siteStep {B : ℕ} (size : Fin B → ℕ) (e : (Σ b, Fin (size b)) ≃ Fin N) (r : ℝ) (a : Fin N → E) (θ : E) :
    ∑ b, (siteStep r a θ (fun i => e ⟨b, i⟩) - (1 - r) • θ) = siteStep r a θ id - (1 - r) • θ := by
  simp only [siteStep, id, add_sub_cancel_left, ← Finset.smul_sum]
  rw [← e.sum_comp, Fintype.sum_sigma]

/-- The average over all sequences of `T` minibatches. -/
theorem avg_runs (hN : 0 < N) (r : ℝ) (a : Fin N → E) (T : ℕ) (θ : E) :
    ((N : ℝ) ^ (p * T))⁻¹ • ∑ F : Fin T → Fin p → Fin N, (List.ofFn F).foldl (siteStep r a) θ =
      (1 - r) ^ T • θ + (1 - (1 - r) ^ T) • (p / N : ℝ) • ∑ x, a x := by
  have hN' : ((N : ℝ) ^ (p * T)) ≠ 0 := pow_ne_zero _ (Nat.cast_ne_zero.2 hN.ne')
  rw [sum_runs hN, smul_smul, inv_mul_cancel₀ hN', one_smul]

theorem run_limit [TopologicalSpace E] [ContinuousAdd E] [ContinuousSMul ℝ E] {r : ℝ} (h0 : 0 < r) (h1 : r ≤ 1) (θ s : E) :
    Filter.Tendsto (fun T : ℕ => (1 - r) ^ T • θ + (1 - (1 - r) ^ T) • s) Filter.atTop (nhds s) := by
  have h := tendsto_pow_atTop_nhds_zero_of_lt_one (r := 1 - r) (by linarith) (by linarith)
  have := (h.smul_const θ).add ((h.const_sub 1).smul_const s)
  simpa using this

/-! ### the sites of one datum -/

variable {n d : ℕ}

/-- What a datum at time `t` with gradient `g` and projection `w` adds to the first site parameters. -/
noncomputable def datumSite₁ (z : Fin (n + 1) → ℝ) (t : ℝ) (g : ℝ) (w : Fin d ⊕ Fin d → ℝ) :
    Fin (n + 2) → Fin d ⊕ Fin d → ℝ := fun j => if searchsortedLeft z t = j then g • w else 0

/-- What it adds to the second ones. -/
noncomputable def datumSite₂ (z : Fin (n + 1) → ℝ) (t : ℝ) (g : ℝ) (w : Fin d ⊕ Fin d → ℝ) :
    Fin (n + 2) → Matrix (Fin d ⊕ Fin d) (Fin d ⊕ Fin d) ℝ :=
  fun j => if searchsortedLeft z t = j then g • vecMulVec w w else 0

theorem partitionSum_bp₁ (z : Fin (n + 1) → ℝ) (X : Fin p → ℝ) (g₁ g₂ : Fin p → Vec 1)
    (C : Fin p → Matrix (Fin 1) (Fin d ⊕ Fin d) ℝ) :
    partitionSum (fun t => searchsortedLeft z (X t)) (backProjectNats g₁ g₂ C).1 =
      ∑ i, datumSite₁ z (X i) (g₁ i 0) (C i 0) := by
  funext j
  rw [partitionSum_eq, Finset.sum_apply]
  refine Finset.sum_congr rfl fun i _ => ?_
  unfold datumSite₁
  split_ifs
  · funext a
    simp only [backProjectNats, Fin.sum_univ_one, Pi.smul_apply, smul_eq_mul]
    ring
  · rfl

theorem partitionSum_bp₂ (z : Fin (n + 1) → ℝ) (X : Fin p → ℝ) (g₁ g₂ : Fin p → Vec 1)
    (C : Fin p → Matrix (Fin 1) (Fin d ⊕ Fin d) ℝ) :
    partitionSum (fun t => searchsortedLeft z (X t)) (backProjectNats g₁ g₂ C).2 =
      ∑ i, datumSite₂ z (X i) (g₂ i 0) (C i 0) := by
  funext j
  rw [partitionSum_eq, Finset.sum_apply]
  refine Finset.sum_congr rfl fun i _ => ?_
  unfold datumSite₂
  split_ifs
  · ext a b
    simp only [backProjectNats, Fin.sum_univ_one, Matrix.smul_apply, smul_eq_mul, of_apply, vecMulVec_apply]
    ring
  · rfl

theorem datumSite₂_symm (z : Fin (n + 1) → ℝ) (t g : ℝ) (w : Fin d ⊕ Fin d → ℝ) (j) :
    (datumSite₂ z t g w j)ᵀ = datumSite₂ z t g w j := by
  unfold datumSite₂
  split_ifs
  · ext a b
    simp only [transpose_apply, Matrix.smul_apply, vecMulVec_apply, smul_eq_mul]
    ring
  · exact transpose_zero

theorem datumSite₂_neg (z : Fin (n + 1) → ℝ) (t : ℝ) {g : ℝ} (hg : g ≤ 0) (w : Fin d ⊕ Fin d → ℝ) (j) (v) :
    v ⬝ᵥ (datumSite₂ z t g w j *ᵥ v) ≤ 0 := by
  unfold datumSite₂
  split_ifs
  · rw [smul_mulVec, dotProduct_smul, vecMulVec_mulVec]
    simp only [smul_eq_mul, MulOpposite.smul_eq_mul_unop, MulOpposite.unop_op, dotProduct_smul]
    rw [dotProduct_comm v]
    nlinarith [mul_self_nonneg (w ⬝ᵥ v)]
  · simp

/-- Symmetric and negative semidefinite second site parameters. -/
def GoodSites (θ : Fin (n + 2) → Matrix (Fin d ⊕ Fin d) (Fin d ⊕ Fin d) ℝ) : Prop :=
  (∀ j, (θ j)ᵀ = θ j) ∧ ∀ j v, v ⬝ᵥ (θ j *ᵥ v) ≤ 0

theorem GoodSites.add {θ θ' : Fin (n + 2) → Matrix (Fin d ⊕ Fin d) (Fin d ⊕ Fin d) ℝ} (h : GoodSites θ)
    (h' : GoodSites θ') : GoodSites (θ + θ') :=
  ⟨fun j => by rw [Pi.add_apply, transpose_add, h.1, h'.1], fun j v => by
    rw [Pi.add_apply, add_mulVec, dotProduct_add]; exact add_nonpos (h.2 j v) (h'.2 j v)⟩

theorem GoodSites.smul {θ : Fin (n + 2) → Matrix (Fin d ⊕ Fin d) (Fin d ⊕ Fin d) ℝ} (h : GoodSites θ) {r : ℝ}
    (hr : 0 ≤ r) : GoodSites (r • θ) :=
  ⟨fun j => by rw [Pi.smul_apply, transpose_smul, h.1], fun j v => by
    rw [Pi.smul_apply, smul_mulVec, dotProduct_smul]; exact mul_nonpos_of_nonneg_of_nonpos hr (h.2 j v)⟩

theorem GoodSites.sum {ι : Type*} [Fintype ι] {θ : ι → Fin (n + 2) → Matrix (Fin d ⊕ Fin d) (Fin d ⊕ Fin d) ℝ}
    (h : ∀ i, GoodSites (θ i)) : GoodSites (∑ i, θ i) :=
  ⟨fun j => by rw [Finset.sum_apply, transpose_sum]; exact Finset.sum_congr rfl fun i _ => (h i).1 j, fun j v => by
    rw [Finset.sum_apply, sum_mulVec, dotProduct_sum]; exact Finset.sum_nonpos fun i _ => (h i).2 j v⟩

theorem GoodSites.step {θ : Fin (n + 2) → Matrix (Fin d ⊕ Fin d) (Fin d ⊕ Fin d) ℝ} (h : GoodSites θ) {r : ℝ}
    (h0 : 0 ≤ r) (h1 : r ≤ 1) {a : Fin N → Fin (n + 2) → Matrix (Fin d ⊕ Fin d) (Fin d ⊕ Fin d) ℝ}
    (ha : ∀ i, GoodSites (a i)) (f : Fin p → Fin N) : GoodSites (siteStep r a θ f) :=
  (h.smul (sub_nonneg.2 h1)).add ((GoodSites.sum fun i => ha (f i)).smul h0)

theorem pairSiteLogLik_smul (τ : ℝ) (θ₁ : Fin (n + 2) → Fin d ⊕ Fin d → ℝ)
    (θ₂ : Fin (n + 2) → Matrix (Fin d ⊕ Fin d) (Fin d ⊕ Fin d) ℝ) (u : Fin (n + 1) → Vec d) :
    pairSiteLogLik (τ • θ₁) (τ • θ₂) u = τ * pairSiteLogLik θ₁ θ₂ u := by
  unfold pairSiteLogLik
  rw [Finset.mul_sum]
  refine Finset.sum_congr rfl fun j _ => ?_
  rw [Pi.smul_apply, Pi.smul_apply, smul_dotProduct, smul_mulVec, dotProduct_smul, smul_eq_mul, smul_eq_mul, mul_add]

/-! ### objectives -/

theorem sum_perm_eval' (g : Fin N → ℝ) (i : Fin N) :
    (N : ℝ) * ∑ σ : Equiv.Perm (Fin N), g (σ i) = (N.factorial : ℝ) * ∑ a, g a := by
  have h1 : ∀ j, ∑ σ : Equiv.Perm (Fin N), g (σ j) = ∑ σ : Equiv.Perm (Fin N), g (σ i) := by
    intro j
    rw [← Equiv.sum_comp (Equiv.mulRight (Equiv.swap i j)) (fun σ : Equiv.Perm (Fin N) => g (σ i))]
    simp
  have h2 : ∑ j, ∑ σ : Equiv.Perm (Fin N), g (σ j) = (N.factorial : ℝ) * ∑ a, g a := by
    rw [Finset.sum_comm]
    simp only [Equiv.sum_comp, Finset.sum_const, Finset.card_univ, Fintype.card_perm, Fintype.card_fin, nsmul_eq_mul]
  rw [← h2]
  simp only [h1, Finset.sum_const, Finset.card_univ, Fintype.card_fin, nsmul_eq_mul]

/-- Scaled sums of data terms minus a constant are unbiased. -/
theorem unbiased_of_sum {ε : Type} (hpos : 0 < N) {obj : (p : ℕ) → (Fin p → Fin N) → Except ε ℝ} (g : Fin N → ℝ) (kl : ℝ)
    (h : ∀ p (f : Fin p → Fin N), obj p f = .ok ((N / p : ℝ) * (∑ i, g (f i)) - kl)) :
    UnbiasedObjective N obj (∑ i, g i - kl) := by
  have hN' : (N : ℝ) ≠ 0 := Nat.cast_ne_zero.2 hpos.ne'
  refine ⟨fun B size hs e => ⟨_, fun b => h _ _, ?_⟩, fun p hp => ⟨_, fun f => h _ _, ?_⟩,
    fun p hp hpN => ⟨_, fun σ => h _ _, ?_⟩⟩
  · have hcard : ∑ b, (size b : ℝ) = N := by
      have := Fintype.card_congr e
      simp only [Fintype.card_sigma, Fintype.card_fin] at this
      exact_mod_cast this
    have hsum : ∑ i, g i = ∑ b, ∑ i, g (e ⟨b, i⟩) := by
      rw [← e.sum_comp, Fintype.sum_sigma]
    have : ∀ b, (size b / N : ℝ) * ((N : ℝ) / size b * ∑ i, g (e ⟨b, i⟩) - kl) =
        ∑ i, g (e ⟨b, i⟩) - (size b : ℝ) * (kl / N) := by
      intro b
      have := (Nat.cast_ne_zero (R := ℝ)).2 (hs b).ne'
      field_simp
    simp only [this]
    rw [Finset.sum_sub_distrib, ← Finset.sum_mul, hcard, ← hsum]
    field_simp
  · have hp' : (p : ℝ) ≠ 0 := Nat.cast_ne_zero.2 hp.ne'
    rw [Finset.sum_sub_distrib, ← Finset.mul_sum, sum_batches hpos]
    simp only [Finset.sum_const, Finset.card_univ, Fintype.card_fun, Fintype.card_fin, nsmul_eq_mul, smul_eq_mul]
    push_cast
    field_simp
  · have hp' : (p : ℝ) ≠ 0 := Nat.cast_ne_zero.2 hp.ne'
    have hf : (N.factorial : ℝ) ≠ 0 := Nat.cast_ne_zero.2 N.factorial_ne_zero
    have h1 : ∀ i, ∑ σ : Equiv.Perm (Fin N), g (σ i) = (N.factorial : ℝ) * (∑ a, g a) / N := fun i => by
      rw [eq_div_iff hN', mul_comm]; exact sum_perm_eval' g i
    rw [Finset.sum_sub_distrib, ← Finset.mul_sum, Finset.sum_comm]
    simp only [h1, Finset.sum_const, Finset.card_univ, Fintype.card_perm, Fintype.card_fin, nsmul_eq_mul]
    field_simp

end MF
