import Verif.Lemmas.StochasticTraining
import Verif.Lemmas.NatDynamics2
import Mathlib.Analysis.Convex.Topology

/-!
# Moments of the distributions whose natural parameters lie in the convex hull of finitely many others
-/

namespace MF
open Matrix Spec MeasureTheory InformationTheory Filter Topology
variable {n d : ℕ}

theorem NatDyn.convex_proper {ι : Type*} [Fintype ι] [DecidableEq ι] {far : ι → ι → Prop} : Convex ℝ (NatDyn.proper far) := by
  intro x hx y hy a b ha hb hab
  refine ⟨?_, fun i j hij => ?_⟩
  · have e : (Matrix.of (a • x + b • y).2 : Matrix ι ι ℝ) = a • Matrix.of x.2 + b • Matrix.of y.2 := rfl
    rw [e]
    rcases ha.eq_or_lt with h | h
    · have hb1 : b = 1 := by linarith
      rw [← h, hb1, zero_smul, zero_add, one_smul]; exact hy.1
    · exact (hx.1.smul h).add_posSemidef (hy.1.posSemidef.smul hb)
  · show a * x.2 i j + b * y.2 i j = 0
    rw [hx.2 i j hij, hy.2 i j hij]; ring

theorem moments_bounded {B : Type*} [Finite B] {b : B → SSM n d} (hb : ∀ x, (b x).Nondegenerate) :
    ∃ C, 0 ≤ C ∧ ∀ s : SSM n d, s.Nondegenerate → NatDyn.pt s ∈ convexHull ℝ (Set.range fun x => NatDyn.pt (b x)) →
      (∀ k i, |s.mus k i| ≤ C) ∧ ∀ x y, |s.Kd x y| ≤ C := by
  have hK : IsCompact (convexHull ℝ (Set.range fun x => NatDyn.pt (b x))) := (Set.finite_range _).isCompact_convexHull (𝕜 := ℝ)
  have hsub : convexHull ℝ (Set.range fun x => NatDyn.pt (b x)) ⊆ NatDyn.proper (NatDyn.farBlocks (n := n) (d := d)) :=
    convexHull_min (by rintro _ ⟨x, rfl⟩; exact NatDyn.pt_mem (hb x)) NatDyn.convex_proper
  obtain ⟨C1, h1⟩ := hK.exists_bound_of_continuousOn (NatDyn.continuousOn_mean.mono hsub)
  have hcov : ContinuousOn (fun x : (Ix n d → ℝ) × (Ix n d → Ix n d → ℝ) => (fun i j => NatDyn.cov x i j : Ix n d → Ix n d → ℝ))
      (NatDyn.proper (NatDyn.farBlocks (n := n) (d := d))) := NatDyn.continuousOn_cov
  obtain ⟨C2, h2⟩ := hK.exists_bound_of_continuousOn (hcov.mono hsub)
  refine ⟨max 0 (max C1 C2), le_max_left _ _, fun s hs hm => ⟨fun k i => ?_, fun x y => ?_⟩⟩
  · have e := (norm_le_pi_norm _ (k, i)).trans (h1 _ hm)
    rw [NatDyn.mean_pt hs] at e
    exact e.trans ((le_max_left _ _).trans (le_max_right _ _))
  · have e : ‖NatDyn.cov (NatDyn.pt s) x y‖ ≤ C2 :=
      ((norm_le_pi_norm (fun j => NatDyn.cov (NatDyn.pt s) x j) y).trans
        (norm_le_pi_norm (fun i j => NatDyn.cov (NatDyn.pt s) i j) x)).trans (h2 _ hm)
    rw [NatDyn.cov_pt hs] at e
    exact e.trans ((le_max_right _ _).trans (le_max_right _ _))

/-- The entries of the natural parameters, as linear functions. -/
def entry1 (b : Fin (n + 1)) (i : Fin d) : ExpPar n d →ₗ[ℝ] ℝ := ⟨⟨fun g => g.1 b i, fun _ _ => rfl⟩, fun _ _ => rfl⟩
def entry2 (b : Fin (n + 1)) (i j : Fin d) : ExpPar n d →ₗ[ℝ] ℝ := ⟨⟨fun g => g.2.1 b i j, fun _ _ => rfl⟩, fun _ _ => rfl⟩
def entry3 (k : Fin n) (i j : Fin d) : ExpPar n d →ₗ[ℝ] ℝ := ⟨⟨fun g => g.2.2 k i j, fun _ _ => rfl⟩, fun _ _ => rfl⟩

/-- The sum of the absolute values of all entries. -/
def absSum (g : ExpPar n d) : ℝ :=
  (∑ b, ∑ i, |entry1 b i g|) + (∑ b, ∑ i, ∑ j, |entry2 b i j g|) + ∑ k, ∑ i, ∑ j, |entry3 k i j g|

theorem pairing_le {g η : ExpPar n d} {C : ℝ} (h1 : ∀ b i, |η.1 b i| ≤ C) (h2 : ∀ b i j, |η.2.1 b i j| ≤ C) (h3 : ∀ b i j, |η.2.2 b i j| ≤ C) :
    pairing g η ≤ C * absSum g := by
  have key : ∀ x y : ℝ, |y| ≤ C → x * y ≤ C * |x| := fun x y h =>
    (le_abs_self _).trans (by rw [abs_mul, mul_comm]; exact mul_le_mul_of_nonneg_right h (abs_nonneg _))
  unfold pairing absSum
  simp only [mul_add, Finset.mul_sum]
  refine add_le_add (add_le_add ?_ ?_) ?_
  · exact Finset.sum_le_sum fun b _ => Finset.sum_le_sum fun i _ => key _ _ (h1 b i)
  · exact Finset.sum_le_sum fun b _ => Finset.sum_le_sum fun i _ => Finset.sum_le_sum fun j _ => key _ _ (h2 b i j)
  · exact Finset.sum_le_sum fun b _ => Finset.sum_le_sum fun i _ => Finset.sum_le_sum fun j _ => key _ _ (h3 b i j)

theorem expPar_le {s : SSM n d} {C : ℝ} (h : (∀ k i, |s.mus k i| ≤ C) ∧ ∀ x y, |s.Kd x y| ≤ C) :
    (∀ b i, |(expPar s).1 b i| ≤ C + C ^ 2) ∧ (∀ b i j, |(expPar s).2.1 b i j| ≤ C + C ^ 2) ∧ ∀ b i j, |(expPar s).2.2 b i j| ≤ C + C ^ 2 := by
  have hm : ∀ k i l j, |s.mus k i * s.mus l j| ≤ C ^ 2 := fun k i l j => by
    rw [abs_mul, sq]
    exact mul_le_mul (h.1 _ _) (h.1 _ _) (abs_nonneg _) ((abs_nonneg _).trans (h.1 k i))
  refine ⟨fun b i => (h.1 b i).trans (by nlinarith), fun b i j => ?_, fun b i j => ?_⟩
  · exact (abs_add_le _ _).trans (add_le_add (h.2 _ _) (hm _ _ _ _))
  · exact (abs_add_le _ _).trans (add_le_add (h.2 _ _) (hm _ _ _ _))

theorem kl_le_absSum {s b : SSM n d} (hs : s.Nondegenerate) (hb : b.Nondegenerate) {C : ℝ}
    (h : (∀ k i, |s.mus k i| ≤ C) ∧ ∀ x y, |s.Kd x y| ≤ C) (h' : (∀ k i, |b.mus k i| ≤ C) ∧ ∀ x y, |b.Kd x y| ≤ C) :
    (klDiv s.law b.law).toReal ≤ 2 * (C + C ^ 2) * absSum (ssmToNaturals s - ssmToNaturals b) := by
  have e := klDiv_symm hs hb
  have n2 := ENNReal.toReal_nonneg (a := klDiv b.law s.law)
  obtain ⟨a1, a2, a3⟩ := expPar_le h
  obtain ⟨b1, b2, b3⟩ := expPar_le h'
  have hsub : ∀ {x y : ℝ}, |x| ≤ C + C ^ 2 → |y| ≤ C + C ^ 2 → |x - y| ≤ 2 * (C + C ^ 2) := fun h1 h2 => (abs_sub _ _).trans (by linarith)
  have := pairing_le (g := ssmToNaturals s - ssmToNaturals b) (η := expPar s - expPar b) (C := 2 * (C + C ^ 2))
    (fun b i => hsub (a1 b i) (b1 b i)) (fun b i j => hsub (a2 b i j) (b2 b i j)) fun b i j => hsub (a3 b i j) (b3 b i j)
  linarith

theorem average_abs_sq {ι : Type*} [Fintype ι] [Nonempty ι] (x : ι → ℝ) : average (fun i => |x i|) ^ 2 ≤ average fun i => x i ^ 2 := by
  unfold Spec.average
  have h := sq_sum_le_card_mul_sum_sq (s := Finset.univ) (f := fun i => |x i|)
  simp only [sq_abs, Finset.card_univ] at h
  have hc : (0 : ℝ) < Fintype.card ι := by exact_mod_cast Fintype.card_pos
  rw [smul_eq_mul, smul_eq_mul, mul_pow, inv_pow, inv_mul_le_iff₀ (by positivity)]
  refine h.trans (le_of_eq ?_)
  field_simp

theorem average_abs_tendsto {ι : ℕ → Type*} [∀ T, Fintype (ι T)] [∀ T, Nonempty (ι T)] {x : (T : ℕ) → ι T → ℝ}
    (h : Tendsto (fun T => average fun i => x T i ^ 2) atTop (𝓝 0)) : Tendsto (fun T => average fun i => |x T i|) atTop (𝓝 0) := by
  have hs : Tendsto (fun T => Real.sqrt (average fun i => x T i ^ 2)) atTop (𝓝 0) := by
    have := (Real.continuous_sqrt.tendsto 0).comp h
    rwa [Real.sqrt_zero] at this
  refine squeeze_zero (fun T => Spec.average_nonneg fun i => abs_nonneg _) (fun T => ?_) hs
  exact Real.le_sqrt_of_sq_le (average_abs_sq _)

theorem Spec.average_finset_sum {ι κ : Type*} [Fintype ι] (S : Finset κ) (x : κ → ι → ℝ) :
    average (fun i => ∑ k ∈ S, x k i) = ∑ k ∈ S, average (x k) := by
  unfold Spec.average
  rw [Finset.sum_comm, Finset.smul_sum]

theorem average_absSum_tendsto {ι : ℕ → Type*} [∀ T, Fintype (ι T)] [∀ T, Nonempty (ι T)] {g : (T : ℕ) → ι T → ExpPar n d}
    (h : ∀ φ : ExpPar n d →ₗ[ℝ] ℝ, Tendsto (fun T => average fun i => φ (g T i) ^ 2) atTop (𝓝 0)) :
    Tendsto (fun T => average fun i => absSum (g T i)) atTop (𝓝 0) := by
  unfold absSum
  simp only [Spec.average_add, Spec.average_finset_sum]
  have h0 : (0 : ℝ) = (∑ b : Fin (n + 1), ∑ i : Fin d, (0 : ℝ)) + (∑ b : Fin (n + 1), ∑ i : Fin d, ∑ j : Fin d, (0 : ℝ)) +
      ∑ k : Fin n, ∑ i : Fin d, ∑ j : Fin d, (0 : ℝ) := by simp
  rw [h0]
  refine ((tendsto_finsetSum _ fun b _ => tendsto_finsetSum _ fun i _ => ?_).add
    (tendsto_finsetSum _ fun b _ => tendsto_finsetSum _ fun i _ => tendsto_finsetSum _ fun j _ => ?_)).add
    (tendsto_finsetSum _ fun b _ => tendsto_finsetSum _ fun i _ => tendsto_finsetSum _ fun j _ => ?_)
  · exact average_abs_tendsto (h _)
  · exact average_abs_tendsto (h _)
  · exact average_abs_tendsto (h _)

/-- A continuous function of points that stay in a compact set and converge in mean converges in mean. -/
theorem average_continuous_tendsto {E : Type*} [NormedAddCommGroup E] {ι : ℕ → Type*} [∀ T, Fintype (ι T)] [∀ T, Nonempty (ι T)]
    {x : (T : ℕ) → ι T → E} {b : E} {K : Set E} (hK : IsCompact K) (hx : ∀ T i, x T i ∈ K) (hb : b ∈ K) {G : E → ℝ} (hG : ContinuousOn G K)
    (h : Tendsto (fun T => average fun i => ‖x T i - b‖) atTop (𝓝 0)) :
    Tendsto (fun T => average fun i => |G (x T i) - G b|) atTop (𝓝 0) := by
  obtain ⟨C, hC⟩ := hK.exists_bound_of_continuousOn hG
  have hC0 : 0 ≤ C := (norm_nonneg _).trans (hC b hb)
  rw [Metric.tendsto_atTop]
  intro ε hε
  obtain ⟨δ, hδ, hd⟩ := Metric.continuousOn_iff.1 hG b hb (ε / 2) (by positivity)
  have key : ∀ T i, |G (x T i) - G b| ≤ ε / 2 + 2 * C / δ * ‖x T i - b‖ := fun T i => by
    by_cases hc : dist (x T i) b < δ
    · have := hd (x T i) (hx T i) hc
      rw [Real.dist_eq] at this
      have : 0 ≤ 2 * C / δ * ‖x T i - b‖ := by positivity
      linarith
    · have h1 : |G (x T i) - G b| ≤ 2 * C := (abs_sub _ _).trans (by
        have := hC _ (hx T i); have := hC b hb; rw [Real.norm_eq_abs] at *; linarith)
      have h2 : δ ≤ ‖x T i - b‖ := by rw [← dist_eq_norm]; exact not_lt.1 hc
      have h3 : 2 * C ≤ 2 * C / δ * ‖x T i - b‖ := by
        rw [div_mul_eq_mul_div, le_div_iff₀ hδ]
        exact mul_le_mul_of_nonneg_left h2 (by positivity)
      linarith
  have ht := h.const_mul (2 * C / δ)
  rw [mul_zero] at ht
  obtain ⟨T0, hT0⟩ := Metric.tendsto_atTop.1 ht (ε / 2) (by positivity)
  refine ⟨T0, fun T hT => ?_⟩
  have h1 := hT0 T hT
  rw [Real.dist_eq, sub_zero] at h1 ⊢
  rw [abs_of_nonneg (Spec.average_nonneg fun i => abs_nonneg _)]
  have h2 : (average fun i => |G (x T i) - G b|) ≤ average fun i => ε / 2 + 2 * C / δ * ‖x T i - b‖ := Spec.average_le (key T)
  rw [Spec.average_add, Spec.average_const, Spec.average_mul] at h2
  linarith [(abs_lt.1 h1).2]

theorem pair_norm_le {ι : Type*} [Fintype ι] (z : (ι → ℝ) × (ι → ι → ℝ)) : ‖z‖ ≤ (∑ i, |z.1 i|) + ∑ i, ∑ j, |z.2 i j| := by
  have h1 : 0 ≤ ∑ i, |z.1 i| := Finset.sum_nonneg fun _ _ => abs_nonneg _
  have h2 : ∀ i, 0 ≤ ∑ j, |z.2 i j| := fun i => Finset.sum_nonneg fun _ _ => abs_nonneg _
  have h3 : 0 ≤ ∑ i, ∑ j, |z.2 i j| := Finset.sum_nonneg fun i _ => h2 i
  refine max_le ?_ ?_
  · refine (pi_norm_le_iff_of_nonneg (add_nonneg h1 h3)).2 fun i => ?_
    have := Finset.single_le_sum (f := fun i => |z.1 i|) (fun _ _ => abs_nonneg _) (Finset.mem_univ i)
    rw [Real.norm_eq_abs]; linarith
  · refine (pi_norm_le_iff_of_nonneg (add_nonneg h1 h3)).2 fun i => (pi_norm_le_iff_of_nonneg (add_nonneg h1 h3)).2 fun j => ?_
    have e1 := Finset.single_le_sum (f := fun j => |z.2 i j|) (fun _ _ => abs_nonneg _) (Finset.mem_univ j)
    have e2 := Finset.single_le_sum (f := fun i => ∑ j, |z.2 i j|) (fun i _ => h2 i) (Finset.mem_univ i)
    rw [Real.norm_eq_abs]; linarith

theorem average_pt_tendsto {ι : ℕ → Type*} [∀ T, Fintype (ι T)] [∀ T, Nonempty (ι T)] {s : (T : ℕ) → ι T → SSM n d} {b : SSM n d}
    (h : ∀ φ : ExpPar n d →ₗ[ℝ] ℝ, Tendsto (fun T => average fun i => φ (ssmToNaturals (s T i) - ssmToNaturals b) ^ 2) atTop (𝓝 0)) :
    Tendsto (fun T => average fun i => ‖NatDyn.pt (s T i) - NatDyn.pt b‖) atTop (𝓝 0) := by
  set φ1 : Ix n d → ExpPar n d →ₗ[ℝ] ℝ := fun i => (LinearMap.proj i).comp ((LinearMap.fst ℝ _ _).comp NatDyn.vecMat) with h1
  set φ2 : Ix n d → Ix n d → ExpPar n d →ₗ[ℝ] ℝ := fun i j =>
    (LinearMap.proj j).comp ((LinearMap.proj i).comp ((LinearMap.snd ℝ _ _).comp NatDyn.vecMat)) with h2
  have e : ∀ T i, ‖NatDyn.pt (s T i) - NatDyn.pt b‖ ≤ (∑ x, |φ1 x (ssmToNaturals (s T i) - ssmToNaturals b)|) +
      ∑ x, ∑ y, |φ2 x y (ssmToNaturals (s T i) - ssmToNaturals b)| := fun T i => by
    unfold NatDyn.pt
    rw [← map_sub]
    exact pair_norm_le _
  refine squeeze_zero (fun T => Spec.average_nonneg fun i => norm_nonneg _) (fun T => Spec.average_le (e T)) ?_
  simp only [Spec.average_add, Spec.average_finset_sum]
  have h0 : (0 : ℝ) = (∑ x : Ix n d, (0 : ℝ)) + ∑ x : Ix n d, ∑ y : Ix n d, (0 : ℝ) := by simp
  rw [h0]
  exact (tendsto_finsetSum _ fun x _ => average_abs_tendsto (h _)).add
    (tendsto_finsetSum _ fun x _ => tendsto_finsetSum _ fun y _ => average_abs_tendsto (h _))

end MF
