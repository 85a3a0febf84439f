import Verif.Lemmas.LogConcave
import Verif.Props.PiecewiseVariational
import Verif.Props.CVINatGrad
import Verif.Props.SparseCVINatGrad
import Verif.Props.SVGPNatGrad
import Verif.Props.SpatioTemporalCVI

/-!
# C75: with a log-concave likelihood, CVI and natural gradient updates never break down
-/

namespace MF
open Matrix Spec MeasureTheory ProbabilityTheory
variable {n o d p : ℕ}

/-! ### the likelihood -/

/-- C75: for a likelihood `f ↦ log p(y | f)` that is concave, `∫ log p(y | f) N(f; m, v) df` does not increase with `v`, so the second
component of the gradient that CVI follows is never positive: every update direction is a Gaussian site of nonnegative precision. -/
theorem C75_gradient {lik : ScalarLikelihood} (he : ExactLikelihood lik) (hc : LogConcaveLikelihood lik) (m y : ℝ) :
    AntitoneOn (fun v => lik.varExp m v y) (Set.Ici 0) ∧ ∀ v, 0 ≤ v → (localGradients lik m v y).2 ≤ 0 :=
  ⟨varExp_antitone he hc m y, fun _ hv => localGradients_nonpos he hc y hv⟩

/-! ### CVI -/

theorem nat2_step {r θ g : ℝ} (h0 : 0 ≤ r) (hg : g ≤ 0) : (1 - r) * θ + r * g ≤ (1 - r) * θ := by
  have := mul_nonpos_of_nonneg_of_nonpos h0 hg
  linarith

/-- C75: any number of `update_sites()` with a learning rate in `[0, 1]`, from any sites with `nat2 ≤ 0`, succeed; the distribution `dist_q`
exists after each, and the precision of a site never falls below `(1 - r)^N` times what it was. -/
theorem C75_cvi {c : CVI n d} {k} (h : c.Valid k) (he : ExactLikelihood c.likelihood) (hc : LogConcaveLikelihood c.likelihood)
    (h0 : 0 ≤ c.learningRate) (h1 : c.learningRate ≤ 1) (hneg : ∀ t, c.sites.nat2 t 0 0 ≤ 0) (N : ℕ) :
    ∃ (c' : CVI n d) (q' : SSM n d), CVI.updates N c = .ok c' ∧ c'.distQ = .ok q' ∧ c' = { c with sites := c'.sites } ∧
      ∀ t, c'.sites.nat2 t 0 0 ≤ (1 - c.learningRate) ^ N * c.sites.nat2 t 0 0 := by
  induction N generalizing c with
  | zero =>
    obtain ⟨s, hs, -, hq, -⟩ := C34_dist_q h
    obtain ⟨q, hq⟩ := hq hneg
    exact ⟨c, q, rfl, hq, rfl, fun t => by simp⟩
  | succ N ih =>
    obtain ⟨s, hs, -, hq, -⟩ := C34_dist_q h
    obtain ⟨q, hq⟩ := hq hneg
    obtain ⟨c1, m, v, hu, hv, e1, e2⟩ := C34_update h hq
    have hv1 : c1.Valid k := by
      rw [e1]; exact ⟨h.builds, h.noise, h.jitter, h.times, h.lower, h.upper, h.two⟩
    have el : c1.likelihood = c.likelihood := by rw [e1]
    have er : c1.learningRate = c.learningRate := by rw [e1]
    have hstep : ∀ t, c1.sites.nat2 t 0 0 ≤ (1 - c.learningRate) * c.sites.nat2 t 0 0 := fun t => by
      rw [(e2 t).2]
      exact nat2_step h0 ((C75_gradient he hc _ _).2 _ (hv t).1)
    obtain ⟨c', q', i1, i2, i3, i4⟩ := ih hv1 (el ▸ he) (el ▸ hc) (er ▸ h0) (er ▸ h1) fun t =>
      (hstep t).trans (mul_nonpos_of_nonneg_of_nonpos (sub_nonneg.2 h1) (hneg t))
    refine ⟨c', q', ?_, i2, by rw [i3, e1], fun t => (i4 t).trans ?_⟩
    · unfold CVI.updates
      rw [hu]; exact i1
    · rw [er, pow_succ, mul_assoc]
      exact mul_le_mul_of_nonneg_left (hstep t) (pow_nonneg (sub_nonneg.2 h1) N)

/-- C75: a newly built CVI model: with a learning rate in `[0, 1)`, after any number of updates `dist_q`, `posterior_kalman`, `elbo()`, `loss()`
and `classic_elbo()` all return. -/
theorem C75_cvi_init {c0 : CVI n d} {k} {times : Fin (n + 1) → ℝ} {Y : Fin (n + 1) → Vec 1} {K : Stationary 1 d} {lik : ScalarLikelihood}
    {mf : Option (ℝ → Vec 1)} {r : ℝ} (hc0 : c0 = CVI.init times Y K lik mf r) (h : c0.Valid k) (he : ExactLikelihood lik)
    (hc : LogConcaveLikelihood lik) (h0 : 0 ≤ r) (h1 : r < 1) (N : ℕ) :
    ∃ (c : CVI n d) (q : SSM n d) (f : KF n d 1) (e e' : ℝ), CVI.updates N c0 = .ok c ∧ c.distQ = .ok q ∧ c.posteriorKalman = .ok f ∧
      c.elbo = .ok e ∧ c.loss = .ok (-e) ∧ c.classicElbo = .ok e' ∧ ∀ t, c.sites.nat2 t 0 0 < 0 := by
  subst hc0
  obtain ⟨c, q, i1, i2, i3, i4⟩ := C75_cvi h he hc h0 h1.le (fun t => by norm_num [CVI.init]) N
  have hv : c.Valid k := by
    rw [i3]; exact ⟨h.builds, h.noise, h.jitter, h.times, h.lower, h.upper, h.two⟩
  have hneg : ∀ t, c.sites.nat2 t 0 0 < 0 := fun t => (i4 t).trans_lt (by
    refine mul_neg_of_pos_of_neg (pow_pos (sub_pos.2 h1) N) ?_
    norm_num [CVI.init])
  obtain ⟨s, q1, q', f, e, -, -, a3, -, -, -, a7, a8, -⟩ := C34_kalman hv hneg
  have hl : ExactLikelihood c.likelihood := by rw [i3]; exact he
  obtain ⟨_, e', -, hce, -⟩ := C34_classic_elbo hv hl i2
  exact ⟨c, q, f, e, e', i1, i2, a3, a7, a8, hce, hneg⟩

/-- C75: the same over a piecewise kernel. -/
theorem C75_piecewise_cvi {m : ℕ} {ker : Fin (m + 1) → Stationary 1 d} {k : Fin (m + 1) → ℝ → ℝ → Mat 1 1} {cp : Fin m → ℝ} {c : PWCVI n d}
    (h : PWValid ker k cp c.kernel c.times) (he : ExactLikelihood c.likelihood) (hc : LogConcaveLikelihood c.likelihood)
    (h0 : 0 ≤ c.learningRate) (h1 : c.learningRate ≤ 1) (hneg : ∀ t, c.sites.nat2 t 0 0 ≤ 0) (N : ℕ) :
    ∃ (c' : PWCVI n d) (q' : SSM n d), PWCVI.updates N c = .ok c' ∧ c'.distQ = .ok q' ∧ c' = { c with sites := c'.sites } ∧
      ∀ t, c'.sites.nat2 t 0 0 ≤ (1 - c.learningRate) ^ N * c.sites.nat2 t 0 0 := by
  induction N generalizing c with
  | zero =>
    obtain ⟨s, hs, -, hq, -⟩ := C74_cvi_dist_q h
    obtain ⟨q, hq⟩ := hq hneg
    exact ⟨c, q, rfl, hq, rfl, fun t => by simp⟩
  | succ N ih =>
    obtain ⟨s, hs, -, hq, -⟩ := C74_cvi_dist_q h
    obtain ⟨q, hq⟩ := hq hneg
    obtain ⟨c1, m, v, hu, hv, e1, e2⟩ := C74_cvi_update h hq
    have hv1 : PWValid ker k cp c1.kernel c1.times := by rw [e1]; exact h
    have el : c1.likelihood = c.likelihood := by rw [e1]
    have er : c1.learningRate = c.learningRate := by rw [e1]
    have hstep : ∀ t, c1.sites.nat2 t 0 0 ≤ (1 - c.learningRate) * c.sites.nat2 t 0 0 := fun t => by
      rw [(e2 t).2]
      exact nat2_step h0 ((C75_gradient he hc _ _).2 _ (hv t).1)
    obtain ⟨c', q', i1, i2, i3, i4⟩ := ih hv1 (el ▸ he) (el ▸ hc) (er ▸ h0) (er ▸ h1) fun t =>
      (hstep t).trans (mul_nonpos_of_nonneg_of_nonpos (sub_nonneg.2 h1) (hneg t))
    refine ⟨c', q', ?_, i2, by rw [i3, e1], fun t => (i4 t).trans ?_⟩
    · unfold PWCVI.updates
      rw [hu]; exact i1
    · rw [er, pow_succ, mul_assoc]
      exact mul_le_mul_of_nonneg_left (hstep t) (pow_nonneg (sub_nonneg.2 h1) N)

/-! ### sparse CVI -/

theorem row_var_nonneg {K : Stationary o d} {k} (hK : Builds K k) (hN : NoiseTag K true) (hj : K.jitter = 0) {q : SSM n d}
    (hq : q.Nondegenerate) (hn : 0 < n) {z : Fin (n + 1) → ℝ} (hz : Monotone z) {mf : ℝ → Vec o} {X : Fin p → ℝ}
    (h0 : ∀ j, -10000000000 < X j) (h1 : ∀ j, X j ≤ 10000000000) {P T}
    (hst : conditionalStatistics approxInf X z K.trans = .ok (P, T)) {f}
    (hf : (⟨q, K, z, mf⟩ : CondProcess n o d).predictFDiag X = .ok f) (i : Fin p) (a : Fin o) : 0 ≤ (f i).2 a := by
  rw [(row_predict hK hq hn hst hf i a).2]
  by_cases hem : K.emission (X i) a = 0
  · have e1 : projRow K X P i a = 0 := by
      funext b
      simp [projRow, mul_apply, hem]
    have e2 : (K.emission (X i) * T i * (K.emission (X i))ᵀ) a a = 0 := by
      rw [row_conj', hem, zero_dotProduct]
    rw [restRow, e1, e2]
    simp
  · exact (row_var_pos hK hN hj hq hz h0 h1 hst i a hem).le

theorem dot_sum_quad {ι S : Type*} [Fintype S] (s : Finset ι) (g : ι → ℝ) (W : ι → S → ℝ) (v : S → ℝ) :
    v ⬝ᵥ ((∑ i ∈ s, g i • vecMulVec (W i) (W i)) *ᵥ v) = ∑ i ∈ s, g i * (W i ⬝ᵥ v) ^ 2 := by
  rw [sum_mulVec, dotProduct_sum]
  refine Finset.sum_congr rfl fun i _ => ?_
  rw [smul_mulVec, dotProduct_smul, vecMulVec_mulVec, dotProduct_smul, smul_eq_mul, MulOpposite.smul_eq_mul_unop, MulOpposite.unop_op,
    dotProduct_comm v]
  ring

open Classical in
/-- C75: sparse CVI on any history of minibatches: every `update_sites` with a learning rate in `[0, 1]` succeeds, `dist_q` always exists, and
the sites stay bounded above. -/
theorem C75_sparse_cvi {c : SparseCVI n d} {k} (h : c.Valid k) (he : ExactLikelihood c.likelihood) (hc : LogConcaveLikelihood c.likelihood)
    (hr0 : 0 ≤ c.learningRate) (hr1 : c.learningRate ≤ 1) (hneg : ∀ j v, v ⬝ᵥ (c.nat2 j *ᵥ v) ≤ 0) {X : ℕ → Fin p → ℝ}
    (h0 : ∀ i j, -10000000000 < X i j) (h1 : ∀ i j, X i j ≤ 10000000000) (Y : ℕ → Fin p → Vec 1) (N : ℕ) :
    ∃ (c' : SparseCVI n d) (q' : SSM n d), SparseCVI.updates X Y c N = .ok c' ∧ c'.distQ = .ok q' ∧
      ∀ j v, v ⬝ᵥ (c'.nat2 j *ᵥ v) ≤ (1 - c.learningRate) ^ N * (v ⬝ᵥ (c.nat2 j *ᵥ v)) := by
  induction N with
  | zero =>
    obtain ⟨s, -, -, -, hq, -⟩ := C36_dist_q h
    obtain ⟨q, hq⟩ := hq hneg
    exact ⟨c, q, rfl, hq, fun j v => by simp⟩
  | succ N ih =>
    obtain ⟨c1, q1, i1, i2, i3⟩ := ih
    obtain ⟨hv1, hcs⟩ := SparseCVI.updates_ok h i1
    have el : c1.likelihood = c.likelihood := by rw [hcs]
    have er : c1.learningRate = c.learningRate := by rw [hcs]
    obtain ⟨c2, post, fx, P, T, hu, hpost, hf, hst, e1, e2⟩ := C36_update hv1 i2 (h0 N) (h1 N) (Y N)
    have hv2 := C36_reachable hv1 hu
    have hpq : post = ⟨q1, c1.kernel, c1.inducing, fun _ => 0⟩ := by
      unfold SparseCVI.posterior at hpost
      rw [i2] at hpost
      exact (Except.ok.inj hpost).symm
    subst hpq
    have hqn : q1.Nondegenerate := by
      obtain ⟨_, -, -, hq1, -⟩ := C36_dist_q hv1
      exact (hq1 q1 i2).1
    have hvar := fun i => row_var_nonneg hv1.builds hv1.noise hv1.jitter hqn hv1.two hv1.times.monotone (h0 N) (h1 N) hst hf i 0
    have hstep : ∀ j v, v ⬝ᵥ (c2.nat2 j *ᵥ v) ≤ (1 - c.learningRate) ^ (N + 1) * (v ⬝ᵥ (c.nat2 j *ᵥ v)) := fun j v => by
      rw [(e2 _ (fun _ => rfl) _ (fun _ => rfl) j).2, add_mulVec, dotProduct_add, smul_mulVec, dotProduct_smul, smul_mulVec, dotProduct_smul,
        dot_sum_quad, smul_eq_mul, smul_eq_mul, er, pow_succ']
      have a1 := mul_le_mul_of_nonneg_left (i3 j v) (sub_nonneg.2 hr1)
      have a2 := mul_nonpos_of_nonneg_of_nonpos hr0 (Finset.sum_nonpos (s := Finset.univ.filter fun i => InInterval c1.inducing j (X N i))
        fun i _ => mul_nonpos_of_nonpos_of_nonneg ((C75_gradient (lik := c1.likelihood) (el ▸ he) (el ▸ hc) ((fx i).1 0) (Y N i 0)).2 _ (hvar i))
          (sq_nonneg ((c1.kernel.emission (X N i) * P i) 0 ⬝ᵥ v)))
      linarith
    obtain ⟨_, -, -, -, hq2, -⟩ := C36_dist_q hv2
    obtain ⟨q2, hq2⟩ := hq2 fun j v => (hstep j v).trans
      (mul_nonpos_of_nonneg_of_nonpos (pow_nonneg (sub_nonneg.2 hr1) _) (hneg j v))
    refine ⟨c2, q2, ?_, hq2, hstep⟩
    rw [SparseCVI.updates, i1]
    exact hu

/-! ### spatio-temporal sparse CVI -/

/-- `N` calls of `update_sites`, the `i`-th on the data `X i`, `Y i`. -/
noncomputable def STCVI.updates {S : Type} {M : ℕ} {p : ℕ → ℕ} (X : ∀ i, Fin (p i) → S × ℝ) (Y : ∀ i, Fin (p i) → ℝ) (c : STCVI S n M d) :
    ℕ → Except Err (STCVI S n M d)
  | 0 => .ok c
  | N + 1 => do
    let c' ← STCVI.updates X Y c N
    c'.updateSites (X N) (Y N)

open Classical in
/-- C75: the spatio-temporal sparse CVI model, on any history of minibatches of any sizes, at times between the first and the last inducing
time; although its predicted variances are wrong in general (C43), they are nonnegative. -/
theorem C75_spatio_temporal {S : Type} {M : ℕ} {c : STCVI S n M d} {k K} (h : c.Valid k K) (he : ExactLikelihood c.likelihood)
    (hc : LogConcaveLikelihood c.likelihood) (hr0 : 0 ≤ c.learningRate) (hr1 : c.learningRate ≤ 1)
    (hneg : ∀ j v, v ⬝ᵥ (c.nat2 j *ᵥ v) ≤ 0) {p : ℕ → ℕ} {X : ∀ i, Fin (p i) → S × ℝ} (h0 : ∀ i j, c.inducingTime 0 ≤ (X i j).2)
    (h1 : ∀ i j, (X i j).2 ≤ c.inducingTime (Fin.last n)) (Y : ∀ i, Fin (p i) → ℝ) (N : ℕ) :
    ∃ n₁ n₂ q', STCVI.updates X Y c N = .ok { c with nat1 := n₁, nat2 := n₂ } ∧ ({ c with nat1 := n₁, nat2 := n₂ } : STCVI S n M d).distQ = .ok q' ∧
      ∀ j v, v ⬝ᵥ (n₂ j *ᵥ v) ≤ (1 - c.learningRate) ^ N * (v ⬝ᵥ (c.nat2 j *ᵥ v)) := by
  suffices H : ∃ n₁ n₂ q', STCVI.updates X Y c N = .ok { c with nat1 := n₁, nat2 := n₂ } ∧
      ({ c with nat1 := n₁, nat2 := n₂ } : STCVI S n M d).distQ = .ok q' ∧ (∀ j, (n₂ j)ᵀ = n₂ j) ∧
      ∀ j v, v ⬝ᵥ (n₂ j *ᵥ v) ≤ (1 - c.learningRate) ^ N * (v ⬝ᵥ (c.nat2 j *ᵥ v)) by
    obtain ⟨n₁, n₂, q', a1, a2, -, a3⟩ := H
    exact ⟨n₁, n₂, q', a1, a2, a3⟩
  obtain ⟨hB, hj, hN, hpd, hM⟩ := h.base.kernel_good
  induction N with
  | zero =>
    obtain ⟨s, -, -, -, -, hq, -⟩ := C43_cvi_dist_q h
    obtain ⟨q, hq⟩ := hq hneg
    exact ⟨c.nat1, c.nat2, q, rfl, hq, h.symm, fun j v => by simp⟩
  | succ N ih =>
    obtain ⟨n₁, n₂, q1, i1, i2, i3, i4⟩ := ih
    have hv1 : ({ c with nat1 := n₁, nat2 := n₂ } : STCVI S n M d).Valid k K := ⟨h.base, i3⟩
    obtain ⟨m₁, m₂, r, P, T, hu, hf, hst, e2⟩ := C43_cvi_update hv1 i2 (h0 N) (h1 N) (Y N)
    have hqn : q1.Nondegenerate := by
      obtain ⟨_, -, -, -, hq1, -⟩ := C43_cvi_dist_q hv1
      exact (hq1 q1 i2).1
    have hvar : ∀ i, 0 ≤ (r i).2 := fun i => by
      obtain ⟨r', u, L, v, ν, hr', -, -, -, hall⟩ := C43_predict h.base hqn c.meanFunction (h0 N) (h1 N)
      have hpost : ({ c with nat1 := n₁, nat2 := n₂ } : STCVI S n M d).posterior = .ok ⟨q1, K, c.inducingTime, fun _ => 0⟩ := by
        unfold STCVI.posterior STCVI.kernel; rw [i2, h.base.kernel]; rfl
      have hpf : ({ c with nat1 := n₁, nat2 := n₂ } : STCVI S n M d).predictF (X N) = .ok r' := by
        unfold STCVI.predictF; rw [hpost]; exact hr'
      obtain rfl : r = r' := Except.ok.inj (hf.symm.trans hpf)
      rw [(hall i).2.2.2.2.2.2]
      have hps := (spaceResidual_psd h.base.space hpd (fun _ : Fin 1 => (X N i).1)).diag_nonneg (i := 0)
      exact add_nonneg hps (Finset.sum_nonneg fun a _ => mul_self_nonneg _)
    have hg : ∀ i, (({ c with nat1 := n₁, nat2 := n₂ } : STCVI S n M d).localGrads (X N i) (r i).1 (r i).2 (Y N i)).2 ≤ 0 := fun i =>
      localGradients_nonpos he hc _ (hvar i)
    have hstep : ∀ j v, v ⬝ᵥ (m₂ j *ᵥ v) ≤ (1 - c.learningRate) ^ (N + 1) * (v ⬝ᵥ (c.nat2 j *ᵥ v)) := fun j v => by
      rw [(e2 _ (fun _ => rfl) _ (fun _ => rfl) j).2, add_mulVec, dotProduct_add, smul_mulVec, dotProduct_smul, smul_mulVec, dotProduct_smul,
        dot_sum_quad, smul_eq_mul, smul_eq_mul, pow_succ']
      have a1 := mul_le_mul_of_nonneg_left (i4 j v) (sub_nonneg.2 hr1)
      have a2 := mul_nonpos_of_nonneg_of_nonpos hr0 (Finset.sum_nonpos (s := Finset.univ.filter fun i => InInterval c.inducingTime j (X N i).2)
        fun i _ => mul_nonpos_of_nonpos_of_nonneg (hg i)
          (sq_nonneg ((spaceWeights c.kernelSpace c.inducingSpace (X N i).1 ᵥ* (K.emission (X N i).2 * P i)) ⬝ᵥ v)))
      dsimp only at a1 a2 ⊢
      linarith
    have hv2 : ({ c with nat1 := m₁, nat2 := m₂ } : STCVI S n M d).Valid k K := ⟨h.base, fun j => by
      show (m₂ j)ᵀ = m₂ j
      rw [(e2 _ (fun _ => rfl) _ (fun _ => rfl) j).2, transpose_add, transpose_smul, transpose_smul, transpose_sum]
      congr 2
      · exact i3 j
      · exact Finset.sum_congr rfl fun i _ => by rw [transpose_smul, transpose_vecMulVec]⟩
    obtain ⟨_, -, -, -, -, hq2, -⟩ := C43_cvi_dist_q hv2
    obtain ⟨q2, hq2⟩ := hq2 fun j v => (hstep j v).trans
      (mul_nonpos_of_nonneg_of_nonpos (pow_nonneg (sub_nonneg.2 hr1) _) (hneg j v))
    refine ⟨m₁, m₂, q2, ?_, hq2, hv2.symm, hstep⟩
    rw [STCVI.updates, i1]
    exact hu

/-! ### natural gradient steps -/

theorem siteNaturals_eq_pair (H : Fin (n + 1) → Mat o d) (l1 l2 : Fin (n + 1) → Vec o) : siteNaturals H l1 l2 =
    pairSiteNaturals (Fin.cases 0 fun t => Sum.elim ((H t)ᵀ *ᵥ l1 t) 0)
      (Fin.cases 0 fun t => fromBlocks ((H t)ᵀ * Matrix.diagonal (l2 t) * H t) 0 0 0) := by
  have z1 : ∀ (j : Fin (n + 2)) (a : Fin d), (Fin.cases 0 (fun t => Sum.elim ((H t)ᵀ *ᵥ l1 t) 0) j : Fin d ⊕ Fin d → ℝ) (.inr a) = 0 :=
    fun j a => by
      refine Fin.cases ?_ (fun t => ?_) j <;> simp
  have z2 : ∀ j : Fin (n + 2), (Fin.cases 0 (fun t => fromBlocks ((H t)ᵀ * Matrix.diagonal (l2 t) * H t) 0 0 0) j :
      Matrix (Fin d ⊕ Fin d) (Fin d ⊕ Fin d) ℝ).toBlocks₂₂ = 0 := fun j => by
      refine Fin.cases ?_ (fun t => ?_) j
      · rfl
      · simp
  refine Prod.ext (funext fun t => funext fun a => ?_) (Prod.ext (funext fun t => ?_) (funext fun t => ?_))
  · simp only [pairSiteNaturals, z1, siteNaturals, Fin.cases_succ, Sum.elim_inl, add_zero]
  · simp only [pairSiteNaturals, z2, siteNaturals, Fin.cases_succ, toBlocks_fromBlocks₁₁, add_zero]
  · simp only [pairSiteNaturals, siteNaturals, Fin.cases_succ, toBlocks_fromBlocks₂₁, smul_zero]
    rfl

theorem proper_siteNaturals {s : SSM n d} (hs : s.Nondegenerate) (H : Fin (n + 1) → Mat o d) (l1 : Fin (n + 1) → Vec o)
    {l2 : Fin (n + 1) → Vec o} (hneg : ∀ t a, l2 t a ≤ 0) : ProperNaturals (ssmToNaturals s + siteNaturals H l1 l2) := by
  rw [siteNaturals_eq_pair]
  refine proper_pairSites hs _ (fun j => ?_) fun j v => ?_
  · refine Fin.cases ?_ (fun t => ?_) j
    · exact transpose_zero
    · simp only [Fin.cases_succ, fromBlocks_transpose, transpose_zero]
      rw [transpose_mul, transpose_mul, transpose_transpose, diagonal_transpose, Matrix.mul_assoc]
  · refine Fin.cases ?_ (fun t => ?_) j
    · simp
    · simp only [Fin.cases_succ]
      have : v ⬝ᵥ (fromBlocks ((H t)ᵀ * Matrix.diagonal (l2 t) * H t) 0 0 0 *ᵥ v) =
          ∑ a, l2 t a * (H t *ᵥ (v ∘ Sum.inl)) a ^ 2 := by
        rw [fromBlocks_mulVec]
        simp only [zero_mulVec, add_zero]
        rw [← Sum.elim_comp_inl_inr v, sumElim_dotProduct_sumElim]
        simp only [Sum.elim_comp_inl, dotProduct_zero, add_zero]
        rw [← mulVec_mulVec, ← mulVec_mulVec, dotProduct_mulVec, vecMul_transpose]
        simp only [dotProduct, mulVec_diagonal]
        exact Finset.sum_congr rfl fun a _ => by ring
      rw [this]
      exact Finset.sum_nonpos fun a _ => mul_nonpos_of_nonpos_of_nonneg (hneg t a) (sq_nonneg _)

/-- C75: natural gradient steps (without momentum) of any rate in `[0, 1]` on the `loss()` of a variational GP, with any number of outputs and
any mean function, never fail, from any `dist_q`. -/
theorem C75_natgrad {v : VGP n o d} {k} (h : v.Valid k) (he : ExactLikelihood v.likelihood) (hc : LogConcaveLikelihood v.likelihood)
    (hd : DifferentiableVarExp v.likelihood) (hem : ∀ t a, v.kernel.emission (v.times t) a ≠ 0)
    {grad : ℕ → SSM n d → ExpPar n d × ExpPar n d} (hgrad : GivesGradient v.lossOf grad) (opt : NatGrad n d) (hm : opt.momentum = false)
    (h0 : 0 ≤ opt.gamma) (h1 : opt.gamma ≤ 1) (N : ℕ) :
    ∃ q', NatGrad.steps grad N (opt, v.q) = .ok (opt, q') ∧ q'.Nondegenerate := by
  obtain ⟨hco, -, -⟩ := Builds.good h.builds
  induction N with
  | zero => exact ⟨v.q, rfl, h.q⟩
  | succ N ih =>
    obtain ⟨q1, e1, hq1⟩ := ih
    have hv1 : ({ v with q := q1 } : VGP n o d).Valid k := { h with q := hq1 }
    obtain ⟨s, η, m, var, hs, hη, hmv, hgr⟩ := C56_gradient hv1 hd hem
    have hg := isGradient_of_total hq1 h.two hco.pos hη hgr
    have hgN := hgrad N q1 η hq1 hη
    have eg := IsGradient.unique hgN hg
    have hsn : s.Nondegenerate := by
      obtain ⟨p, hp, hnd⟩ := kernel_ssm_nondegenerate h.builds h.noise h.two h.times
      rw [Except.ok.inj (hs.symm.trans hp)]; exact hnd
    have hP : ProperNaturals (ssmToNaturals q1 - opt.gamma • (grad N q1).1) := by
      rw [eg, show ∀ (a b : ExpPar n d) (r : ℝ), a - r • (a - b) = (1 - r) • a + r • b from fun a b r => by module]
      refine proper_convex (proper_of_ssm hq1) (proper_siteNaturals hsn _ _ fun t a => ?_) h0 h1
      exact localGradients_nonpos he hc _ (hmv t a).1.le
    obtain ⟨q', f1, f2, -⟩ := (C39_step opt hm hq1 h.two hco.pos _ (grad N q1).2 hgN.1).1 hP
    refine ⟨q', ?_, f2⟩
    rw [NatGrad.steps, e1]
    exact f1

open Classical in
/-- C75: the same for the sparse variational GP on any history of minibatches of any sizes. -/
theorem C75_svgp_natgrad {v : SVGP n o d} {k} (h : v.Valid k) (he : ExactLikelihood v.likelihood) (hc : LogConcaveLikelihood v.likelihood)
    (hd : DifferentiableVarExp v.likelihood) {p : ℕ → ℕ} {X : ∀ i, Fin (p i) → ℝ} (h0 : ∀ i j, -10000000000 < X i j)
    (h1 : ∀ i j, X i j ≤ 10000000000) (hem : ∀ i j a, v.kernel.emission (X i j) a ≠ 0) (Y : ∀ i, Fin (p i) → Vec o)
    {grad : ℕ → SSM n d → ExpPar n d × ExpPar n d}
    (hgrad : ∀ i q η, q.Nondegenerate → ssmToExpectations q = .ok η →
      IsGradient (lossOfExpectations (v.lossOf (X i) (Y i))) η (grad i q).1)
    (opt : NatGrad n d) (hm : opt.momentum = false) (hr0 : 0 ≤ opt.gamma) (hr1 : opt.gamma ≤ 1) (N : ℕ) :
    ∃ q', NatGrad.steps grad N (opt, v.q) = .ok (opt, q') ∧ q'.Nondegenerate := by
  obtain ⟨hco, -, -⟩ := Builds.good h.builds
  induction N with
  | zero => exact ⟨v.q, rfl, h.q⟩
  | succ N ih =>
    obtain ⟨q1, e1, hq1⟩ := ih
    have hv1 : ({ v with q := q1 } : SVGP n o d).Valid k := { h with q := hq1 }
    obtain ⟨s, η, fx, P, T, hs, hη, hf, hst, hpos, hgr⟩ := C69_gradient hv1 hd (h0 N) (h1 N) (hem N) (Y N)
    have hgr := hgr _ (fun _ _ => rfl) _ (fun _ _ => rfl)
    have hg := isGradient_of_total hq1 h.two hco.pos hη hgr
    have hgN := hgrad N q1 η hq1 hη
    have eg := IsGradient.unique hgN hg
    have hsn : s.Nondegenerate := by
      obtain ⟨p, hp, hnd⟩ := kernel_ssm_nondegenerate h.builds h.noise h.two h.times
      rw [Except.ok.inj (hs.symm.trans hp)]; exact hnd
    have hsc : 0 ≤ ({ v with q := q1 } : SVGP n o d).scale (p N) := by
      unfold SVGP.scale
      split <;> positivity
    have hP : ProperNaturals (ssmToNaturals q1 - opt.gamma • (grad N q1).1) := by
      rw [eg, show ∀ (a b : ExpPar n d) (r : ℝ), a - r • (a - b) = (1 - r) • a + r • b from fun a b r => by module]
      refine proper_convex (proper_of_ssm hq1) ?_ hr0 hr1
      rw [← pairSiteNaturals_smul]
      refine proper_pairSites hsn _ (fun j => ?_) fun j x => ?_
      · rw [Pi.smul_apply, transpose_smul, transpose_sum]
        refine congrArg _ (Finset.sum_congr rfl fun i _ => ?_)
        rw [transpose_sum]
        refine Finset.sum_congr rfl fun a _ => ?_
        rw [transpose_smul, transpose_vecMulVec]
      · rw [Pi.smul_apply, smul_mulVec, dotProduct_smul, sum_mulVec, dotProduct_sum, smul_eq_mul]
        refine mul_nonpos_of_nonneg_of_nonpos hsc (Finset.sum_nonpos fun i _ => ?_)
        refine (dot_sum_quad Finset.univ (fun a => deriv (fun y => v.likelihood.varExp ((fx i).1 a) y (Y N i a)) ((fx i).2 a))
          (fun a => (v.kernel.emission (X N i) * P i) a) x).le.trans ?_
        exact Finset.sum_nonpos fun a _ => mul_nonpos_of_nonpos_of_nonneg (localGradients_nonpos he hc _ (hpos i a).le) (sq_nonneg _)
    obtain ⟨q', f1, f2, -⟩ := (C39_step opt hm hq1 h.two hco.pos _ (grad N q1).2 hgN.1).1 hP
    refine ⟨q', ?_, f2⟩
    rw [NatGrad.steps, e1]
    exact f1

/-! ### non-vacuity -/

/-- Non-vacuity: a Matérn 3/2 kernel, three counts with a Poisson likelihood: all hypotheses hold, for every learning rate in `[0, 1)`, and so after
any number of updates `dist_q` and `elbo()` exist. -/
example : ∃ (K : Stationary 1 2) (k : ℝ → ℝ → Mat 1 1), ∀ r : ℝ, 0 ≤ r → r < 1 →
    (CVI.init ![0, 1, 3] (fun i => ![(i : ℝ)]) K poissonLikelihood none r : CVI 2 2).Valid k ∧ ∀ N, ∃ (c : CVI 2 2) (q : SSM 2 2) (e : ℝ),
      CVI.updates N (CVI.init ![0, 1, 3] (fun i => ![(i : ℝ)]) K poissonLikelihood none r) = .ok c ∧ c.distQ = .ok q ∧ c.elbo = .ok e := by
  obtain ⟨K, hK⟩ := (C28_constructors (o := 1) 2 3 1 1 1 0).2.1.2 (by norm_num)
  have hB : ∃ k, Builds K k := ⟨_, .leaf (.matern32 hK)⟩
  obtain ⟨k, hB⟩ := hB
  refine ⟨K, k, fun r h0 h1 => ?_⟩
  have hv : (CVI.init ![0, 1, 3] (fun i => ![(i : ℝ)]) K poissonLikelihood none r : CVI 2 2).Valid k := by
    refine ⟨hB, .matern32 hK, by show K.jitter = 0; rw [(kernelInit_ok hK).2.2]; rfl, ?_, ?_, ?_, by norm_num⟩
    · refine Fin.strictMono_iff_lt_succ.2 fun i => ?_
      fin_cases i <;> simp [CVI.init] <;> norm_num
    · show -10000000000 < (0 : ℝ); norm_num
    · show (3 : ℝ) ≤ 10000000000; norm_num
  refine ⟨hv, fun N => ?_⟩
  obtain ⟨c, q, f, e, e', a1, a2, a3, a4, -⟩ := C75_cvi_init rfl hv poissonLikelihood_exact poissonLikelihood_logConcave h0 h1 N
  exact ⟨c, q, e, a1, a2, a4⟩

/-- Non-vacuity: the Gaussian likelihood is log-concave too; the other hypotheses of the natural gradient theorems are met by the examples
beside C56 and C69. -/
example : ExactLikelihood (gaussianLikelihood 2) ∧ LogConcaveLikelihood (gaussianLikelihood 2) ∧ DifferentiableVarExp poissonLikelihood :=
  ⟨gaussianLikelihood_exact 2, gaussianLikelihood_logConcave two_pos, poisson_differentiable⟩

end MF
