import Verif.Lemmas.Minibatch
import Verif.Props.SparseCVI
import Verif.Props.SpatioTemporalCVI

/-!
# C72: training on minibatches

Objectives of the spatio-temporal models average to the full objective; the site updates of the CVI models do not scale the data up.
-/

namespace MF
open Matrix Spec MeasureTheory ProbabilityTheory InformationTheory
variable {n d p M N T D : ℕ} {S : Type}

/-! ### Sparse CVI -/

/-- The update on the data selected by `e`. -/
theorem SparseCVI.update_comp {c : SparseCVI n d} {k} (h : c.Valid k) {q} (hq : c.distQ = .ok q) {X : Fin N → ℝ}
    (h0 : ∀ j, -10000000000 < X j) (h1 : ∀ j, X j ≤ 10000000000) (Y : Fin N → Vec 1) :
    ∃ post fx P T, c.posterior = .ok post ∧ post.predictFDiag X = .ok fx ∧
      conditionalStatistics approxInf X c.inducing c.kernel.trans = .ok (P, T) ∧
      ∀ {p : ℕ} (e : Fin p → Fin N), c.updateSites (X ∘ e) (Y ∘ e) = .ok { c with
        nat1 := siteStep c.learningRate (fun i => datumSite₁ c.inducing (X i)
          (localGradients c.likelihood ((fx i).1 0) ((fx i).2 0) (Y i 0)).1 (projW c.kernel X P i)) c.nat1 e
        nat2 := siteStep c.learningRate (fun i => datumSite₂ c.inducing (X i)
          (localGradients c.likelihood ((fx i).1 0) ((fx i).2 0) (Y i 0)).2 (projW c.kernel X P i)) c.nat2 e } := by
  obtain ⟨c', post, fx, P, T, -, hpost, hf, hst, -⟩ := C36_update h hq h0 h1 Y
  refine ⟨post, fx, P, T, hpost, hf, hst, fun {p} e => ?_⟩
  unfold SparseCVI.updateSites
  rw [hpost]
  simp only [bind, Except.bind, pure, Except.pure, predictFDiag_comp hf e, conditionalStatistics_comp hst e]
  rw [partitionSum_bp₁ c.inducing (X ∘ e), partitionSum_bp₂ c.inducing (X ∘ e)]
  rfl

theorem SparseCVI.update_comp' {c : SparseCVI n d} {k} (h : c.Valid k) {q} (hq : c.distQ = .ok q) {X : Fin N → ℝ}
    (h0 : ∀ j, -10000000000 < X j) (h1 : ∀ j, X j ≤ 10000000000) (Y : Fin N → Vec 1) :
    ∃ a₁ a₂, ∀ {p : ℕ} (e : Fin p → Fin N), c.updateSites (X ∘ e) (Y ∘ e) = .ok { c with
        nat1 := siteStep c.learningRate a₁ c.nat1 e, nat2 := siteStep c.learningRate a₂ c.nat2 e } := by
  obtain ⟨post, fx, P, T, -, -, -, hu⟩ := SparseCVI.update_comp h hq h0 h1 Y
  exact ⟨_, _, hu⟩

/-- C72: for any likelihood, the average over all minibatches of `p` data drawn with replacement of the updated sites is
`(1 - r) θ + (p / N) r G`, where `(1 - r) θ + r G` are the sites after the update on all `N` data: the data terms are
not scaled up by `N / p`. -/
theorem C72_cvi_average {c : SparseCVI n d} {k} (h : c.Valid k) {q} (hq : c.distQ = .ok q) {X : Fin N → ℝ} (hN : 0 < N)
    (h0 : ∀ j, -10000000000 < X j) (h1 : ∀ j, X j ≤ 10000000000) (Y : Fin N → Vec 1) (p : ℕ) :
    ∃ (full : SparseCVI n d) (out : (Fin p → Fin N) → SparseCVI n d), c.updateSites X Y = .ok full ∧
      (∀ f, c.updateSites (X ∘ f) (Y ∘ f) = .ok (out f)) ∧
      ((N : ℝ) ^ p)⁻¹ • ∑ f, (out f).nat1 = (1 - c.learningRate) • c.nat1 +
        (p / N : ℝ) • (full.nat1 - (1 - c.learningRate) • c.nat1) ∧
      ((N : ℝ) ^ p)⁻¹ • ∑ f, (out f).nat2 = (1 - c.learningRate) • c.nat2 +
        (p / N : ℝ) • (full.nat2 - (1 - c.learningRate) • c.nat2) := by
  obtain ⟨a₁, a₂, hu⟩ := SparseCVI.update_comp' h hq h0 h1 Y
  exact ⟨{ c with nat1 := siteStep c.learningRate a₁ c.nat1 id, nat2 := siteStep c.learningRate a₂ c.nat2 id },
    fun f => { c with nat1 := siteStep c.learningRate a₁ c.nat1 f, nat2 := siteStep c.learningRate a₂ c.nat2 f },
    hu id, fun f => hu f, avg_siteStep hN _ _ _, avg_siteStep hN _ _ _⟩

/-- C72: over a partition of the data into minibatches, the moves (beyond the shrinking by `1 - r`) of the updates on the
minibatches, all started at the same sites, add up to that of the update on all data. -/
theorem C72_cvi_partition {c : SparseCVI n d} {k} (h : c.Valid k) {q} (hq : c.distQ = .ok q) {X : Fin N → ℝ}
    (h0 : ∀ j, -10000000000 < X j) (h1 : ∀ j, X j ≤ 10000000000) (Y : Fin N → Vec 1) {B : ℕ} (size : Fin B → ℕ)
    (e : (Σ b, Fin (size b)) ≃ Fin N) :
    ∃ (full : SparseCVI n d) (out : Fin B → SparseCVI n d), c.updateSites X Y = .ok full ∧
      (∀ b, c.updateSites (fun i => X (e ⟨b, i⟩)) (fun i => Y (e ⟨b, i⟩)) = .ok (out b)) ∧
      ∑ b, ((out b).nat1 - (1 - c.learningRate) • c.nat1) = full.nat1 - (1 - c.learningRate) • c.nat1 ∧
      ∑ b, ((out b).nat2 - (1 - c.learningRate) • c.nat2) = full.nat2 - (1 - c.learningRate) • c.nat2 := by
  obtain ⟨a₁, a₂, hu⟩ := SparseCVI.update_comp' h hq h0 h1 Y
  exact ⟨{ c with nat1 := siteStep c.learningRate a₁ c.nat1 id, nat2 := siteStep c.learningRate a₂ c.nat2 id },
    fun b => { c with nat1 := siteStep c.learningRate a₁ c.nat1 fun i => e ⟨b, i⟩
                      nat2 := siteStep c.learningRate a₂ c.nat2 fun i => e ⟨b, i⟩ },
    hu id, fun b => hu fun i => e ⟨b, i⟩, partition_siteStep size e _ _ _, partition_siteStep size e _ _ _⟩

/-- Any sequence of updates on minibatches, Gaussian likelihood. -/
theorem SparseCVI.gaussian_runs {c : SparseCVI n d} {k} (h : c.Valid k) {σ2 : ℝ} (hσ : 0 < σ2)
    (hlik : c.likelihood = gaussianLikelihood σ2) (hr0 : 0 ≤ c.learningRate) (hr1 : c.learningRate ≤ 1) {X : Fin N → ℝ}
    (h0 : ∀ j, -10000000000 < X j) (h1 : ∀ j, X j ≤ 10000000000) (Y : Fin N → Vec 1) {P T}
    (hst : conditionalStatistics approxInf X c.inducing c.kernel.trans = .ok (P, T)) :
    ∀ (L : List (Fin p → Fin N)) (θ₁ θ₂), GoodSites θ₂ →
      L.foldlM (fun (c : SparseCVI n d) f => c.updateSites (X ∘ f) (Y ∘ f)) { c with nat1 := θ₁, nat2 := θ₂ } =
        .ok { c with
          nat1 := L.foldl (siteStep c.learningRate fun i => datumSite₁ c.inducing (X i) (Y i 0 / σ2) (projW c.kernel X P i)) θ₁
          nat2 := L.foldl (siteStep c.learningRate fun i =>
            datumSite₂ c.inducing (X i) (-1 / (2 * σ2)) (projW c.kernel X P i)) θ₂ }
  | [], _, _, _ => rfl
  | f :: L, θ₁, θ₂, hθ => by
    have hv : ({ c with nat1 := θ₁, nat2 := θ₂ } : SparseCVI n d).Valid k :=
      ⟨h.builds, h.noise, h.jitter, h.times, h.lower, h.upper, h.two, hθ.1⟩
    obtain ⟨s, hs, -, -, hq2, -⟩ := C36_dist_q hv
    obtain ⟨q, hq⟩ := hq2 hθ.2
    obtain ⟨post, fx, P', T', -, -, hst', hu⟩ := SparseCVI.update_comp hv hq h0 h1 Y
    have hPP : P' = P := by
      have := hst'.symm.trans hst
      exact congrArg Prod.fst (Except.ok.inj this)
    subst hPP
    have hgr : ∀ m v y : ℝ, localGradients c.likelihood m v y = (y / σ2, -1 / (2 * σ2)) := fun m v y => by
      rw [hlik, localGradients_gaussian hσ.ne']
    simp only [hgr] at hu
    have hg : -1 / (2 * σ2) ≤ 0 := div_nonpos_of_nonpos_of_nonneg (by norm_num) (by positivity)
    rw [List.foldlM_cons, hu f]
    have := SparseCVI.gaussian_runs h hσ hlik hr0 hr1 h0 h1 Y hst L
      (siteStep c.learningRate (fun i => datumSite₁ c.inducing (X i) (Y i 0 / σ2) (projW c.kernel X P' i)) θ₁ f)
      (siteStep c.learningRate (fun i => datumSite₂ c.inducing (X i) (-1 / (2 * σ2)) (projW c.kernel X P' i)) θ₂ f)
      (hθ.step hr0 hr1 (fun i => ⟨datumSite₂_symm _ _ _ _, datumSite₂_neg _ _ hg _⟩) f)
    exact this

/-- The site functions of scaled Gaussian data terms. -/
theorem gauss_sites_scaled {z : Fin (n + 1) → ℝ} (hz : Monotone z) (X y : Fin N → ℝ) (σ2 τ : ℝ)
    (W : Fin N → Fin d ⊕ Fin d → ℝ) (u : Fin (n + 1) → Vec d) :
    pairSiteLogLik (τ • ∑ i, datumSite₁ z (X i) (y i / σ2) (W i)) (τ • ∑ i, datumSite₂ z (X i) (-1 / (2 * σ2)) (W i)) u =
      τ * ∑ i, (y i / σ2 * (W i ⬝ᵥ neighbours u (searchsortedLeft z (X i))) +
        -1 / (2 * σ2) * (W i ⬝ᵥ neighbours u (searchsortedLeft z (X i))) ^ 2) := by
  rw [pairSiteLogLik_smul]
  congr 1
  refine gauss_sites hz X y σ2 W (fun j => ?_) (fun j => ?_) u
  · rw [partitionSum_eq, Finset.sum_apply]; rfl
  · rw [partitionSum_eq, Finset.sum_apply]; rfl

/-- C72: Gaussian likelihood, learning rate `r ∈ (0, 1]`, any starting sites with negative semidefinite second parameters
(the constructor's zeros, or those after any history). Let `full` be the model after one update with rate one on all `N`
data, whose `dist_q` is the optimal one (`C36_gaussian_optimal`). Every sequence of updates on minibatches succeeds, and the
average of the sites over all sequences of `T` minibatches of `p` data drawn with replacement is
`(1 - r)^T θ + (1 - (1 - r)^T) (p / N) full`, so it tends to `p / N` times the right sites. -/
theorem C72_cvi_gaussian_runs {c : SparseCVI n d} {k} (h : c.Valid k) (hneg : ∀ j v, v ⬝ᵥ (c.nat2 j *ᵥ v) ≤ 0)
    {σ2 : ℝ} (hσ : 0 < σ2) (hlik : c.likelihood = gaussianLikelihood σ2) (hr0 : 0 < c.learningRate)
    (hr1 : c.learningRate ≤ 1) {X : Fin N → ℝ} (hN : 0 < N)
    (h0 : ∀ j, -10000000000 < X j) (h1 : ∀ j, X j ≤ 10000000000) (Y : Fin N → Vec 1) (p : ℕ) :
    ∃ (full : SparseCVI n d) (out : (T : ℕ) → (Fin T → Fin p → Fin N) → SparseCVI n d),
      ({ c with learningRate := 1 } : SparseCVI n d).updateSites X Y = .ok full ∧
      (∀ T F, (List.ofFn F).foldlM (fun (c : SparseCVI n d) f => c.updateSites (X ∘ f) (Y ∘ f)) c = .ok (out T F)) ∧
      (∀ T, ((N : ℝ) ^ (p * T))⁻¹ • ∑ F, (out T F).nat1 =
        (1 - c.learningRate) ^ T • c.nat1 + (1 - (1 - c.learningRate) ^ T) • (p / N : ℝ) • full.nat1) ∧
      (∀ T, ((N : ℝ) ^ (p * T))⁻¹ • ∑ F, (out T F).nat2 =
        (1 - c.learningRate) ^ T • c.nat2 + (1 - (1 - c.learningRate) ^ T) • (p / N : ℝ) • full.nat2) ∧
      Filter.Tendsto (fun T => ((N : ℝ) ^ (p * T))⁻¹ • ∑ F, (out T F).nat1) Filter.atTop
        (nhds ((p / N : ℝ) • full.nat1)) ∧
      Filter.Tendsto (fun T => ((N : ℝ) ^ (p * T))⁻¹ • ∑ F, (out T F).nat2) Filter.atTop
        (nhds ((p / N : ℝ) • full.nat2)) := by
  obtain ⟨s, hs, -, -, hq2, -⟩ := C36_dist_q h
  obtain ⟨q, hq⟩ := hq2 hneg
  obtain ⟨_, _, P, T, -, -, hst, -⟩ := SparseCVI.update_comp h hq h0 h1 Y
  have hv1 : ({ c with learningRate := 1 } : SparseCVI n d).Valid k :=
    ⟨h.builds, h.noise, h.jitter, h.times, h.lower, h.upper, h.two, h.symm⟩
  obtain ⟨_, _, P', T', -, -, hst', hu⟩ := SparseCVI.update_comp hv1 (q := q) hq h0 h1 Y
  have hPP : P' = P := congrArg Prod.fst (Except.ok.inj (hst'.symm.trans hst))
  subst hPP
  have hgr : ∀ m v y : ℝ, localGradients c.likelihood m v y = (y / σ2, -1 / (2 * σ2)) := fun m v y => by
    rw [hlik, localGradients_gaussian hσ.ne']
  simp only [hgr] at hu
  have hrun := fun T (F : Fin T → Fin p → Fin N) =>
    SparseCVI.gaussian_runs h hσ hlik hr0.le hr1 h0 h1 Y hst (List.ofFn F) c.nat1 c.nat2 ⟨h.symm, hneg⟩
  have e₁ : siteStep 1 (fun i => datumSite₁ c.inducing (X i) (Y i 0 / σ2) (projW c.kernel X P' i)) c.nat1 id =
      ∑ i, datumSite₁ c.inducing (X i) (Y i 0 / σ2) (projW c.kernel X P' i) := by
    simp [siteStep]
  have e₂ : siteStep 1 (fun i => datumSite₂ c.inducing (X i) (-1 / (2 * σ2)) (projW c.kernel X P' i)) c.nat2 id =
      ∑ i, datumSite₂ c.inducing (X i) (-1 / (2 * σ2)) (projW c.kernel X P' i) := by
    simp [siteStep]
  have a₁ := fun T => avg_runs (p := p) hN c.learningRate
    (fun i => datumSite₁ c.inducing (X i) (Y i 0 / σ2) (projW c.kernel X P' i)) T c.nat1
  have a₂ := fun T => avg_runs (p := p) hN c.learningRate
    (fun i => datumSite₂ c.inducing (X i) (-1 / (2 * σ2)) (projW c.kernel X P' i)) T c.nat2
  rw [← e₁] at a₁
  rw [← e₂] at a₂
  refine ⟨_, _, hu id, hrun, a₁, a₂, ?_, ?_⟩
  · exact (run_limit hr0 hr1 _ _).congr fun T => (a₁ T).symm
  · exact (run_limit hr0 hr1 _ _).congr fun T => (a₂ T).symm

/-- C72: the model with a fraction `τ` of the sites of `full` has as `dist_q` the posterior in which every datum counts
`τ` times: `q(u) ∝ p(u) ∏_i N(y_i; E[f(x_i) | u], σ²)^τ`. With `τ = p / N` this is where random minibatches lead on average:
under-confident, unless `p = N`. -/
theorem C72_cvi_gaussian_tempered {c : SparseCVI n d} {k} (h : c.Valid k) (hneg : ∀ j v, v ⬝ᵥ (c.nat2 j *ᵥ v) ≤ 0)
    {σ2 : ℝ} (hσ : 0 < σ2) (hlik : c.likelihood = gaussianLikelihood σ2) {X : Fin N → ℝ}
    (h0 : ∀ j, -10000000000 < X j) (h1 : ∀ j, X j ≤ 10000000000) (Y : Fin N → Vec 1) {τ : ℝ} (hτ : 0 ≤ τ) :
    ∃ (full : SparseCVI n d) (s q : SSM n d) (P : _) (T : _),
      ({ c with learningRate := 1 } : SparseCVI n d).updateSites X Y = .ok full ∧ c.distP = .ok s ∧
      ({ c with nat1 := τ • full.nat1, nat2 := τ • full.nat2 } : SparseCVI n d).distQ = .ok q ∧
      conditionalStatistics approxInf X c.inducing c.kernel.trans = .ok (P, T) ∧
      IsBayesPosterior s.law (fun x => τ * ∑ i, -(Y i 0 - (c.kernel.emission (X i) * P i) 0 ⬝ᵥ
        neighbours (unstk x) (searchsortedLeft c.inducing (X i))) ^ 2 / (2 * σ2)) q.law := by
  obtain ⟨_, _, -, -, hq2, -⟩ := C36_dist_q h
  obtain ⟨q₀, hq₀⟩ := hq2 hneg
  have hv1 : ({ c with learningRate := 1 } : SparseCVI n d).Valid k :=
    ⟨h.builds, h.noise, h.jitter, h.times, h.lower, h.upper, h.two, h.symm⟩
  obtain ⟨_, _, P, T, -, -, hst, hu⟩ := SparseCVI.update_comp hv1 (q := q₀) hq₀ h0 h1 Y
  have hgr : ∀ m v y : ℝ, localGradients c.likelihood m v y = (y / σ2, -1 / (2 * σ2)) := fun m v y => by
    rw [hlik, localGradients_gaussian hσ.ne']
  simp only [hgr] at hu
  have hg : -1 / (2 * σ2) ≤ 0 := div_nonpos_of_nonpos_of_nonneg (by norm_num) (by positivity)
  set A₁ : Fin (n + 2) → Fin d ⊕ Fin d → ℝ :=
    ∑ i, datumSite₁ c.inducing (X i) (Y i 0 / σ2) (projW c.kernel X P i) with hA₁
  set A₂ : Fin (n + 2) → Matrix (Fin d ⊕ Fin d) (Fin d ⊕ Fin d) ℝ :=
    ∑ i, datumSite₂ c.inducing (X i) (-1 / (2 * σ2)) (projW c.kernel X P i) with hA₂
  have hfull : ({ c with learningRate := 1 } : SparseCVI n d).updateSites X Y =
      .ok { c with learningRate := 1, nat1 := A₁, nat2 := A₂ } := by
    have := hu id
    simp only [siteStep, sub_self, zero_smul, zero_add, one_smul, id] at this
    exact this
  have hgood : GoodSites A₂ := GoodSites.sum fun i => ⟨datumSite₂_symm _ _ _ _, datumSite₂_neg _ _ hg _⟩
  have hv2 : ({ c with nat1 := τ • A₁, nat2 := τ • A₂ } : SparseCVI n d).Valid k :=
    ⟨h.builds, h.noise, h.jitter, h.times, h.lower, h.upper, h.two, (hgood.smul hτ).1⟩
  obtain ⟨s, hs, -, hq1, hq2, -⟩ := C36_dist_q hv2
  obtain ⟨q, hq⟩ := hq2 (hgood.smul hτ).2
  refine ⟨_, s, q, P, T, hfull, hs, hq, hst, ?_⟩
  have hb := (hq1 q hq).2
  have hθ := fun u => gauss_sites_scaled h.times.monotone X (fun i => Y i 0) σ2 τ (projW c.kernel X P) u
  rw [← hA₁, ← hA₂] at hθ
  have hmθ : Measurable fun x : Ix n d → ℝ => pairSiteLogLik (τ • A₁) (τ • A₂) (unstk x) := by
    simp only [hθ]
    refine Measurable.const_mul (Finset.measurable_sum _ fun i _ => ?_) _
    have := measurable_neighbours (projW c.kernel X P i) (searchsortedLeft c.inducing (X i))
    fun_prop
  have h5 := IsBayesPosterior.add_const hmθ (τ * ∑ i, -(Y i 0) ^ 2 / (2 * σ2)) hb
  convert h5 using 2 with x
  rw [hθ, ← mul_add, ← Finset.sum_add_distrib]
  congr 1
  refine Finset.sum_congr rfl fun i _ => ?_
  have := hσ.ne'
  simp only [projW]
  field_simp
  ring

/-! ### Spatio-temporal models: objectives -/

theorem predictF_comp {o : ℕ} {c : CondProcess n o d} {new : Fin N → ℝ} {f}
    (h : c.predictF new = .ok f) (e : Fin p → Fin N) :
    c.predictF (new ∘ e) = .ok (f ∘ e) := by
  unfold CondProcess.predictF CondProcess.predictState conditionalPredict at h ⊢
  simp only [bind, Except.bind, pure, Except.pure] at h ⊢
  split at h
  · cases h
  rename_i v hv
  split at hv
  · cases hv
  rename_i pw hpw
  split at hv
  · cases hv
  rename_i st hst
  obtain ⟨cs, hcs, rfl⟩ := conditionalStatisticsAux_ok hst
  rw [conditionalStatisticsAux_of (new := new ∘ e) (c := cs ∘ e) fun j => hcs (e j)]
  cases hv
  cases h
  rfl

theorem batchBaseConditional_comp {Kmn : Mat M N} {Kmm : Mat M M} {Knn : Vec N} {f : Mat M N} {q : Fin N → Mat M M} {mv}
    (h : batchBaseConditional Kmn Kmm Knn f (.full q) = .ok mv) (e : Fin p → Fin N) :
    batchBaseConditional (Matrix.of fun m i => Kmn m (e i)) Kmm (Knn ∘ e) (Matrix.of fun m i => f m (e i))
      (.full (q ∘ e)) = .ok (mv.1 ∘ e, mv.2 ∘ e) := by
  unfold batchBaseConditional at h ⊢
  simp only [bind, Except.bind, pure, Except.pure] at h ⊢
  split at h
  · cases h
  rename_i L hL
  cases h
  have hsub : ∀ (A : Mat M M) (B : Mat M N), A * (Matrix.of fun m i => B m (e i)) = Matrix.of fun m i => (A * B) m (e i) :=
    fun A B => rfl
  simp only [triSolve, if_true, Bool.false_eq_true, if_false, hsub]
  rfl

/-- Space-time predictions are made one input at a time. -/
theorem spaceTimePredictF_comp {ks : S → S → ℝ} {Z : Fin M → S} {post : CondProcess n M D}
    {m : Option (S × ℝ → ℝ)} {X : Fin N → S × ℝ} {r} (h : spaceTimePredictF ks Z post m X = .ok r) (e : Fin p → Fin N) :
    spaceTimePredictF ks Z post m (X ∘ e) = .ok (r ∘ e) := by
  unfold spaceTimePredictF at h ⊢
  simp only [bind, Except.bind, pure, Except.pure] at h ⊢
  split at h
  · cases h
  rename_i u hu
  split at h
  · cases h
  rename_i L hL
  split at h
  · cases h
  rename_i mv hmv
  have h1 := predictF_comp hu e
  have h2 : seqFin (fun i => tfCholesky ((u ∘ e) i).2) = .ok (L ∘ e) := by
    rw [seqFin_ok_iff] at hL ⊢
    exact fun i => hL (e i)
  have h3 := batchBaseConditional_comp hmv e
  have e1 : (fun i => ((X ∘ e) i).2) = (fun i => (X i).2) ∘ e := rfl
  rw [e1, h1]
  simp only [h2]
  have e2 : crossGram ks Z (fun i => ((X ∘ e) i).1) = Matrix.of fun m i => crossGram ks Z (fun i => (X i).1) m (e i) := rfl
  have e3 : (fun i => ks ((X ∘ e) i).1 ((X ∘ e) i).1) = (fun i => ks (X i).1 (X i).1) ∘ e := rfl
  have e4 : (Matrix.of fun m i => ((u ∘ e) i).1 m) = Matrix.of fun m i => (Matrix.of fun m i => (u i).1 m : Mat M N) m (e i) := rfl
  rw [e2, e3, e4, h3]
  cases h
  rfl

/-- The objective of the data selected by `e`. -/
theorem spaceTimeElbo_comp {ks : S → S → ℝ} {Z : Fin M → S} {post : CondProcess n M D}
    {m : Option (S × ℝ → ℝ)} {lik : ScalarLikelihood} {num : Option ℕ} {dq dp : Except Err (SSM n D)}
    {X : Fin N → S × ℝ} {Y : Fin N → ℝ} {E : ℝ} (h : spaceTimeElbo ks Z post m lik num dq dp X Y = .ok E) :
    ∃ (g : Fin N → ℝ) (kl : ℝ), E = stScale num N * (∑ i, g i) - kl ∧
      ∀ {p : ℕ} (e : Fin p → Fin N), spaceTimeElbo ks Z post m lik num dq dp (X ∘ e) (Y ∘ e) =
        .ok (stScale num p * (∑ i, g (e i)) - kl) := by
  unfold spaceTimeElbo at h
  simp only [bind, Except.bind, pure, Except.pure] at h
  split at h
  · cases h
  rename_i f hf
  split at h
  · cases h
  rename_i q hq
  split at h
  · cases h
  rename_i pr hpr
  split at h
  · cases h
  rename_i kl hkl
  refine ⟨fun i => lik.varExp (f i).1 (f i).2 (Y i), kl, ?_, fun e => ?_⟩
  · cases h
    unfold stScale
    cases num <;> simp only [mul_comm]
  · unfold spaceTimeElbo stScale
    rw [spaceTimePredictF_comp hf e]
    simp only [bind, Except.bind, pure, Except.pure, hkl, Function.comp_apply]
    cases num <;> simp only [mul_comm]

/-- C72: `SpatioTemporalSparseVariational.elbo` with `num_data` set to the number of data is an unbiased estimate of the full
objective, for every kernel, `q`, likelihood and data set on which it can be evaluated. -/
theorem C72_st_objective {v : STSVGP S n M D} (hnum : v.numData = some N) (hN : 0 < N) {X : Fin N → S × ℝ} {Y : Fin N → ℝ}
    {E : ℝ} (h : v.elbo X Y = .ok E) : UnbiasedObjective N (fun _ f => v.elbo (X ∘ f) (Y ∘ f)) E := by
  obtain ⟨g, kl, rfl, hg⟩ := spaceTimeElbo_comp h
  have := unbiased_of_sum (obj := fun _ f => v.elbo (X ∘ f) (Y ∘ f)) hN g kl fun p f => by
    have := hg f
    simp only [hnum, stScale] at this
    unfold STSVGP.elbo
    rw [hnum]
    exact this
  convert this using 2
  rw [hnum]
  simp only [stScale]
  rw [div_self (Nat.cast_ne_zero.2 hN.ne'), one_mul]

/-- C72: the same for `SpatioTemporalSparseCVI.elbo`. -/
theorem C72_st_cvi_objective {c : STCVI S n M d} (hnum : c.numData = some N) (hN : 0 < N) {X : Fin N → S × ℝ} {Y : Fin N → ℝ}
    {E : ℝ} (h : c.elbo X Y = .ok E) : UnbiasedObjective N (fun _ f => c.elbo (X ∘ f) (Y ∘ f)) E := by
  unfold STCVI.elbo at h ⊢
  cases hp : c.posterior with
  | error e => rw [hp] at h; cases h
  | ok post =>
    rw [hp] at h
    obtain ⟨g, kl, rfl, hg⟩ := spaceTimeElbo_comp h
    rw [hnum] at hg ⊢
    have := unbiased_of_sum (obj := fun _ f => spaceTimeElbo c.kernelSpace c.inducingSpace post c.meanFunction c.likelihood
      (some N) c.distQ c.distP (X ∘ f) (Y ∘ f)) hN g kl fun p f => hg f
    have e : stScale (some N) N = 1 := div_self (Nat.cast_ne_zero.2 hN.ne')
    rw [e, one_mul]
    exact this

/-! ### Spatio-temporal CVI: site updates -/

/-- The projection of the inducing states to the value at an input. -/
noncomputable def stProjW (c : STCVI S n M d) (K : Stationary M c.D) (X : Fin N → S × ℝ)
    (P : Fin N → Matrix (Fin c.D) (Fin c.D ⊕ Fin c.D) ℝ) (i : Fin N) : Fin c.D ⊕ Fin c.D → ℝ :=
  spaceWeights c.kernelSpace c.inducingSpace (X i).1 ᵥ* (K.emission (X i).2 * P i)

/-- The update on the data selected by `e`. -/
theorem STCVI.update_comp {c : STCVI S n M d} {k K} (h : c.Valid k K) {q} (hq : c.distQ = .ok q) {X : Fin N → S × ℝ}
    (h0 : ∀ j, c.inducingTime 0 ≤ (X j).2) (h1 : ∀ j, (X j).2 ≤ c.inducingTime (Fin.last n)) (Y : Fin N → ℝ) :
    ∃ r P T, c.predictF X = .ok r ∧
      conditionalStatistics approxInf (fun i => (X i).2) c.inducingTime K.trans = .ok (P, T) ∧
      ∀ {p : ℕ} (e : Fin p → Fin N), c.updateSites (X ∘ e) (Y ∘ e) = .ok { c with
        nat1 := siteStep c.learningRate (fun i => datumSite₁ c.inducingTime (X i).2
          (c.localGrads (X i) (r i).1 (r i).2 (Y i)).1 (stProjW c K X P i)) c.nat1 e
        nat2 := siteStep c.learningRate (fun i => datumSite₂ c.inducingTime (X i).2
          (c.localGrads (X i) (r i).1 (r i).2 (Y i)).2 (stProjW c K X P i)) c.nat2 e } := by
  obtain ⟨-, -, r, P, T, -, hpf, hst, -⟩ := C43_cvi_update h hq h0 h1 Y
  refine ⟨r, P, T, hpf, hst, fun {p} e => ?_⟩
  have hpf' : c.predictF (X ∘ e) = .ok (r ∘ e) := by
    unfold STCVI.predictF at hpf ⊢
    cases hp : c.posterior with
    | error e => rw [hp] at hpf; cases hpf
    | ok post => rw [hp] at hpf; exact spaceTimePredictF_comp hpf e
  have hA : seqFin (fun i => stateToSpaceProjection c.kernelSpace c.kernelTime c.inducingSpace ((X ∘ e) i).1 ((X ∘ e) i).2) =
      .ok fun i => Matrix.of fun _ => spaceWeights c.kernelSpace c.inducingSpace (X (e i)).1 ᵥ* K.emission (X (e i)).2 :=
    seqFin_ok fun i => C43_projection h.base.space h.base.kernel _ _
  have hst' : conditionalStatistics approxInf (fun i => ((X ∘ e) i).2) c.inducingTime K.trans = .ok (P ∘ e, T ∘ e) :=
    conditionalStatistics_comp hst e
  have hproj : c.projection (X ∘ e) = .ok fun i => (Matrix.of fun _ => spaceWeights c.kernelSpace c.inducingSpace
      (X (e i)).1 ᵥ* K.emission (X (e i)).2) * P (e i) := by
    unfold STCVI.projection STCVI.kernel
    rw [h.base.kernel]
    simp only [bind, Except.bind, pure, Except.pure, hst', hA]
    rfl
  unfold STCVI.updateSites
  rw [hpf', hproj]
  simp only [bind, Except.bind, pure, Except.pure]
  rw [partitionSum_bp₁ c.inducingTime (fun t => ((X ∘ e) t).2), partitionSum_bp₂ c.inducingTime (fun t => ((X ∘ e) t).2)]
  have hw : ∀ i, ((Matrix.of fun _ : Fin 1 => spaceWeights c.kernelSpace c.inducingSpace
      (X (e i)).1 ᵥ* K.emission (X (e i)).2) * P (e i)) 0 = stProjW c K X P (e i) := fun i => by
    unfold stProjW
    rw [← Matrix.vecMul_vecMul]
    rfl
  simp only [hw]
  rfl

theorem STCVI.update_comp' {c : STCVI S n M d} {k K} (h : c.Valid k K) {q} (hq : c.distQ = .ok q) {X : Fin N → S × ℝ}
    (h0 : ∀ j, c.inducingTime 0 ≤ (X j).2) (h1 : ∀ j, (X j).2 ≤ c.inducingTime (Fin.last n)) (Y : Fin N → ℝ) :
    ∃ a₁ a₂, ∀ {p : ℕ} (e : Fin p → Fin N), c.updateSites (X ∘ e) (Y ∘ e) = .ok { c with
        nat1 := siteStep c.learningRate a₁ c.nat1 e, nat2 := siteStep c.learningRate a₂ c.nat2 e } := by
  obtain ⟨r, P, T, -, -, hu⟩ := STCVI.update_comp h hq h0 h1 Y
  exact ⟨_, _, hu⟩

/-- The gradient of a Gaussian likelihood, mean function included. -/
theorem STCVI.localGrads_gaussian {c : STCVI S n M d} {σ2 : ℝ} (hσ : 0 < σ2) (hlik : c.likelihood = gaussianLikelihood σ2)
    (x : S × ℝ) (m v y : ℝ) :
    c.localGrads x m v y = ((y - c.meanFunction.getD (fun _ => 0) x) / σ2, -1 / (2 * σ2)) := by
  set mf := c.meanFunction.getD (fun _ => 0) with hmf
  have h2 := C43_cvi_gradients c x (m - mf x) v y
  rw [← hmf, sub_add_cancel] at h2
  rw [h2]
  have h3 := localGradients_gaussian hσ.ne' (m - mf x) v (y - mf x)
  rw [← h3, hlik]
  unfold localGradients shiftLikelihood gaussianLikelihood
  have e : ∀ m : ℝ, y - (m + mf x) = y - mf x - m := fun m => by ring
  simp only [e]

/-- C72: `C72_cvi_average` for `SpatioTemporalSparseCVI`. -/
theorem C72_st_cvi_average {c : STCVI S n M d} {k K} (h : c.Valid k K) {q} (hq : c.distQ = .ok q) {X : Fin N → S × ℝ}
    (hN : 0 < N) (h0 : ∀ j, c.inducingTime 0 ≤ (X j).2) (h1 : ∀ j, (X j).2 ≤ c.inducingTime (Fin.last n)) (Y : Fin N → ℝ)
    (p : ℕ) :
    ∃ (n₁ : _) (n₂ : _) (o₁ : (Fin p → Fin N) → _) (o₂ : (Fin p → Fin N) → _),
      c.updateSites X Y = .ok { c with nat1 := n₁, nat2 := n₂ } ∧
      (∀ f, c.updateSites (X ∘ f) (Y ∘ f) = .ok { c with nat1 := o₁ f, nat2 := o₂ f }) ∧
      ((N : ℝ) ^ p)⁻¹ • ∑ f, o₁ f = (1 - c.learningRate) • c.nat1 + (p / N : ℝ) • (n₁ - (1 - c.learningRate) • c.nat1) ∧
      ((N : ℝ) ^ p)⁻¹ • ∑ f, o₂ f = (1 - c.learningRate) • c.nat2 + (p / N : ℝ) • (n₂ - (1 - c.learningRate) • c.nat2) := by
  obtain ⟨a₁, a₂, hu⟩ := STCVI.update_comp' h hq h0 h1 Y
  exact ⟨siteStep c.learningRate a₁ c.nat1 id, siteStep c.learningRate a₂ c.nat2 id,
    fun f => siteStep c.learningRate a₁ c.nat1 f, fun f => siteStep c.learningRate a₂ c.nat2 f,
    hu id, fun f => hu f, avg_siteStep hN _ _ _, avg_siteStep hN _ _ _⟩

/-- C72: `C72_cvi_partition` for `SpatioTemporalSparseCVI`. -/
theorem C72_st_cvi_partition {c : STCVI S n M d} {k K} (h : c.Valid k K) {q} (hq : c.distQ = .ok q) {X : Fin N → S × ℝ}
    (h0 : ∀ j, c.inducingTime 0 ≤ (X j).2) (h1 : ∀ j, (X j).2 ≤ c.inducingTime (Fin.last n)) (Y : Fin N → ℝ)
    {B : ℕ} (size : Fin B → ℕ) (e : (Σ b, Fin (size b)) ≃ Fin N) :
    ∃ (n₁ : _) (n₂ : _) (o₁ : Fin B → _) (o₂ : Fin B → _),
      c.updateSites X Y = .ok { c with nat1 := n₁, nat2 := n₂ } ∧
      (∀ b, c.updateSites (fun i => X (e ⟨b, i⟩)) (fun i => Y (e ⟨b, i⟩)) = .ok { c with nat1 := o₁ b, nat2 := o₂ b }) ∧
      ∑ b, (o₁ b - (1 - c.learningRate) • c.nat1) = n₁ - (1 - c.learningRate) • c.nat1 ∧
      ∑ b, (o₂ b - (1 - c.learningRate) • c.nat2) = n₂ - (1 - c.learningRate) • c.nat2 := by
  obtain ⟨a₁, a₂, hu⟩ := STCVI.update_comp' h hq h0 h1 Y
  exact ⟨siteStep c.learningRate a₁ c.nat1 id, siteStep c.learningRate a₂ c.nat2 id,
    fun b => siteStep c.learningRate a₁ c.nat1 fun i => e ⟨b, i⟩, fun b => siteStep c.learningRate a₂ c.nat2 fun i => e ⟨b, i⟩,
    hu id, fun b => hu fun i => e ⟨b, i⟩, partition_siteStep size e _ _ _, partition_siteStep size e _ _ _⟩

/-- Any sequence of updates on minibatches, Gaussian likelihood. -/
theorem STCVI.gaussian_runs {c : STCVI S n M d} {k K} (h : c.Valid k K) {σ2 : ℝ} (hσ : 0 < σ2)
    (hlik : c.likelihood = gaussianLikelihood σ2) (hr0 : 0 ≤ c.learningRate) (hr1 : c.learningRate ≤ 1) {X : Fin N → S × ℝ}
    (h0 : ∀ j, c.inducingTime 0 ≤ (X j).2) (h1 : ∀ j, (X j).2 ≤ c.inducingTime (Fin.last n)) (Y : Fin N → ℝ) {P T}
    (hst : conditionalStatistics approxInf (fun i => (X i).2) c.inducingTime K.trans = .ok (P, T)) :
    ∀ (L : List (Fin p → Fin N)) (θ₁ θ₂), GoodSites θ₂ →
      L.foldlM (fun (c : STCVI S n M d) f => c.updateSites (X ∘ f) (Y ∘ f)) { c with nat1 := θ₁, nat2 := θ₂ } =
        .ok { c with
          nat1 := L.foldl (siteStep c.learningRate fun i => datumSite₁ c.inducingTime (X i).2
            ((Y i - c.meanFunction.getD (fun _ => 0) (X i)) / σ2) (stProjW c K X P i)) θ₁
          nat2 := L.foldl (siteStep c.learningRate fun i =>
            datumSite₂ c.inducingTime (X i).2 (-1 / (2 * σ2)) (stProjW c K X P i)) θ₂ }
  | [], _, _, _ => rfl
  | f :: L, θ₁, θ₂, hθ => by
    have hv : ({ c with nat1 := θ₁, nat2 := θ₂ } : STCVI S n M d).Valid k K := ⟨h.base, hθ.1⟩
    obtain ⟨s, hs, -, -, -, hq2, -⟩ := C43_cvi_dist_q hv
    obtain ⟨q, hq⟩ := hq2 hθ.2
    obtain ⟨r, P', T', -, hst', hu⟩ := STCVI.update_comp hv hq h0 h1 Y
    have hPP : P' = P := by
      have := hst'.symm.trans hst
      exact congrArg Prod.fst (Except.ok.inj this)
    subst hPP
    have hgr : ∀ x m v y, ({ c with nat1 := θ₁, nat2 := θ₂ } : STCVI S n M d).localGrads x m v y =
        ((y - c.meanFunction.getD (fun _ => 0) x) / σ2, -1 / (2 * σ2)) := fun x m v y =>
      STCVI.localGrads_gaussian (c := { c with nat1 := θ₁, nat2 := θ₂ }) hσ hlik x m v y
    simp only [hgr] at hu
    have hg : -1 / (2 * σ2) ≤ 0 := div_nonpos_of_nonpos_of_nonneg (by norm_num) (by positivity)
    rw [List.foldlM_cons, hu f]
    have := STCVI.gaussian_runs h hσ hlik hr0 hr1 h0 h1 Y hst L
      (siteStep c.learningRate (fun i => datumSite₁ c.inducingTime (X i).2
        ((Y i - c.meanFunction.getD (fun _ => 0) (X i)) / σ2) (stProjW c K X P' i)) θ₁ f)
      (siteStep c.learningRate (fun i => datumSite₂ c.inducingTime (X i).2 (-1 / (2 * σ2)) (stProjW c K X P' i)) θ₂ f)
      (hθ.step hr0 hr1 (fun i => ⟨datumSite₂_symm _ _ _ _, datumSite₂_neg _ _ hg _⟩) f)
    exact this

/-- C72: `C72_cvi_gaussian_runs` for `SpatioTemporalSparseCVI` (with any mean function). -/
theorem C72_st_cvi_gaussian_runs {c : STCVI S n M d} {k K} (h : c.Valid k K) (hneg : ∀ j v, v ⬝ᵥ (c.nat2 j *ᵥ v) ≤ 0)
    {σ2 : ℝ} (hσ : 0 < σ2) (hlik : c.likelihood = gaussianLikelihood σ2) (hr0 : 0 < c.learningRate)
    (hr1 : c.learningRate ≤ 1) {X : Fin N → S × ℝ} (hN : 0 < N)
    (h0 : ∀ j, c.inducingTime 0 ≤ (X j).2) (h1 : ∀ j, (X j).2 ≤ c.inducingTime (Fin.last n)) (Y : Fin N → ℝ) (p : ℕ) :
    ∃ (n₁ : _) (n₂ : _) (o₁ : (T : ℕ) → (Fin T → Fin p → Fin N) → _) (o₂ : (T : ℕ) → (Fin T → Fin p → Fin N) → _),
      ({ c with learningRate := 1 } : STCVI S n M d).updateSites X Y =
        .ok { c with learningRate := 1, nat1 := n₁, nat2 := n₂ } ∧
      (∀ T F, (List.ofFn F).foldlM (fun (c : STCVI S n M d) f => c.updateSites (X ∘ f) (Y ∘ f)) c =
        .ok { c with nat1 := o₁ T F, nat2 := o₂ T F }) ∧
      (∀ T, ((N : ℝ) ^ (p * T))⁻¹ • ∑ F, o₁ T F =
        (1 - c.learningRate) ^ T • c.nat1 + (1 - (1 - c.learningRate) ^ T) • (p / N : ℝ) • n₁) ∧
      (∀ T, ((N : ℝ) ^ (p * T))⁻¹ • ∑ F, o₂ T F =
        (1 - c.learningRate) ^ T • c.nat2 + (1 - (1 - c.learningRate) ^ T) • (p / N : ℝ) • n₂) ∧
      Filter.Tendsto (fun T => ((N : ℝ) ^ (p * T))⁻¹ • ∑ F, o₁ T F) Filter.atTop (nhds ((p / N : ℝ) • n₁)) ∧
      Filter.Tendsto (fun T => ((N : ℝ) ^ (p * T))⁻¹ • ∑ F, o₂ T F) Filter.atTop (nhds ((p / N : ℝ) • n₂)) := by
  obtain ⟨s, hs, -, -, -, hq2, -⟩ := C43_cvi_dist_q h
  obtain ⟨q, hq⟩ := hq2 hneg
  have hv1 : ({ c with learningRate := 1 } : STCVI S n M d).Valid k K := ⟨h.base, h.symm⟩
  obtain ⟨r, P, T, -, hst, hu⟩ := STCVI.update_comp hv1 (q := q) hq h0 h1 Y
  have hgr : ∀ x m v y, ({ c with learningRate := 1 } : STCVI S n M d).localGrads x m v y =
      ((y - c.meanFunction.getD (fun _ => 0) x) / σ2, -1 / (2 * σ2)) := fun x m v y =>
    STCVI.localGrads_gaussian (c := { c with learningRate := 1 }) hσ hlik x m v y
  simp only [hgr] at hu
  have hrun := fun T (F : Fin T → Fin p → Fin N) =>
    STCVI.gaussian_runs h hσ hlik hr0.le hr1 h0 h1 Y hst (List.ofFn F) c.nat1 c.nat2 ⟨h.symm, hneg⟩
  have e₁ : siteStep 1 (fun i => datumSite₁ c.inducingTime (X i).2
      ((Y i - c.meanFunction.getD (fun _ => 0) (X i)) / σ2) (stProjW c K X P i)) c.nat1 id =
      ∑ i, datumSite₁ c.inducingTime (X i).2
      ((Y i - c.meanFunction.getD (fun _ => 0) (X i)) / σ2) (stProjW c K X P i) := by
    simp [siteStep]
  have e₂ : siteStep 1 (fun i => datumSite₂ c.inducingTime (X i).2 (-1 / (2 * σ2)) (stProjW c K X P i)) c.nat2 id =
      ∑ i, datumSite₂ c.inducingTime (X i).2 (-1 / (2 * σ2)) (stProjW c K X P i) := by
    simp [siteStep]
  have a₁ := fun T => avg_runs (p := p) hN c.learningRate
    (fun i => datumSite₁ c.inducingTime (X i).2
      ((Y i - c.meanFunction.getD (fun _ => 0) (X i)) / σ2) (stProjW c K X P i)) T c.nat1
  have a₂ := fun T => avg_runs (p := p) hN c.learningRate
    (fun i => datumSite₂ c.inducingTime (X i).2 (-1 / (2 * σ2)) (stProjW c K X P i)) T c.nat2
  rw [← e₁] at a₁
  rw [← e₂] at a₂
  refine ⟨_, _, _, _, hu id, hrun, a₁, a₂, ?_, ?_⟩
  · exact (run_limit hr0 hr1 _ _).congr fun T => (a₁ T).symm
  · exact (run_limit hr0 hr1 _ _).congr fun T => (a₂ T).symm

/-- C72: `C72_cvi_gaussian_tempered` for `SpatioTemporalSparseCVI` (with any mean function). -/
theorem C72_st_cvi_gaussian_tempered {c : STCVI S n M d} {k K} (h : c.Valid k K)
    (hneg : ∀ j v, v ⬝ᵥ (c.nat2 j *ᵥ v) ≤ 0)
    {σ2 : ℝ} (hσ : 0 < σ2) (hlik : c.likelihood = gaussianLikelihood σ2) {X : Fin N → S × ℝ}
    (h0 : ∀ j, c.inducingTime 0 ≤ (X j).2) (h1 : ∀ j, (X j).2 ≤ c.inducingTime (Fin.last n)) (Y : Fin N → ℝ)
    {τ : ℝ} (hτ : 0 ≤ τ) :
    ∃ n₁ n₂ s q P T,
      ({ c with learningRate := 1 } : STCVI S n M d).updateSites X Y =
        .ok { c with learningRate := 1, nat1 := n₁, nat2 := n₂ } ∧ c.distP = .ok s ∧
      ({ c with nat1 := τ • n₁, nat2 := τ • n₂ } : STCVI S n M d).distQ = .ok q ∧
      conditionalStatistics approxInf (fun i => (X i).2) c.inducingTime K.trans = .ok (P, T) ∧
      IsBayesPosterior s.law (fun x => τ * ∑ i, -(Y i - c.meanFunction.getD (fun _ => 0) (X i) -
        (spaceWeights c.kernelSpace c.inducingSpace (X i).1 ᵥ* (K.emission (X i).2 * P i)) ⬝ᵥ
          neighbours (unstk x) (searchsortedLeft c.inducingTime (X i).2)) ^ 2 / (2 * σ2)) q.law := by
  obtain ⟨_, _, -, -, -, hq2, -⟩ := C43_cvi_dist_q h
  obtain ⟨q₀, hq₀⟩ := hq2 hneg
  have hv1 : ({ c with learningRate := 1 } : STCVI S n M d).Valid k K := ⟨h.base, h.symm⟩
  obtain ⟨r, P, T, -, hst, hu⟩ := STCVI.update_comp hv1 (q := q₀) hq₀ h0 h1 Y
  have hgr : ∀ x m v y, ({ c with learningRate := 1 } : STCVI S n M d).localGrads x m v y =
      ((y - c.meanFunction.getD (fun _ => 0) x) / σ2, -1 / (2 * σ2)) := fun x m v y =>
    STCVI.localGrads_gaussian (c := { c with learningRate := 1 }) hσ hlik x m v y
  simp only [hgr] at hu
  set mf := c.meanFunction.getD (fun _ => 0) with hmf
  have hg : -1 / (2 * σ2) ≤ 0 := div_nonpos_of_nonpos_of_nonneg (by norm_num) (by positivity)
  set W : Fin N → Fin c.D ⊕ Fin c.D → ℝ := stProjW c K X P with hW
  set A₁ : Fin (n + 2) → Fin c.D ⊕ Fin c.D → ℝ :=
    ∑ i, datumSite₁ c.inducingTime (X i).2 ((Y i - mf (X i)) / σ2) (W i) with hA₁
  set A₂ : Fin (n + 2) → Matrix (Fin c.D ⊕ Fin c.D) (Fin c.D ⊕ Fin c.D) ℝ :=
    ∑ i, datumSite₂ c.inducingTime (X i).2 (-1 / (2 * σ2)) (W i) with hA₂
  have hfull : ({ c with learningRate := 1 } : STCVI S n M d).updateSites X Y =
      .ok { c with learningRate := 1, nat1 := A₁, nat2 := A₂ } := by
    have := hu id
    simp only [siteStep, sub_self, zero_smul, zero_add, one_smul, id] at this
    exact this
  have hgood : GoodSites A₂ := GoodSites.sum fun i => ⟨datumSite₂_symm _ _ _ _, datumSite₂_neg _ _ hg _⟩
  have hv2 : ({ c with nat1 := τ • A₁, nat2 := τ • A₂ } : STCVI S n M d).Valid k K :=
    ⟨h.base, (hgood.smul hτ).1⟩
  obtain ⟨s, hs, -, -, hq1, hq2, -⟩ := C43_cvi_dist_q hv2
  obtain ⟨q, hq⟩ := hq2 (hgood.smul hτ).2
  refine ⟨A₁, A₂, s, q, P, T, hfull, hs, hq, hst, ?_⟩
  have hb := (hq1 q hq).2
  have hθ := fun u => gauss_sites_scaled h.base.times.monotone (fun i => (X i).2) (fun i => Y i - mf (X i)) σ2 τ W u
  rw [← hA₁, ← hA₂] at hθ
  have hmθ : Measurable fun x : Ix n c.D → ℝ => pairSiteLogLik (τ • A₁) (τ • A₂) (unstk x) := by
    simp only [hθ]
    refine Measurable.const_mul (Finset.measurable_sum _ fun i _ => ?_) _
    have := measurable_neighbours (W i) (searchsortedLeft c.inducingTime (X i).2)
    fun_prop
  have h5 := IsBayesPosterior.add_const hmθ (τ * ∑ i, -(Y i - mf (X i)) ^ 2 / (2 * σ2)) hb
  convert h5 using 2 with x
  rw [hθ, ← mul_add, ← Finset.sum_add_distrib]
  congr 1
  refine Finset.sum_congr rfl fun i _ => ?_
  have := hσ.ne'
  have hWi : W i = spaceWeights c.kernelSpace c.inducingSpace (X i).1 ᵥ* (K.emission (X i).2 * P i) := rfl
  rw [← hWi]
  field_simp
  ring

/-- C72: `num_data`, though "relevant when feeding in external minibatches", plays no part in `update_sites`: two models that
differ only in it end up with the same sites (or raise the same exception). -/
theorem C72_num_data_ignored (c : STCVI S n M d) (m : Option ℕ) (X : Fin N → S × ℝ) (Y : Fin N → ℝ) :
    ({ c with numData := m } : STCVI S n M d).updateSites X Y =
      (c.updateSites X Y).map fun c' => { c' with numData := m } := by
  unfold STCVI.updateSites
  have e1 : ({ c with numData := m } : STCVI S n M d).predictF X = c.predictF X := rfl
  have e2 : ({ c with numData := m } : STCVI S n M d).projection X = c.projection X := rfl
  rw [e1, e2]
  cases c.predictF X with
  | error e => rfl
  | ok r => cases c.projection X <;> rfl

/-- Non-vacuity: a spatio-temporal CVI model with a mean function, `num_data = 2`, two data and learning rate 1/2, fresh from
the constructor, meets the hypotheses of the objective, average, partition and Gaussian theorems. -/
example : ∃ (kt : Stationary 1 1) (k : ℝ → ℝ → Mat 1 1) (K : Stationary 1 (stDim 1 kt)) (q : _) (E : ℝ),
    (STCVI.init ![true] (![0, 1] : Fin 2 → ℝ) whiteSpace kt (gaussianLikelihood 1) (some fun x => x.2) (some 2) (1 / 2)).Valid k K ∧
    (STCVI.init ![true] (![0, 1] : Fin 2 → ℝ) whiteSpace kt (gaussianLikelihood 1) (some fun x => x.2) (some 2) (1 / 2)).distQ = .ok q ∧
    (∀ j v, v ⬝ᵥ ((STCVI.init ![true] (![0, 1] : Fin 2 → ℝ) whiteSpace kt (gaussianLikelihood 1) (some fun x => x.2) (some 2)
      (1 / 2)).nat2 j *ᵥ v) ≤ 0) ∧
    (STCVI.init ![true] (![0, 1] : Fin 2 → ℝ) whiteSpace kt (gaussianLikelihood 1) (some fun x => x.2) (some 2) (1 / 2)).elbo
      ![(true, 1 / 2), (false, 1)] ![3, 4] = .ok E ∧
    ∀ j : Fin 2, (0 : ℝ) ≤ ((![(true, 1 / 2), (false, 1)] : Fin 2 → Bool × ℝ) j).2 ∧
      ((![(true, 1 / 2), (false, 1)] : Fin 2 → Bool × ℝ) j).2 ≤ 1 := by
  obtain ⟨kt, k, v, hi, hv, hq, hks, hZ, hz, -⟩ := st_example 2 two_pos
  have hb : STValid whiteSpace kt k ![true] v.kernel ![0, 1] := by
    have := hv.base
    rw [hks, hZ, hz] at this
    exact this
  obtain ⟨hcv, s, q, hs, hq, -⟩ := C43_cvi_init hb (gaussianLikelihood 1) (some fun x => x.2) (some 2) (1 / 2)
  have hX : ∀ j : Fin 2, (0 : ℝ) ≤ ((![(true, 1 / 2), (false, 1)] : Fin 2 → Bool × ℝ) j).2 ∧
      ((![(true, 1 / 2), (false, 1)] : Fin 2 → Bool × ℝ) j).2 ≤ 1 := fun j => by
    fin_cases j <;> norm_num
  obtain ⟨s', hs', hss, hnd, hq1, -⟩ := C43_cvi_dist_q hcv
  obtain ⟨r, kl, -, -, -, he⟩ := C43_elbo_value hb (hq1 q hq).1 hss (some fun x : Bool × ℝ => x.2) (gaussianLikelihood 1)
    (some 2) (X := ![(true, 1 / 2), (false, 1)]) (fun j => (hX j).1) (fun j => (hX j).2) ![3, 4]
  obtain ⟨e, he⟩ : ∃ e : ℝ, _ = Except.ok e := ⟨_, he⟩
  refine ⟨kt, k, v.kernel, q, e, hcv, hq, fun j w => ?_, ?_, hX⟩
  · have e : (STCVI.init ![true] (![0, 1] : Fin 2 → ℝ) whiteSpace kt (gaussianLikelihood 1) (some fun x => x.2) (some 2)
      (1 / 2)).nat2 j = 0 := rfl
    rw [e, zero_mulVec, dotProduct_zero]
  · refine Eq.trans ?_ he
    unfold STCVI.elbo STCVI.posterior STCVI.kernel
    rw [hq, hcv.base.kernel, hs']
    rfl

end MF
