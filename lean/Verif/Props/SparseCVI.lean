import Verif.Lemmas.SparseCVI
import Verif.Props.CVI

/-!
# C36: `SparseCVIGaussianProcess`

Specification vocabulary: `neighbours`, `pairSiteLogLik`, `InInterval` (`Spec/Sites`), `IsBayesPosterior`, `evidence`
(`Spec/LinearGaussian`), `IsPredictive` (`Spec/Bridge`), Mathlib's `klDiv`.
-/

namespace MF
open Matrix Spec MeasureTheory ProbabilityTheory InformationTheory
variable {n d p : ℕ}

/-- The hypotheses on a model: a kernel expression with noise throughout, jitter zero, strictly increasing inducing
points within `±1e10`, at least two of them; the second site parameters are symmetric (the constructor makes them so
and updates keep them so: `C36_reachable`). -/
structure SparseCVI.Valid (c : SparseCVI n d) (k : ℝ → ℝ → Mat 1 1) : Prop where
  builds : Builds c.kernel k
  noise : NoiseTag c.kernel true
  jitter : c.kernel.jitter = 0
  times : StrictMono c.inducing
  lower : -10000000000 < c.inducing 0
  upper : c.inducing (Fin.last n) ≤ 10000000000
  two : 0 < n
  symm : ∀ j, (c.nat2 j)ᵀ = c.nat2 j

/-! ### the variational distribution -/

/-- C36: `dist_q` is the prior times the sites, `q(u) ∝ p(u) ∏ⱼ exp(θ₁ⱼ·vⱼ + vⱼᵀ θ₂ⱼ vⱼ)` with `vⱼ` the pair of
inducing states around interval `j`, whenever it can be built; it can be built whenever all `θ₂ⱼ` are negative
semidefinite. Otherwise it raises. -/
theorem C36_dist_q {c : SparseCVI n d} {k} (h : c.Valid k) : ∃ s : SSM n d, c.distP = .ok s ∧ s.Nondegenerate ∧
    (∀ q, c.distQ = .ok q → q.Nondegenerate ∧
      IsBayesPosterior s.law (fun x => pairSiteLogLik c.nat1 c.nat2 (unstk x)) q.law) ∧
    ((∀ j v, v ⬝ᵥ (c.nat2 j *ᵥ v) ≤ 0) → ∃ q, c.distQ = .ok q) ∧
    ((∃ q, c.distQ = .ok q) ∨ c.distQ = .error .invalidArgument) := by
  obtain ⟨s, hs, hnd⟩ := kernel_ssm_nondegenerate h.builds h.noise h.two h.times
  obtain ⟨hco, -, -⟩ := Builds.good h.builds
  have hdq : c.distQ = naturalsToSSM (siteLin c.nat1) (fun b => (-(1 / 2) : ℝ) • s.precD b + siteDiag c.nat2 b)
      (fun k => -s.precS k + (2 : ℝ) • siteSub c.nat2 k) := by
    unfold SparseCVI.distQ SparseCVI.distP
    rw [hs]
    simp only [bind, Except.bind, SSM.precision_eq hnd h.two, Option.getD_some]
    rfl
  obtain ⟨h1, h2⟩ := naturals_posterior hnd (kernel_moments h.builds h.jitter hs).1 h.two hco.pos
    (siteLin c.nat1) (siteDiag c.nat2) (siteSub c.nat2) (siteDiag_symm h.symm)
  simp only [pairSite_quad _ h.symm] at h1
  rw [← hdq] at h1 h2
  have hem := (Classical.em _).imp h1 h2
  refine ⟨s, hs, hnd, fun q hq => ?_, fun hneg => ?_, ?_⟩
  · rcases hem with ⟨q', hq', hn', -, -, hb, -⟩ | he
    · obtain rfl : q = q' := Except.ok.inj (hq.symm.trans hq')
      exact ⟨hn', hb⟩
    · rw [he] at hq; cases hq
  · obtain ⟨q, hq, -⟩ := h1 (posDef_sub_quad (SSM.Kd_posDef hnd).inv (denseSym_isSymm (siteDiag_symm h.symm)) fun x => by
      have := pairSite_quad (0 : Fin (n + 2) → Fin d ⊕ Fin d → ℝ) h.symm x
      rw [show stk (siteLin (0 : Fin (n + 2) → Fin d ⊕ Fin d → ℝ)) = 0 from by funext i; simp [stk, siteLin],
        zero_dotProduct, zero_add] at this
      rw [this]
      unfold pairSiteLogLik
      exact Finset.sum_nonpos fun j _ => by simpa using hneg j _)
    exact ⟨q, hq⟩
  · exact hem.imp (fun ⟨q', hq', _⟩ => ⟨q', hq'⟩) id

/-! ### the update -/

/-- C36: every datum belongs to exactly one interval. -/
theorem C36_one_interval {z : Fin (n + 1) → ℝ} (hz : Monotone z) (t : ℝ) : ∃! j, InInterval z j t :=
  ⟨searchsortedLeft z t, (inInterval_iff hz _ t).1 rfl, fun j hj => ((inInterval_iff hz j t).2 hj).symm⟩

open Classical in
/-- C36: one `update_sites()`: the sites of interval `j` move from `θ` to `(1 - r) θ + r Σ_i g_i`, the sum running over
the data in that interval; datum `i` contributes `(g₁ W_i, g₂ W_i W_iᵀ)`, where `g` is the gradient of its variational
expectation in expectation parameters at the predicted mean and variance and `W_i v = H(x_i) P_i v` the prior
conditional mean of `f(x_i)` given the neighbouring inducing states. Nothing else changes. In particular an interval
without data is multiplied by `1 - r`. -/
theorem C36_update {c : SparseCVI n d} {k} (h : c.Valid k) {q} (hq : c.distQ = .ok q) {X : Fin p → ℝ}
    (h0 : ∀ j, -10000000000 < X j) (h1 : ∀ j, X j ≤ 10000000000) (Y : Fin p → Vec 1) :
    ∃ c' post fx P T, c.updateSites X Y = .ok c' ∧ c.posterior = .ok post ∧ post.predictFDiag X = .ok fx ∧
      conditionalStatistics approxInf X c.inducing c.kernel.trans = .ok (P, T) ∧
      c' = { c with nat1 := c'.nat1, nat2 := c'.nat2 } ∧
      ∀ (W : Fin p → Fin d ⊕ Fin d → ℝ), (∀ i, W i = (c.kernel.emission (X i) * P i) 0) →
      ∀ (g : Fin p → ℝ × ℝ), (∀ i, g i = localGradients c.likelihood ((fx i).1 0) ((fx i).2 0) (Y i 0)) → ∀ j,
        c'.nat1 j = (1 - c.learningRate) • c.nat1 j +
          c.learningRate • ∑ i ∈ Finset.univ.filter (fun i => InInterval c.inducing j (X i)), (g i).1 • W i ∧
        c'.nat2 j = (1 - c.learningRate) • c.nat2 j + c.learningRate •
          ∑ i ∈ Finset.univ.filter (fun i => InInterval c.inducing j (X i)), (g i).2 • vecMulVec (W i) (W i) := by
  obtain ⟨s, hs, hnd, hq1, -⟩ := C36_dist_q h
  have hqn := (hq1 q hq).1
  have hpost : c.posterior = .ok ⟨q, c.kernel, c.inducing, fun _ => 0⟩ := by
    unfold SparseCVI.posterior; rw [hq]; rfl
  obtain ⟨r, hr⟩ := C22_succeeds (c := (⟨q, c.kernel, c.inducing, fun _ => 0⟩ : CondProcess n 1 d)) h.builds h.noise
    hqn h.two h.times.monotone h0 h1
  obtain ⟨fx, _, hf, -, -⟩ := (C45_formulas hr 0).2
  obtain ⟨hc, -, -⟩ := Builds.good h.builds
  obtain ⟨cs, hcs, -⟩ := predictState_ok hqn h.two hc.pos hr
  have hst : conditionalStatistics approxInf X c.inducing c.kernel.trans =
      .ok (fun j => fromCols (cs j).D (cs j).E, fun j => (cs j).T) := by
    unfold conditionalStatistics
    rw [conditionalStatisticsAux_of hcs]; rfl
  let bp := backProjectNats
    (fun t a => (localGradients c.likelihood ((fx t).1 a) ((fx t).2 a) (Y t a)).1)
    (fun t a => (localGradients c.likelihood ((fx t).1 a) ((fx t).2 a) (Y t a)).2)
    (fun t => c.kernel.emission (X t) * fromCols (cs t).D (cs t).E)
  have hu : c.updateSites X Y = .ok { c with
      nat1 := fun j => (1 - c.learningRate) • c.nat1 j + c.learningRate •
        partitionSum (fun t => searchsortedLeft c.inducing (X t)) bp.1 j
      nat2 := fun j => (1 - c.learningRate) • c.nat2 j + c.learningRate •
        partitionSum (fun t => searchsortedLeft c.inducing (X t)) bp.2 j } := by
    unfold SparseCVI.updateSites
    rw [hpost]
    simp only [bind, Except.bind, pure, Except.pure, hf, hst]
    rfl
  refine ⟨_, _, fx, _, _, hu, hpost, hf, hst, rfl, fun W hW g hg j => ⟨?_, ?_⟩⟩
  · simp only [partitionSum_eq, inInterval_iff h.times.monotone]
    rw [← Finset.sum_filter]
    congr 2
    refine Finset.sum_congr rfl fun i _ => ?_
    funext a
    simp only [bp, backProjectNats, Fin.sum_univ_one, hW, hg, Pi.smul_apply, smul_eq_mul]
    ring
  · simp only [partitionSum_eq, inInterval_iff h.times.monotone]
    rw [← Finset.sum_filter]
    congr 2
    refine Finset.sum_congr rfl fun i _ => ?_
    ext a b
    simp only [bp, backProjectNats, Fin.sum_univ_one, hW, hg, Matrix.smul_apply, smul_eq_mul, vecMulVec_apply, of_apply]
    ring

open Classical in
/-- C36: intervals without data get zero gradient: their sites are multiplied by `1 - r` (by C36_update). Totals are
conserved: summed over the intervals, the sites move by the sum over all data. -/
theorem C36_totals {c : SparseCVI n d} {k} (h : c.Valid k) {q} (hq : c.distQ = .ok q) {X : Fin p → ℝ}
    (h0 : ∀ j, -10000000000 < X j) (h1 : ∀ j, X j ≤ 10000000000) (Y : Fin p → Vec 1) :
    ∃ (c' : SparseCVI n d) (g₁ : Fin p → Fin d ⊕ Fin d → ℝ) (g₂ : Fin p → Matrix (Fin d ⊕ Fin d) (Fin d ⊕ Fin d) ℝ),
      c.updateSites X Y = .ok c' ∧
      (∑ j, c'.nat1 j = (1 - c.learningRate) • ∑ j, c.nat1 j + c.learningRate • ∑ i, g₁ i) ∧
      (∑ j, c'.nat2 j = (1 - c.learningRate) • ∑ j, c.nat2 j + c.learningRate • ∑ i, g₂ i) ∧
      (∀ i, ∃ (w : Fin d ⊕ Fin d → ℝ) (m v : ℝ), g₁ i = (localGradients c.likelihood m v (Y i 0)).1 • w ∧
        g₂ i = (localGradients c.likelihood m v (Y i 0)).2 • vecMulVec w w) ∧
      ∀ j, (∀ i, ¬ InInterval c.inducing j (X i)) →
        c'.nat1 j = (1 - c.learningRate) • c.nat1 j ∧ c'.nat2 j = (1 - c.learningRate) • c.nat2 j := by
  obtain ⟨c', post, fx, P, T, hu, -, hf, hst, -, hW⟩ := C36_update h hq h0 h1 Y
  set W : Fin p → Fin d ⊕ Fin d → ℝ := fun i => (c.kernel.emission (X i) * P i) 0 with hWd
  set g : Fin p → ℝ × ℝ := fun i => localGradients c.likelihood ((fx i).1 0) ((fx i).2 0) (Y i 0) with hgd
  have hW := hW W (fun _ => rfl) g (fun _ => rfl)
  have hpart : ∀ {α : Type} [AddCommMonoid α] (g : Fin p → α),
      ∑ j, ∑ i ∈ Finset.univ.filter (fun i => InInterval c.inducing j (X i)), g i = ∑ i, g i := by
    intro α _ g
    simp only [Finset.sum_filter]
    rw [Finset.sum_comm]
    refine Finset.sum_congr rfl fun i _ => ?_
    obtain ⟨j, hj, hj'⟩ := C36_one_interval h.times.monotone (X i)
    rw [Finset.sum_eq_single j (fun b _ hb => if_neg fun hc => hb (hj' b hc)) (by simp), if_pos hj]
  refine ⟨c', fun i => (g i).1 • W i, fun i => (g i).2 • vecMulVec (W i) (W i), hu, ?_, ?_,
    fun i => ⟨W i, _, _, rfl, rfl⟩, fun j hj => ?_⟩
  · simp only [fun j => (hW j).1, Finset.sum_add_distrib, ← Finset.smul_sum]
    rw [hpart]
  · simp only [fun j => (hW j).2, Finset.sum_add_distrib, ← Finset.smul_sum]
    rw [hpart]
  · have he : Finset.univ.filter (fun i => InInterval c.inducing j (X i)) = ∅ :=
      Finset.filter_eq_empty_iff.2 fun i _ => hj i
    rw [(hW j).1, (hW j).2, he]
    simp

theorem conditionalStatistics_comp {inf : ℝ} {new : Fin p → ℝ} {ts : Fin (n + 1) → ℝ} {kernel : TransFn d} {P T}
    {p' : ℕ} (h : conditionalStatistics inf new ts kernel = .ok (P, T)) (e : Fin p' → Fin p) :
    conditionalStatistics inf (new ∘ e) ts kernel = .ok (P ∘ e, T ∘ e) := by
  unfold conditionalStatistics at h ⊢
  simp only [bind, Except.bind, pure, Except.pure] at h ⊢
  split at h
  · cases h
  rename_i v hv
  obtain ⟨cs, hcs, rfl⟩ := conditionalStatisticsAux_ok hv
  rw [conditionalStatisticsAux_of (new := new ∘ e) (c := cs ∘ e) fun j => hcs (e j)]
  cases h
  rfl

/-- C36: the order of the data does not matter. -/
theorem C36_order {c : SparseCVI n d} {k} (h : c.Valid k) {q} (hq : c.distQ = .ok q) {X : Fin p → ℝ}
    (h0 : ∀ j, -10000000000 < X j) (h1 : ∀ j, X j ≤ 10000000000) (Y : Fin p → Vec 1) (σ : Equiv.Perm (Fin p)) :
    c.updateSites (X ∘ σ) (Y ∘ σ) = c.updateSites X Y := by
  obtain ⟨c', post, fx, P, T, hu, hpost, hf, hst, -⟩ := C36_update h hq h0 h1 Y
  unfold SparseCVI.updateSites
  rw [hpost]
  simp only [bind, Except.bind, pure, Except.pure, hf, hst, predictFDiag_comp hf σ, conditionalStatistics_comp hst σ]
  congr 2
  · funext j
    congr 2
    rw [partitionSum_eq, partitionSum_eq]
    exact Equiv.sum_comp σ (fun i => if searchsortedLeft c.inducing (X i) = j then (backProjectNats
      (fun t a => (localGradients c.likelihood ((fx t).1 a) ((fx t).2 a) (Y t a)).1)
      (fun t a => (localGradients c.likelihood ((fx t).1 a) ((fx t).2 a) (Y t a)).2)
      (fun t => c.kernel.emission (X t) * P t)).1 i else 0)
  · funext j
    congr 2
    rw [partitionSum_eq, partitionSum_eq]
    exact Equiv.sum_comp σ (fun i => if searchsortedLeft c.inducing (X i) = j then (backProjectNats
      (fun t a => (localGradients c.likelihood ((fx t).1 a) ((fx t).2 a) (Y t a)).1)
      (fun t a => (localGradients c.likelihood ((fx t).1 a) ((fx t).2 a) (Y t a)).2)
      (fun t => c.kernel.emission (X t) * P t)).2 i else 0)

/-- C36: the hypotheses hold of every model that the constructor and any history of successful updates, on any
minibatches, can produce. -/
theorem C36_reachable {c : SparseCVI n d} {k} (h : c.Valid k) {X : Fin p → ℝ} {Y : Fin p → Vec 1} {c'}
    (hu : c.updateSites X Y = .ok c') : c'.Valid k := by
  unfold SparseCVI.updateSites at hu
  simp only [bind, Except.bind, pure, Except.pure] at hu
  split at hu
  · cases hu
  split at hu
  · cases hu
  split at hu
  · cases hu
  cases hu
  refine ⟨h.builds, h.noise, h.jitter, h.times, h.lower, h.upper, h.two, fun j => ?_⟩
  have hs := h.symm j
  dsimp only
  rw [transpose_add, transpose_smul, transpose_smul, hs, partitionSum_eq, transpose_sum]
  congr 2
  refine Finset.sum_congr rfl fun i _ => ?_
  split_ifs
  · ext a b
    simp only [backProjectNats, transpose_apply, of_apply]
    exact Finset.sum_congr rfl fun _ _ => by ring
  · rfl

/-- C36: the constructor: zero sites, so that `dist_q` is the prior. -/
theorem C36_init {z : Fin (n + 1) → ℝ} {K : Stationary 1 d} {k} (hK : Builds K k)
    (hN : NoiseTag K true) (hj : K.jitter = 0) (ht : StrictMono z) (h0 : -10000000000 < z 0)
    (h1 : z (Fin.last n) ≤ 10000000000) (hn : 0 < n) (lik : ScalarLikelihood) (m : Option (ℝ → Vec 1)) (r : ℝ) :
    (SparseCVI.init K z lik m r).Valid k ∧ ∃ s q, (SparseCVI.init K z lik m r).distP = .ok s ∧
      (SparseCVI.init K z lik m r).distQ = .ok q ∧ q.law = s.law := by
  have hv : (SparseCVI.init K z lik m r).Valid k := ⟨hK, hN, hj, ht, h0, h1, hn, fun _ => transpose_zero⟩
  obtain ⟨s, hs, hnd, hq1, hq2, -⟩ := C36_dist_q hv
  obtain ⟨q, hq⟩ := hq2 fun j v => by
    show v ⬝ᵥ ((0 : Matrix _ _ ℝ) *ᵥ v) ≤ 0
    simp
  refine ⟨hv, s, q, hs, hq, ?_⟩
  have hb := (hq1 q hq).2
  have hp : IsProbabilityMeasure s.law := by rw [SSM.law_eq_gauss]; infer_instance
  have hz : (fun x : Ix n d → ℝ => pairSiteLogLik (SparseCVI.init K z lik m r).nat1 (SparseCVI.init K z lik m r).nat2
      (unstk x)) = fun _ => 0 := by
    funext x
    simp [pairSiteLogLik, SparseCVI.init]
  rw [hz] at hb
  rw [hb.2.2]
  simp [evidence]

/-! ### the objective -/

/-- The sparse variational model with `q` in place of the sites. -/
def SparseCVI.toSVGP (c : SparseCVI n d) (q : SSM n d) : SVGP n 1 d :=
  ⟨c.kernel, c.likelihood, c.inducing, fun _ => 0, none, q⟩

/-- C36: `classic_elbo` is the objective of the sparse variational model (C35) with `q = dist_q` (mean function zero),
so for data between the first and last inducing point it is `log p(y) - KL(q-process ‖ posterior)`. -/
theorem C36_classic_elbo {c : SparseCVI n d} {k} (h : c.Valid k) (hlik : ExactLikelihood c.likelihood) {q}
    (hq : c.distQ = .ok q) {X : Fin p → ℝ} (hp : 0 < p)
    (h0 : ∀ j, c.inducing 0 ≤ X j) (h1 : ∀ j, X j ≤ c.inducing (Fin.last n)) (Y : Fin p → Vec 1) :
    ∃ (e : ℝ) (ν : Measure _), c.classicElbo X Y = .ok e ∧ c.loss X Y = .ok (-e) ∧ (c.toSVGP q).elbo X Y = .ok e ∧
      IsPredictive (priorLaw c.kernel c.inducing X) q.law ν ∧
      ∀ post, IsBayesPosterior (priorLaw c.kernel c.inducing X)
          (fun x => outputLogLik c.likelihood Y (latentAt c.kernel (fun _ => 0) X x.2)) post →
        klDiv ν post ≠ ⊤ ∧
        Real.log (evidence (gpLaw (fun _ => 0) k X) (outputLogLik c.likelihood Y)).toReal =
          e + (klDiv ν post).toReal := by
  obtain ⟨s, hs, hnd, hq1, -⟩ := C36_dist_q h
  have hv : (c.toSVGP q).Valid k :=
    ⟨h.builds, h.noise, h.jitter, h.times, h.lower, h.upper, h.two, (hq1 q hq).1⟩
  obtain ⟨e, ν, he, -, hν, hb⟩ := C35_bound hv hlik hp (.inl rfl) h0 h1 Y
  have hc : c.classicElbo X Y = .ok e := by
    rw [← he]
    unfold SparseCVI.classicElbo SparseCVI.posterior SVGP.elbo
    rw [hq]
    simp only [bind, Except.bind, pure, Except.pure, SparseCVI.toSVGP, SVGP.posterior, mul_one]
    rfl
  refine ⟨e, ν, hc, by unfold SparseCVI.loss; rw [hc]; rfl, he, hν, fun post hp => ?_⟩
  obtain ⟨h2, h3, -⟩ := hb post hp
  exact ⟨h2, h3⟩


/-! ### Gaussian likelihoods -/

/-- `Σ_i y_i/σ² z_i - z_i²/(2σ²)` with `z_i` the conditional mean of `f(x_i)` given its neighbours. -/
theorem gauss_sites {z : Fin (n + 1) → ℝ} (hz : Monotone z) (X : Fin p → ℝ) (y : Fin p → ℝ) (σ2 : ℝ)
    (W : Fin p → Fin d ⊕ Fin d → ℝ) {θ₁ : Fin (n + 2) → Fin d ⊕ Fin d → ℝ}
    {θ₂ : Fin (n + 2) → Matrix (Fin d ⊕ Fin d) (Fin d ⊕ Fin d) ℝ}
    (h₁ : ∀ j, θ₁ j = partitionSum (fun i => searchsortedLeft z (X i)) (fun i => (y i / σ2) • W i) j)
    (h₂ : ∀ j, θ₂ j = partitionSum (fun i => searchsortedLeft z (X i)) (fun i => (-1 / (2 * σ2)) • vecMulVec (W i) (W i)) j)
    (u : Fin (n + 1) → Vec d) :
    pairSiteLogLik θ₁ θ₂ u = ∑ i, (y i / σ2 * (W i ⬝ᵥ neighbours u (searchsortedLeft z (X i))) +
      -1 / (2 * σ2) * (W i ⬝ᵥ neighbours u (searchsortedLeft z (X i))) ^ 2) := by
  unfold pairSiteLogLik
  have e : ∀ j, θ₁ j ⬝ᵥ neighbours u j + neighbours u j ⬝ᵥ (θ₂ j *ᵥ neighbours u j) =
      ∑ i, if searchsortedLeft z (X i) = j then (y i / σ2 * (W i ⬝ᵥ neighbours u j) +
        -1 / (2 * σ2) * (W i ⬝ᵥ neighbours u j) ^ 2) else 0 := by
    intro j
    rw [h₁, h₂, partitionSum_eq, partitionSum_eq, sum_dotProduct, sum_mulVec, dotProduct_sum, ← Finset.sum_add_distrib]
    refine Finset.sum_congr rfl fun i _ => ?_
    split_ifs
    · rw [smul_dotProduct, smul_mulVec, dotProduct_smul, vecMulVec_mulVec]
      simp only [smul_eq_mul, MulOpposite.smul_eq_mul_unop, MulOpposite.unop_op, dotProduct_smul]
      rw [dotProduct_comm (neighbours u j)]
      ring
    · simp
  simp only [e]
  rw [Finset.sum_comm]
  exact Finset.sum_congr rfl fun i _ => by rw [Finset.sum_ite_eq]; simp

/-- C36: with a Gaussian likelihood and learning rate one, a single update, from any sites that have a `dist_q`, reaches
the best variational distribution: every non-degenerate `q₂` over the inducing states has the objective of the new
`dist_q` minus `KL(q₂ ‖ dist_q)`. -/
theorem C36_gaussian_optimal {c : SparseCVI n d} {k} (h : c.Valid k) {q} (hq : c.distQ = .ok q) {σ2 : ℝ} (hσ : 0 < σ2)
    (hlik : c.likelihood = gaussianLikelihood σ2) (hr : c.learningRate = 1) {X : Fin p → ℝ}
    (h0 : ∀ j, -10000000000 < X j) (h1 : ∀ j, X j ≤ 10000000000) (Y : Fin p → Vec 1) :
    ∃ (c' : SparseCVI n d) (q' : SSM n d) (e' : ℝ), c.updateSites X Y = .ok c' ∧ c'.distQ = .ok q' ∧
      c'.classicElbo X Y = .ok e' ∧
      ∀ q₂ : SSM n d, q₂.Nondegenerate → ∃ e₂, (c.toSVGP q₂).elbo X Y = .ok e₂ ∧
        klDiv q₂.law q'.law ≠ ⊤ ∧ e₂ = e' - (klDiv q₂.law q'.law).toReal := by
  obtain ⟨c', post, fx, P, T, hu, hpost, hf, hst, hc', hW⟩ := C36_update h hq h0 h1 Y
  have hW := hW (projW c.kernel X P) (fun _ => rfl) _ (fun _ => rfl)
  simp only [hlik, localGradients_gaussian hσ.ne', hr, sub_self, zero_smul, zero_add, one_smul] at hW
  have hv' := C36_reachable h hu
  obtain ⟨s, hs, hnd, hq1, hq2, -⟩ := C36_dist_q hv'
  obtain ⟨hco, -, -⟩ := Builds.good h.builds
  set θ₁ := c'.nat1
  set θ₂ := c'.nat2
  have hθ : ∀ u : Fin (n + 1) → Vec d, pairSiteLogLik θ₁ θ₂ u =
      ∑ i, (Y i 0 / σ2 * (projW c.kernel X P i ⬝ᵥ neighbours u (searchsortedLeft c.inducing (X i))) +
      -1 / (2 * σ2) * (projW c.kernel X P i ⬝ᵥ neighbours u (searchsortedLeft c.inducing (X i))) ^ 2) := by
    refine gauss_sites h.times.monotone X (fun i => Y i 0) σ2 _ (fun j => ?_) (fun j => ?_)
    · rw [(hW j).1, partitionSum_eq, Finset.sum_filter]
      refine Finset.sum_congr rfl fun i _ => ?_
      by_cases hi : InInterval c.inducing j (X i)
      · rw [if_pos hi, if_pos ((inInterval_iff h.times.monotone _ _).2 hi)]
      · rw [if_neg hi, if_neg fun hc => hi ((inInterval_iff h.times.monotone _ _).1 hc)]
    · rw [(hW j).2, partitionSum_eq, Finset.sum_filter]
      refine Finset.sum_congr rfl fun i _ => ?_
      by_cases hi : InInterval c.inducing j (X i)
      · rw [if_pos hi, if_pos ((inInterval_iff h.times.monotone _ _).2 hi)]
      · rw [if_neg hi, if_neg fun hc => hi ((inInterval_iff h.times.monotone _ _).1 hc)]
  obtain ⟨q', hq'⟩ := hq2 fun j v => by
    show v ⬝ᵥ (θ₂ j *ᵥ v) ≤ 0
    rw [(hW j).2, sum_mulVec, dotProduct_sum]
    refine Finset.sum_nonpos fun i _ => ?_
    rw [smul_mulVec, dotProduct_smul, vecMulVec_mulVec]
    simp only [smul_eq_mul, MulOpposite.smul_eq_mul_unop, MulOpposite.unop_op, dotProduct_smul]
    rw [dotProduct_comm v]
    have : -1 / (2 * σ2) ≤ 0 := div_nonpos_of_nonpos_of_nonneg (by norm_num) (by positivity)
    nlinarith [mul_self_nonneg (projW c.kernel X P i ⬝ᵥ v)]
  obtain ⟨hq'n, hb⟩ := hq1 q' hq'
  have hps : IsProbabilityMeasure s.law := by rw [SSM.law_eq_gauss]; infer_instance
  have hmθ : Measurable fun x : Ix n d → ℝ => pairSiteLogLik θ₁ θ₂ (unstk x) := by
    simp only [hθ]
    refine Finset.measurable_sum _ fun i _ => ?_
    have := measurable_neighbours (projW c.kernel X P i) (searchsortedLeft c.inducing (X i))
    fun_prop
  have hkp : c'.kernel = c.kernel ∧ c'.inducing = c.inducing ∧ c'.likelihood = c.likelihood := by
    rw [hc']; exact ⟨rfl, rfl, rfl⟩
  have hs' : c.kernel.stateSpaceModel c.inducing = .ok s := by
    have := hs; unfold SparseCVI.distP at this; rw [hkp.1, hkp.2.1] at this; exact this
  set cst : ℝ := ∑ i, (-(1 / 2) * Real.log (2 * Real.pi) - 1 / 2 * Real.log σ2 - Y i 0 ^ 2 / (2 * σ2) -
    restVar c.kernel c.inducing X P T i / (2 * σ2)) with hcst
  -- the objective of any q₂
  have key : ∀ q₂ : SSM n d, q₂.Nondegenerate → ∃ e₂, (c.toSVGP q₂).elbo X Y = .ok e₂ ∧ klDiv q₂.law q'.law ≠ ⊤ ∧
      e₂ = cst + Real.log (evidence s.law fun x => pairSiteLogLik θ₁ θ₂ (unstk x)).toReal -
        (klDiv q₂.law q'.law).toReal := by
    intro q₂ hq₂
    have hp2 : IsProbabilityMeasure q₂.law := by rw [SSM.law_eq_gauss]; infer_instance
    obtain ⟨r, hr⟩ := C22_succeeds (c := (⟨q₂, c.kernel, c.inducing, fun _ => 0⟩ : CondProcess n 1 d)) h.builds h.noise
      hq₂ h.two h.times.monotone h0 h1
    obtain ⟨f, _, hf, -, -⟩ := (C45_formulas hr 0).2
    obtain ⟨kl, hkl, hkl', hkl0, -⟩ := C13_kl_divergence q₂ s hq₂ hnd h.two hco.pos
    have hkl' : klDiv q₂.law s.law = ENNReal.ofReal kl := hkl'
    have hlaw := fun i => neighbours_law q₂ (projW c.kernel X P i) (searchsortedLeft c.inducing (X i))
    have hpp := fun i => pair_predict h.builds hq₂ h.two hst hf i
    have hmn := fun i => measurable_neighbours (n := n) (projW c.kernel X P i) (searchsortedLeft c.inducing (X i))
    have hI1 : ∀ i, Integrable (fun x : Ix n d → ℝ =>
        projW c.kernel X P i ⬝ᵥ neighbours (unstk x) (searchsortedLeft c.inducing (X i))) q₂.law := fun i => by
      have := integrable_id_gaussianReal (projW c.kernel X P i ⬝ᵥ neighbours q₂.mus (searchsortedLeft c.inducing (X i)))
        (projW c.kernel X P i ⬝ᵥ ((pickMat (nbIdx d (searchsortedLeft c.inducing (X i))) * q₂.Kd *
          (pickMat (nbIdx d (searchsortedLeft c.inducing (X i))))ᵀ) *ᵥ projW c.kernel X P i)).toNNReal
      rw [← (hlaw i).2] at this
      exact this.comp_measurable (hmn i)
    have hI2 : ∀ i, Integrable (fun x : Ix n d → ℝ =>
        (projW c.kernel X P i ⬝ᵥ neighbours (unstk x) (searchsortedLeft c.inducing (X i))) ^ 2) q₂.law := fun i => by
      have := integrable_sq_gaussianReal (projW c.kernel X P i ⬝ᵥ neighbours q₂.mus (searchsortedLeft c.inducing (X i)))
        (projW c.kernel X P i ⬝ᵥ ((pickMat (nbIdx d (searchsortedLeft c.inducing (X i))) * q₂.Kd *
          (pickMat (nbIdx d (searchsortedLeft c.inducing (X i))))ᵀ) *ᵥ projW c.kernel X P i)).toNNReal
      rw [← (hlaw i).2] at this
      exact this.comp_measurable (hmn i)
    have hint : Integrable (fun x : Ix n d → ℝ => pairSiteLogLik θ₁ θ₂ (unstk x)) q₂.law := by
      simp only [hθ]
      exact integrable_finsetSum _ fun i _ => ((hI1 i).const_mul _).add ((hI2 i).const_mul _)
    have hsumI : ∀ i ∈ Finset.univ, Integrable (fun x : Ix n d → ℝ => Y i 0 / σ2 *
        (projW c.kernel X P i ⬝ᵥ neighbours (unstk x) (searchsortedLeft c.inducing (X i))) + -1 / (2 * σ2) *
        (projW c.kernel X P i ⬝ᵥ neighbours (unstk x) (searchsortedLeft c.inducing (X i))) ^ 2) q₂.law := fun i _ =>
      ((hI1 i).const_mul _).add ((hI2 i).const_mul _)
    have hve : ∑ i, c.likelihood.varExps (f i).1 (f i).2 (Y i) =
        cst + ∫ x, pairSiteLogLik θ₁ θ₂ (unstk x) ∂q₂.law := by
      simp only [hθ]
      rw [integral_finsetSum _ hsumI, hcst, ← Finset.sum_add_distrib]
      refine Finset.sum_congr rfl fun i _ => ?_
      rw [integral_add ((hI1 i).const_mul _) ((hI2 i).const_mul _), integral_const_mul, integral_const_mul]
      have i1 := integral_map (μ := q₂.law) (hmn i).aemeasurable (f := fun x : ℝ => x)
        measurable_id.aestronglyMeasurable
      have i2 := integral_map (μ := q₂.law) (hmn i).aemeasurable (f := fun x : ℝ => x ^ 2)
        (measurable_id.pow_const 2).aestronglyMeasurable
      rw [(hlaw i).2] at i1 i2
      rw [integral_id_gaussianReal] at i1
      rw [integral_sq_gaussianReal, Real.coe_toNNReal _ (hlaw i).1] at i2
      rw [← i1, ← i2]
      unfold ScalarLikelihood.varExps
      rw [Fin.sum_univ_one, (hpp i).1, (hpp i).2, hlik]
      simp only [gaussianLikelihood]
      field_simp
      ring
    obtain ⟨h2, h3⟩ := elbo_identity hmθ hb (by rw [hkl']; exact ENNReal.ofReal_ne_top) hint
    refine ⟨(cst + ∫ x, pairSiteLogLik θ₁ θ₂ (unstk x) ∂q₂.law) - kl, ?_, h2, ?_⟩
    · unfold SVGP.elbo SVGP.posterior SVGP.distP
      simp only [SparseCVI.toSVGP]
      rw [hf, hs']
      simp only [bind, Except.bind, pure, Except.pure, hkl, mul_one, hve]
    · rw [h3, hkl', ENNReal.toReal_ofReal hkl0]
      ring
  obtain ⟨e', he', -, hee⟩ := key q' hq'n
  have hpq' : IsProbabilityMeasure q'.law := by rw [SSM.law_eq_gauss]; infer_instance
  rw [klDiv_self, ENNReal.toReal_zero, sub_zero] at hee
  refine ⟨c', q', e', hu, hq', ?_, fun q₂ hq₂ => ?_⟩
  · rw [← he']
    unfold SparseCVI.classicElbo SparseCVI.posterior SVGP.elbo SparseCVI.distP SVGP.distP
    rw [hq', hkp.1, hkp.2.1, hkp.2.2]
    simp only [bind, Except.bind, pure, Except.pure, SparseCVI.toSVGP, SVGP.posterior, mul_one]
  · obtain ⟨e₂, he₂, h2, h3⟩ := key q₂ hq₂
    exact ⟨e₂, he₂, h2, by rw [h3, hee]⟩

/-- C36, finding: the mean function passed to the constructor is never used. -/
theorem C36_mean_function_ignored (c : SparseCVI n d) (m : ℝ → Vec 1) (X : Fin p → ℝ) (Y : Fin p → Vec 1) :
    ({ c with meanFunction := m } : SparseCVI n d).distQ = c.distQ ∧
    ({ c with meanFunction := m } : SparseCVI n d).posterior = c.posterior ∧
    ({ c with meanFunction := m } : SparseCVI n d).classicElbo X Y = c.classicElbo X Y ∧
    ({ c with meanFunction := m } : SparseCVI n d).updateSites X Y =
      (c.updateSites X Y).map (fun c' => { c' with meanFunction := m }) := by
  refine ⟨rfl, rfl, rfl, ?_⟩
  unfold SparseCVI.updateSites
  have e : ({ c with meanFunction := m } : SparseCVI n d).posterior = c.posterior := rfl
  rw [e]
  simp only [bind, Except.bind, pure, Except.pure]
  cases c.posterior with
  | error e => rfl
  | ok post =>
    simp only
    cases post.predictFDiag X with
    | error e => rfl
    | ok f =>
      simp only
      cases conditionalStatistics approxInf X c.inducing c.kernel.trans with
      | error e => rfl
      | ok f => rfl

/-- Non-vacuity: Matérn 3/2 kernel, three inducing points, four data in unsorted order, two in the same interval and one
beyond the last inducing point. -/
example : ∃ (c : SparseCVI 2 2) (k : ℝ → ℝ → Mat 1 1) (q : SSM 2 2) (X : Fin 4 → ℝ), c.Valid k ∧ c.distQ = .ok q ∧
    c.likelihood = gaussianLikelihood 2 ∧ c.learningRate = 1 ∧ (∀ j, -10000000000 < X j) ∧ (∀ j, X j ≤ 10000000000) ∧
    InInterval c.inducing 1 (X 0) ∧ InInterval c.inducing 1 (X 2) ∧ InInterval c.inducing 3 (X 1) := by
  obtain ⟨K, hK⟩ := (C28_constructors (o := 1) 2 3 1 1 1 0).2.1.2 (by norm_num)
  obtain ⟨hv, s, q, -, hq, -⟩ := C36_init (z := ![0, 1, 3]) (.leaf (.matern32 hK)) (.matern32 hK)
    (by rw [(kernelInit_ok hK).2.2]; rfl)
    (Fin.strictMono_iff_lt_succ.2 fun i => by fin_cases i <;> simp)
    (by show -10000000000 < (0 : ℝ); norm_num) (by show (3 : ℝ) ≤ 10000000000; norm_num) (by norm_num)
    (gaussianLikelihood 2) none 1
  refine ⟨_, _, q, ![1, 4, 1 / 2, 2], hv, hq, rfl, rfl, fun j => ?_, fun j => ?_, ?_, ?_, ?_⟩
  · fin_cases j <;> simp <;> norm_num
  · fin_cases j <;> simp <;> norm_num
  all_goals
    constructor
    · intro i hi
      fin_cases i <;> simp [SparseCVI.init, Fin.lt_def] at hi ⊢ <;> norm_num
    · intro i hi
      fin_cases i <;> simp [SparseCVI.init, Fin.le_def] at hi ⊢ <;> norm_num

end MF
