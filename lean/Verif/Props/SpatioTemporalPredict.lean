import Verif.Props.SpatioTemporal
import Verif.Lemmas.PEP

/-!
# C43: the models of `spatio_temporal_variational.py`: prior, predictions

`stPrior K ks Z k z X` (`Lemmas/SpatioTemporal`): the prior law of the states of the `M` copies of the temporal kernel at
the inducing times and of the values `f(x_i, t_i)`; `C43_prior` says that this is the spatio-temporal Gaussian process.
-/

namespace MF
open Matrix Spec MeasureTheory ProbabilityTheory InformationTheory
variable {n d p M N : ℕ} {S : Type}

/-- The hypotheses on a model: the spatial kernel is a covariance function, the temporal kernel a one-output kernel
expression with noise throughout and positive variance, the kernel was built from them, the inducing times are strictly
increasing, at least two, and within `±1e10`. -/
structure STValid (ks : S → S → ℝ) (kt : Stationary 1 d) (k : ℝ → ℝ → Mat 1 1) (Z : Fin M → S)
    (K : Stationary M (stDim M kt)) (z : Fin (n + 1) → ℝ) : Prop where
  space : IsCovariance ks
  builds : Builds kt k
  noise : NoiseTag kt true
  var : ∀ t, 0 < k t t 0 0
  kernel : sparseSpatioTemporalKernel ks kt Z = .ok K
  times : StrictMono z
  lower : -10000000000 < z 0
  upper : z (Fin.last n) ≤ 10000000000
  two : 0 < n

/-! ### the kernel and the prior -/

/-- C43: `SparseSpatioTemporalKernel` can be used exactly if there is an inducing point and the spatial covariance matrix
of the inducing points is positive definite; its outputs are then the values at the inducing points of the Gaussian
process with covariance `kₛ(x, x') kₜ(t, t')`. -/
theorem C43_kernel {ks : S → S → ℝ} (hks : IsCovariance ks) {kt : Stationary 1 d} {k} (hkt : Builds kt k)
    (Z : Fin M → S) :
    ((∃ K, sparseSpatioTemporalKernel ks kt Z = .ok K) ↔
      0 < M ∧ (Matrix.of fun a b => ks (Z a) (Z b)).PosDef) ∧
    ∀ K, sparseSpatioTemporalKernel ks kt Z = .ok K → ∀ (ts : Fin (n + 1) → ℝ) (s : SSM n (stDim M kt)),
      K.stateSpaceModel ts = .ok s →
      outputLaw s.mu0 s.cholP0 s.A s.b s.cholQ (fun i => K.emission (ts i)) =
        stLaw (fun _ => 0) ks (fun t t' => k t t' 0 0) (fun i : Fin (n + 1) × Fin M => (Z i.2, ts i.1)) := by
  refine ⟨⟨fun ⟨K, hK⟩ => ?_, fun ⟨hM, hpd⟩ => stKernel_succeeds kt hpd hM⟩, fun K hK ts s hs => ?_⟩
  · obtain ⟨-, -, -, hpd, hM⟩ := stKernel_builds hkt (crossGram_symm hks Z) hK
    exact ⟨hM, hpd⟩
  · obtain ⟨hB, hj, -, hpd, hM⟩ := stKernel_builds hkt (crossGram_symm hks Z) hK
    rw [C28_output_law hB hj hs]
    unfold gpLaw stLaw
    congr 1
    ext i j
    simp [crossGram, mul_comm]

/-- C43: the prior of the model. The states have the law of `dist_p`; the outputs of the kernel at the inducing times,
which are the values at the inducing points, and the values at the inputs are jointly a Gaussian process with covariance
`kₛ(x, x') kₜ(t, t')`. -/
theorem C43_prior {ks : S → S → ℝ} (hks : IsCovariance ks) {Z : Fin M → S} {kt : Stationary 1 d} {k}
    (hkt : Builds kt k) {K} (hK : sparseSpatioTemporalKernel ks kt Z = .ok K) (z : Fin (n + 1) → ℝ)
    (X : Fin p → S × ℝ) :
    (∀ s, K.stateSpaceModel z = .ok s →
      (stPrior K ks Z (fun t t' => k t t' 0 0) z X).map Prod.fst = s.law) ∧
    (stPrior K ks Z (fun t t' => k t t' 0 0) z X).map (fun w => Sum.elim
        (fun i : Fin (n + 1) × Fin M => (K.emission (z i.1) *ᵥ fun a => w.1 (i.1, a)) i.2) w.2) =
      stLaw (fun _ => 0) ks (fun t t' => k t t' 0 0) (Sum.elim (fun i => (Z i.2, z i.1)) X) := by
  refine ⟨fun s hs => ?_, stPrior_law hks hkt hK z X⟩
  obtain ⟨hB, hj, -, hpd, hM⟩ := stKernel_builds hkt (crossGram_symm hks Z) hK
  rw [(C23_prior_is_kernel hB hj hs fun i => (X i).2).1]
  unfold stPrior
  exact map_fst_extend _ (measurable_stValues K ks Z X)

/-! ### predictions -/

theorem STValid.kernel_good {ks : S → S → ℝ} {kt : Stationary 1 d} {k} {Z : Fin M → S} {K} {z : Fin (n + 1) → ℝ}
    (h : STValid ks kt k Z K z) : Builds K (fun t t' => k t t' 0 0 • crossGram ks Z Z) ∧ K.jitter = 0 ∧
      NoiseTag K true ∧ (crossGram ks Z Z).PosDef ∧ 0 < M := by
  obtain ⟨hB, hj, hN, hpd, hM⟩ := stKernel_builds h.builds (crossGram_symm h.space Z) h.kernel
  exact ⟨hB, hj, hN _ h.noise, hpd, hM⟩

/-- The predicted outputs have positive definite covariances: the predictive law is absolutely continuous with respect to
the prior. -/
theorem output_posDef {ks : S → S → ℝ} {kt : Stationary 1 d} {k} {Z : Fin M → S} {K} {z : Fin (n + 1) → ℝ}
    (h : STValid ks kt k Z K z) {q : SSM n (stDim M kt)} (hq : q.Nondegenerate) {ts : Fin p → ℝ} {ν}
    (hν : IsPredictive (priorLaw K z ts) q.law ν) (j : Fin p) {m : Vec (stDim M kt)} {C : Mat (stDim M kt) (stDim M kt)}
    (hC : C.PosSemidef) (hm : ν.map (fun x => fun a => x.2 (j, a)) = gaussLaw m C) :
    (K.emission (ts j) * C * (K.emission (ts j))ᵀ).PosDef := by
  obtain ⟨hB, hj, hN, hpd, hM⟩ := h.kernel_good
  obtain ⟨hc, -, -⟩ := Builds.good hB
  obtain ⟨s, hs, hnd⟩ := kernel_ssm_nondegenerate hB hN h.two h.times
  obtain ⟨kl, -, hkl', -⟩ := C13_kl_divergence q s hq hnd h.two hc.pos
  have hpq : IsProbabilityMeasure q.law := by rw [SSM.law_eq_gauss]; infer_instance
  obtain ⟨hprob, hkν⟩ := klDiv_predictive (q := q.law) hν
  have hne : klDiv ν (priorLaw K z ts) ≠ ⊤ := by
    rw [hkν, ← (C23_prior_is_kernel hB hj hs ts).1, show klDiv q.law s.law = _ from hkl']
    exact ENNReal.ofReal_ne_top
  have hac : ν ≪ priorLaw K z ts := (klDiv_ne_top_iff.1 hne).1
  set E := K.emission (ts j) with hE
  have hpsd := posSemidef_conj' hC E
  refine Matrix.PosDef.of_dotProduct_mulVec_pos hpsd.1 fun {w} hw => ?_
  have hstar : ∀ w : Vec M, star w = w := fun w => by funext i; simp
  rw [hstar]
  obtain ⟨hnn, hlaw⟩ := gaussLaw_dot hpsd (E *ᵥ m) w
  rcases hnn.lt_or_eq with hlt | heq
  · exact hlt
  exfalso
  set F : (Fin (n + 1) × Fin (stDim M kt) → ℝ) × (Fin p × Fin (stDim M kt) → ℝ) → ℝ :=
    fun x => w ⬝ᵥ (E *ᵥ fun a => x.2 (j, a)) with hF
  have hmF : Measurable F := by
    rw [hF]
    simp only [dotProduct, mulVec]
    fun_prop
  have hmw : Measurable fun y : Vec M => w ⬝ᵥ y := by
    simp only [dotProduct]; fun_prop
  have hmE : Measurable fun y : Vec (stDim M kt) => E *ᵥ y := measurable_mulVec' E measurable_id
  have hms : Measurable fun x : (Fin (n + 1) × Fin (stDim M kt) → ℝ) × (Fin p × Fin (stDim M kt) → ℝ) =>
      fun a => x.2 (j, a) := by fun_prop
  have h1 : ν.map F = Measure.dirac (w ⬝ᵥ (E *ᵥ m)) := by
    rw [show F = (fun y => w ⬝ᵥ y) ∘ (fun y => E *ᵥ y) ∘ fun x => fun a => x.2 (j, a) from rfl,
      ← Measure.map_map hmw (hmE.comp hms), ← Measure.map_map hmE hms, hm]
    have := gaussLaw_map_affine hC m 0 E
    simp only [zero_add] at this
    rw [this, hlaw, ← heq]
    simp
  have h2 : (priorLaw K z ts).map F = gaussianReal 0 (w ⬝ᵥ ((k (ts j) (ts j) 0 0 • crossGram ks Z Z) *ᵥ w)).toNNReal := by
    have hl := priorLaw_latent hB (fun _ => 0) z ts
    have hml := measurable_latentAt K (fun _ => 0) ts
    have hcomp : F = (fun y : Fin M → ℝ => w ⬝ᵥ y) ∘ (fun f : Fin p × Fin M → ℝ => f ∘ fun a => (j, a)) ∘
        latentAt K (fun _ => 0) ts ∘ Prod.snd := by
      funext x
      simp only [hF, Function.comp_apply]
      congr 1
      funext a
      simp [latentAt, hE]
    have hmc : Measurable (fun f : Fin p × Fin M → ℝ => f ∘ fun a => (j, a)) := by
      refine measurable_pi_lambda _ fun a => measurable_pi_apply _
    rw [hcomp, ← Measure.map_map hmw (hmc.comp (hml.comp measurable_snd)),
      ← Measure.map_map hmc (hml.comp measurable_snd),
      show (priorLaw K z ts).map (latentAt K (fun _ => 0) ts ∘ Prod.snd) = _ from hl]
    unfold gpLaw
    have hg := gpGram_psd hB ts
    have h3 := gaussLaw_comp hg (fun i : Fin p × Fin M => (0 : Vec M) i.2) (fun a => (j, a))
    have h4 := gaussLaw_dot (hg.submatrix fun a : Fin M => (j, a)) ((fun i : Fin p × Fin M => (0 : Vec M) i.2) ∘ fun a => (j, a)) w
    rw [show Measure.map (fun f : Fin p × Fin M → ℝ => f ∘ fun a => (j, a)) (gaussLaw (fun i : Fin p × Fin M =>
        (fun _ => (0 : Vec M)) (ts i.1) i.2) (Matrix.of fun i j : Fin p × Fin M =>
        (fun t t' => k t t' 0 0 • crossGram ks Z Z) (ts i.1) (ts j.1) i.2 j.2)) = _ from h3, h4.2]
    congr 1
    simp [dotProduct]
  have hv : 0 < w ⬝ᵥ ((k (ts j) (ts j) 0 0 • crossGram ks Z Z) *ᵥ w) := by
    rw [smul_mulVec, dotProduct_smul, smul_eq_mul]
    have := hpd.dotProduct_mulVec_pos hw
    rw [hstar] at this
    exact mul_pos (h.var _) this
  have h3 := hac.map hmF
  rw [h1, h2] at h3
  have : NullSingletonClass (gaussianReal 0 (w ⬝ᵥ ((k (ts j) (ts j) 0 0 • crossGram ks Z Z) *ᵥ w)).toNNReal) :=
    noAtoms_gaussianReal (by rw [Ne, Real.toNNReal_eq_zero]; exact not_le.2 hv)
  have h4 := h3 (measure_singleton (w ⬝ᵥ (E *ᵥ m)))
  simp at h4

/-- The predictive law of one value. -/
theorem value_law {ks : S → S → ℝ} {kt : Stationary 1 d} {k} {Z : Fin M → S} {K} {z : Fin (n + 1) → ℝ}
    (h : STValid ks kt k Z K z) {X : Fin p → S × ℝ} {ν} [IsProbabilityMeasure ν] (j : Fin p) {m : Vec (stDim M kt)}
    {C : Mat (stDim M kt) (stDim M kt)} (hC : C.PosSemidef)
    (hm : (ν : Measure ((Fin (n + 1) × Fin (stDim M kt) → ℝ) × (Fin p × Fin (stDim M kt) → ℝ))).map
      (fun x => fun a => x.2 (j, a)) = gaussLaw m C) :
    0 ≤ k (X j).2 (X j).2 0 0 * spaceResidual ks Z (X j).1 (X j).1 + spaceWeights ks Z (X j).1 ⬝ᵥ
        ((K.emission (X j).2 * C * (K.emission (X j).2)ᵀ) *ᵥ spaceWeights ks Z (X j).1) ∧
    ((ν.prod (gaussLaw 0 (stResidual ks Z (fun t t' => k t t' 0 0) X))).map
      fun w => (w.1.1, stValues K ks Z X (w.1.2, w.2))).map (fun w => w.2 j) =
    gaussianReal (spaceWeights ks Z (X j).1 ⬝ᵥ (K.emission (X j).2 *ᵥ m))
      (k (X j).2 (X j).2 0 0 * spaceResidual ks Z (X j).1 (X j).1 + spaceWeights ks Z (X j).1 ⬝ᵥ
        ((K.emission (X j).2 * C * (K.emission (X j).2)ᵀ) *ᵥ spaceWeights ks Z (X j).1)).toNNReal := by
  obtain ⟨hB, hj, hN, hpd, hM⟩ := h.kernel_good
  have hR := stResidual_psd h.space hpd h.builds X
  set R := stResidual ks Z (fun t t' => k t t' 0 0) X with hRd
  set E := K.emission (X j).2 with hE
  set w := spaceWeights ks Z (X j).1 with hw
  have hmv := measurable_stValues K ks Z X
  set P : Matrix (Fin 1) (Fin (stDim M kt)) ℝ := Matrix.of fun _ => w ᵥ* E with hP
  have hR1 : (R.submatrix (fun _ : Fin 1 => j) (fun _ : Fin 1 => j)).PosSemidef := hR.submatrix _
  have hpsd := (posSemidef_conj' hC P).add hR1
  have hval : (P * C * Pᵀ + R.submatrix (fun _ : Fin 1 => j) (fun _ : Fin 1 => j)) 0 0 =
      k (X j).2 (X j).2 0 0 * spaceResidual ks Z (X j).1 (X j).1 + w ⬝ᵥ ((E * C * Eᵀ) *ᵥ w) := by
    rw [Matrix.add_apply, add_comm]
    congr 1
    · simp [hRd, stResidual, mul_comm]
    · rw [← mulVec_mulVec, ← mulVec_mulVec, dotProduct_mulVec, Matrix.mul_assoc, Matrix.mul_apply, dotProduct,
        mulVec_transpose]
      rfl
  have h1 := gaussLaw_comp hR 0 (fun _ : Fin 1 => j)
  have hms : Measurable fun x : (Fin (n + 1) × Fin (stDim M kt) → ℝ) × (Fin p × Fin (stDim M kt) → ℝ) =>
      fun a => x.2 (j, a) := by fun_prop
  have hmr : Measurable fun x : Fin p → ℝ => x ∘ fun _ : Fin 1 => j :=
    measurable_pi_lambda _ fun _ => measurable_pi_apply _
  have h2 := Measure.map_prod_map ν (gaussLaw 0 R) hms hmr
  rw [hm, h1, show (0 : Fin p → ℝ) ∘ (fun _ : Fin 1 => j) = 0 from rfl] at h2
  have h3 := gauss_push hC hR1 m P
  rw [h2] at h3
  have hmp : Measurable fun x : Vec (stDim M kt) × (Fin 1 → ℝ) => P *ᵥ x.1 + x.2 :=
    (measurable_mulVec' P measurable_fst).add measurable_snd
  have hmf : Measurable fun w : ((Fin (n + 1) × Fin (stDim M kt) → ℝ) × (Fin p × Fin (stDim M kt) → ℝ)) × (Fin p → ℝ) =>
      (w.1.1, stValues K ks Z X (w.1.2, w.2)) := by fun_prop
  refine ⟨by rw [← hval]; exact hpsd.diag_nonneg, ?_⟩
  rw [Measure.map_map (by fun_prop) hmf]
  have hcomp : ((fun w : (Fin (n + 1) × Fin (stDim M kt) → ℝ) × (Fin p → ℝ) => w.2 j) ∘
      fun w : ((Fin (n + 1) × Fin (stDim M kt) → ℝ) × (Fin p × Fin (stDim M kt) → ℝ)) × (Fin p → ℝ) =>
        (w.1.1, stValues K ks Z X (w.1.2, w.2))) = (fun y : Fin 1 → ℝ => y 0) ∘
      (fun x : Vec (stDim M kt) × (Fin 1 → ℝ) => P *ᵥ x.1 + x.2) ∘
        Prod.map (fun x => fun a => x.2 (j, a)) (fun x => x ∘ fun _ : Fin 1 => j) := by
    funext x
    simp only [Function.comp_apply, Prod.map, stValues, Pi.add_apply]
    rw [dotProduct_mulVec]
    rfl
  rw [hcomp, ← Measure.map_map (measurable_pi_apply 0) (hmp.comp (hms.prodMap hmr)),
    ← Measure.map_map hmp (hms.prodMap hmr), h3, gaussLaw_eval hpsd, hval]
  congr 1
  rw [dotProduct_mulVec]
  rfl

/-- C43: `space_time_predict_f`, at inputs whose times lie between the first and the last inducing time, for every
non-degenerate `q`. Under the law `q(u) p(f | u)` of the spatio-temporal Gaussian process the value `f(xᵢ, tᵢ)`, with the
mean function added, is Gaussian; the returned mean is its mean. Its variance is `kₜ(t, t) r + wᵀ C w`, where `C` is the
covariance of the predicted outputs, `w` the weights of the spatial conditional mean and `r` the spatial conditional
variance; the code returns `r + |L w|²` with `L` the Cholesky factor of `C`, so the returned variance is right exactly if
`r + |L w|² = kₜ(t, t) r + |Lᵀ w|²`. -/
theorem C43_predict {ks : S → S → ℝ} {kt : Stationary 1 d} {k} {Z : Fin M → S} {K} {z : Fin (n + 1) → ℝ}
    (h : STValid ks kt k Z K z) {q : SSM n (stDim M kt)} (hq : q.Nondegenerate) (m : Option (S × ℝ → ℝ))
    {X : Fin p → S × ℝ} (h0 : ∀ j, z 0 ≤ (X j).2) (h1 : ∀ j, (X j).2 ≤ z (Fin.last n)) :
    ∃ (r : Fin p → ℝ × ℝ) (u : Fin p → Vec M × Mat M M) (L : Fin p → Mat M M) (v : Fin p → ℝ) (ν : Measure _),
      spaceTimePredictF ks Z ⟨q, K, z, fun _ => 0⟩ m X = .ok r ∧
      (⟨q, K, z, fun _ => 0⟩ : CondProcess n M (stDim M kt)).predictF (fun i => (X i).2) = .ok u ∧
      IsPredictive (stPrior K ks Z (fun t t' => k t t' 0 0) z X) q.law ν ∧ IsProbabilityMeasure ν ∧
      ∀ i, 0 ≤ v i ∧
        ν.map (fun x => x.2 i + m.getD (fun _ => 0) (X i)) = gaussianReal (r i).1 (v i).toNNReal ∧
        (u i).2.PosDef ∧ IsCholesky (u i).2 (L i) ∧
        (r i).1 = spaceWeights ks Z (X i).1 ⬝ᵥ (u i).1 + m.getD (fun _ => 0) (X i) ∧
        v i = k (X i).2 (X i).2 0 0 * spaceResidual ks Z (X i).1 (X i).1 +
          spaceWeights ks Z (X i).1 ⬝ᵥ ((u i).2 *ᵥ spaceWeights ks Z (X i).1) ∧
        (r i).2 = spaceResidual ks Z (X i).1 (X i).1 +
          (L i *ᵥ spaceWeights ks Z (X i).1) ⬝ᵥ (L i *ᵥ spaceWeights ks Z (X i).1) := by
  obtain ⟨hB, hj, hN, hpd, hM⟩ := h.kernel_good
  have hX0 : ∀ j, -10000000000 < (X j).2 := fun j => lt_of_lt_of_le h.lower (h0 j)
  have hX1 : ∀ j, (X j).2 ≤ 10000000000 := fun j => (h1 j).trans h.upper
  set c : CondProcess n M (stDim M kt) := ⟨q, K, z, fun _ => 0⟩ with hcd
  obtain ⟨r, hr⟩ := C22_succeeds (c := c) hB hN hq h.two h.times.monotone hX0 hX1
  obtain ⟨ν, hν, hmarg⟩ := C23_interior (c := c) hB hj hq h.two h.times.monotone h.lower h.upper h0 h1 hr
  have hpsd := C45_state_psd (c := c) hB hq h.two h.times.monotone hX0 hX1 hr
  obtain ⟨u, hu, huv⟩ := (C45_formulas hr 0).1
  have hpq : IsProbabilityMeasure q.law := by rw [SSM.law_eq_gauss]; infer_instance
  obtain ⟨hprob, -⟩ := klDiv_predictive (q := q.law) hν
  have hu1 : ∀ i, (u i).1 = K.emission (X i).2 *ᵥ (r i).1 := fun i => by
    rw [(huv i).1, hcd]; exact add_zero _
  have hu2 : ∀ i, (u i).2 = K.emission (X i).2 * (r i).2 * (K.emission (X i).2)ᵀ := fun i => (huv i).2
  have hpdu : ∀ i, (u i).2.PosDef := fun i => by
    rw [hu2]
    exact output_posDef h hq hν i (hpsd i) (hmarg i)
  obtain ⟨L, hL, hLc⟩ := seqFin_cholesky_ok hpdu
  obtain ⟨Lm, hLm, hLmc⟩ := tfCholesky_posDef hpd
  have hb := batch_value hLm hLmc (crossGram ks Z fun i => (X i).1) (fun i => ks (X i).1 (X i).1)
    (Matrix.of fun m i => (u i).1 m) (.full L) false
  have hpr : IsPredictive (stPrior K ks Z (fun t t' => k t t' 0 0) z X) q.law
      ((ν.prod (gaussLaw 0 (stResidual ks Z (fun t t' => k t t' 0 0) X))).map
        fun w => (w.1.1, stValues K ks Z X (w.1.2, w.2))) :=
    predictive_extend hν _ (measurable_stValues K ks Z X)
  have hKs : (crossGram ks Z Z)ᵀ = crossGram ks Z Z := crossGram_symm h.space Z
  have hw : ∀ i, baseWeights (crossGram ks Z Z) Lm false ((crossGram ks Z fun i => (X i).1).col i) =
      spaceWeights ks Z (X i).1 := fun i => rfl
  have hlaw := fun i => value_law h (X := X) i (hpsd i) (hmarg i)
  have hval : spaceTimePredictF ks Z c m X = .ok fun i =>
      (spaceWeights ks Z (X i).1 ⬝ᵥ (u i).1 + m.getD (fun _ => 0) (X i),
        spaceResidual ks Z (X i).1 (X i).1 +
          (L i *ᵥ spaceWeights ks Z (X i).1) ⬝ᵥ (L i *ᵥ spaceWeights ks Z (X i).1)) := by
    unfold spaceTimePredictF
    rw [hu]
    simp only [bind, Except.bind, pure, Except.pure, hL, hb]
    congr 1
    funext i
    refine Prod.ext ?_ ?_
    · cases m with
      | none => simp only [Option.getD_none, add_zero]; rfl
      | some m => rfl
    · simp only [hw, codeExtra, (hLc i).lower.tril_eq]
      congr 1
      unfold spaceResidual
      congr 1
      exact dotProduct_comm _ _
  refine ⟨_, u, L, fun i => k (X i).2 (X i).2 0 0 * spaceResidual ks Z (X i).1 (X i).1 +
          spaceWeights ks Z (X i).1 ⬝ᵥ ((u i).2 *ᵥ spaceWeights ks Z (X i).1), _, hval, hu, hpr,
    ?_, fun i => ⟨?_, ?_, hpdu i, hLc i, rfl, rfl, rfl⟩⟩
  · exact (klDiv_predictive (q := q.law) hpr).1
  · beta_reduce; rw [hu2]; exact (hlaw i).1
  · have hadd : (fun x : (Fin (n + 1) × Fin (stDim M kt) → ℝ) × (Fin p → ℝ) => x.2 i + m.getD (fun _ => 0) (X i)) =
        (fun y : ℝ => y + m.getD (fun _ => 0) (X i)) ∘ fun x => x.2 i := rfl
    rw [hadd, ← Measure.map_map (by fun_prop) (by fun_prop), (hlaw i).2, gaussianReal_map_add_const]
    beta_reduce
    rw [hu1, hu2]

end MF
