import Verif.Props.SpatioTemporalPredict
import Mathlib.Analysis.Complex.ExponentialBounds

/-!
# C43: `SpatioTemporalSparseVariational`: objective, constructor
-/

namespace MF
open Matrix Spec MeasureTheory ProbabilityTheory InformationTheory
variable {n d p M N : ℕ} {S : Type}

/-- The variances that `space_time_predict_f` returns are those of the model (see `C43_predict`). -/
def ExactVariances (ks : S → S → ℝ) (k : ℝ → ℝ → Mat 1 1) (Z : Fin M → S) {D : ℕ} (post : CondProcess n M D)
    (X : Fin p → S × ℝ) : Prop :=
  ∀ u (L : Fin p → Mat M M), post.predictF (fun i => (X i).2) = .ok u → (∀ i, IsCholesky (u i).2 (L i)) → ∀ i,
    spaceResidual ks Z (X i).1 (X i).1 +
        (L i *ᵥ spaceWeights ks Z (X i).1) ⬝ᵥ (L i *ᵥ spaceWeights ks Z (X i).1) =
      k (X i).2 (X i).2 0 0 * spaceResidual ks Z (X i).1 (X i).1 +
        spaceWeights ks Z (X i).1 ⬝ᵥ ((u i).2 *ᵥ spaceWeights ks Z (X i).1)

/-- C43: with one spatial inducing point and a temporal kernel of variance one the returned variances are those of the
model, for every `q` and all inputs. -/
theorem C43_predict_exact (ks : S → S → ℝ) {k : ℝ → ℝ → Mat 1 1} (hk : ∀ t, k t t 0 0 = 1) (Z : Fin 1 → S) {D : ℕ}
    (post : CondProcess n 1 D) (X : Fin p → S × ℝ) : ExactVariances ks k Z post X := by
  intro u L _ hL i
  rw [hk, one_mul, ← (hL i).mul_transpose]
  simp [dotProduct, mulVec, Matrix.mul_apply]
  ring

/-- The hypotheses on a `SpatioTemporalSparseVariational`. -/
structure STSVGP.Valid {kt : Stationary 1 d} (v : STSVGP S n M (stDim M kt)) (k : ℝ → ℝ → Mat 1 1) : Prop where
  base : STValid v.kernelSpace kt k v.inducingSpace v.kernel v.inducingTime
  distP : v.kernel.stateSpaceModel v.inducingTime = .ok v.distP
  q : v.q.Nondegenerate

/-- The factor of the data term: `num_data / minibatch_size`, or one. -/
noncomputable def stScale (numData : Option ℕ) (p : ℕ) : ℝ :=
  match numData with
  | some N => (N : ℝ) / p
  | none => 1

/-- The log likelihood of the data given the values at the inputs. -/
noncomputable def stLogLik (lik : ScalarLikelihood) (m : Option (S × ℝ → ℝ)) (X : Fin p → S × ℝ) (Y : Fin p → ℝ)
    (f : Fin p → ℝ) : ℝ := ∑ i, lik.logProb (f i + m.getD (fun _ => 0) (X i)) (Y i)

theorem measurable_stLogLik {lik : ScalarLikelihood} (hlik : ExactLikelihood lik) (m : Option (S × ℝ → ℝ))
    (X : Fin p → S × ℝ) (Y : Fin p → ℝ) : Measurable (stLogLik lik m X Y) := by
  unfold stLogLik
  refine Finset.measurable_sum _ fun i _ => ?_
  have := hlik.measurable (Y i)
  fun_prop

/-- C43: what `elbo` computes, whatever the variances: `Σ_i E_{N(mᵢ, vᵢ)} log p(yᵢ | f)` with the returned means and
variances, scaled, minus `KL(q ‖ prior)`. -/
theorem C43_elbo_value {ks : S → S → ℝ} {kt : Stationary 1 d} {k} {Z : Fin M → S} {K} {z : Fin (n + 1) → ℝ}
    (h : STValid ks kt k Z K z) {q s : SSM n (stDim M kt)} (hq : q.Nondegenerate) (hs : K.stateSpaceModel z = .ok s)
    (m : Option (S × ℝ → ℝ)) (lik : ScalarLikelihood) (num : Option ℕ) {X : Fin p → S × ℝ}
    (h0 : ∀ j, z 0 ≤ (X j).2) (h1 : ∀ j, (X j).2 ≤ z (Fin.last n)) (Y : Fin p → ℝ) :
    ∃ r kl, spaceTimePredictF ks Z ⟨q, K, z, fun _ => 0⟩ m X = .ok r ∧ klDiv q.law s.law = ENNReal.ofReal kl ∧
      0 ≤ kl ∧
      spaceTimeElbo ks Z ⟨q, K, z, fun _ => 0⟩ m lik num (.ok q) (.ok s) X Y =
        .ok (stScale num p * (∑ i, lik.varExp (r i).1 (r i).2 (Y i)) - kl) := by
  obtain ⟨hB, hj, hN, hpd, hM⟩ := h.kernel_good
  obtain ⟨hc, -, -⟩ := Builds.good hB
  obtain ⟨s', hs', hnd⟩ := kernel_ssm_nondegenerate hB hN h.two h.times
  obtain rfl : s = s' := Except.ok.inj (hs.symm.trans hs')
  obtain ⟨kl, hkl, hkl', hkl0, -⟩ := C13_kl_divergence q s hq hnd h.two hc.pos
  obtain ⟨r, u, L, v, ν, hr, hrest⟩ := C43_predict h hq m h0 h1
  refine ⟨r, kl, hr, hkl', hkl0, ?_⟩
  unfold spaceTimeElbo stScale
  rw [hr]
  simp only [bind, Except.bind, hkl, pure, Except.pure]
  cases num <;> simp only [mul_comm]

/-- C43: if the returned variances are those of the model (`C43_predict_exact`), `elbo` is the expected log likelihood
under the sparse process `q(u) p(f | u)`, scaled, minus the KL divergence between that process and the prior, which is
`KL(q ‖ prior)`. -/
theorem C43_elbo {ks : S → S → ℝ} {kt : Stationary 1 d} {k} {Z : Fin M → S} {K} {z : Fin (n + 1) → ℝ}
    (h : STValid ks kt k Z K z) {q s : SSM n (stDim M kt)} (hq : q.Nondegenerate) (hs : K.stateSpaceModel z = .ok s)
    (m : Option (S × ℝ → ℝ)) {lik : ScalarLikelihood} (hlik : ExactLikelihood lik) (num : Option ℕ) {X : Fin p → S × ℝ}
    (h0 : ∀ j, z 0 ≤ (X j).2) (h1 : ∀ j, (X j).2 ≤ z (Fin.last n)) (Y : Fin p → ℝ)
    (hex : ExactVariances ks k Z ⟨q, K, z, fun _ => 0⟩ X) :
    ∃ (kl : ℝ) (ν : Measure _), IsPredictive (stPrior K ks Z (fun t t' => k t t' 0 0) z X) q.law ν ∧
      IsProbabilityMeasure ν ∧ klDiv q.law s.law = ENNReal.ofReal kl ∧
      klDiv ν (stPrior K ks Z (fun t t' => k t t' 0 0) z X) = ENNReal.ofReal kl ∧ 0 ≤ kl ∧
      Integrable (fun x => stLogLik lik m X Y x.2) ν ∧
      spaceTimeElbo ks Z ⟨q, K, z, fun _ => 0⟩ m lik num (.ok q) (.ok s) X Y =
        .ok (stScale num p * (∫ x, stLogLik lik m X Y x.2 ∂ν) - kl) := by
  obtain ⟨r, kl, hr, hkl, hkl0, he⟩ := C43_elbo_value h hq hs m lik num h0 h1 Y
  obtain ⟨r', u, L, v, ν, hr', hu, hν, hprob, hv⟩ := C43_predict h hq m h0 h1
  obtain rfl : r = r' := Except.ok.inj (hr.symm.trans hr')
  have hpq : IsProbabilityMeasure q.law := by rw [SSM.law_eq_gauss]; infer_instance
  have hkν := (klDiv_predictive (q := q.law) hν).2
  rw [(C43_prior h.space h.builds h.kernel z X).1 s hs, hkl] at hkν
  have hvar : ∀ i, (r i).2 = v i := fun i => by
    obtain ⟨-, -, -, -, -, e1, e2⟩ := hv i
    rw [e1, e2]
    exact hex u L hu (fun i => (hv i).2.2.2.1) i
  have hmi : ∀ i, Measurable fun x : (Fin (n + 1) × Fin (stDim M kt) → ℝ) × (Fin p → ℝ) =>
      x.2 i + m.getD (fun _ => 0) (X i) := fun i => by fun_prop
  have hint : ∀ i ∈ Finset.univ, Integrable (fun x : (Fin (n + 1) × Fin (stDim M kt) → ℝ) × (Fin p → ℝ) =>
      lik.logProb (x.2 i + m.getD (fun _ => 0) (X i)) (Y i)) ν := by
    intro i _
    have := hlik.integrable (r i).1 (v i) (Y i)
    rw [← (hv i).2.1] at this
    exact this.comp_measurable (hmi i)
  refine ⟨kl, ν, hν, hprob, hkl, hkν, hkl0, integrable_finsetSum _ hint, ?_⟩
  rw [he]
  unfold stLogLik
  rw [integral_finsetSum _ hint]
  congr 4
  funext i
  rw [hvar, hlik.varExp _ _ _ (hv i).1, ← (hv i).2.1,
    integral_map (hmi i).aemeasurable (hlik.measurable _).aestronglyMeasurable]

/-- The values at the inputs under the prior. -/
theorem stPrior_values {ks : S → S → ℝ} (hks : IsCovariance ks) {Z : Fin M → S} {kt : Stationary 1 d} {k}
    (hkt : Builds kt k) {K} (hK : sparseSpatioTemporalKernel ks kt Z = .ok K) (z : Fin (n + 1) → ℝ)
    (X : Fin p → S × ℝ) :
    (stPrior K ks Z (fun t t' => k t t' 0 0) z X).map Prod.snd = stLaw (fun _ => 0) ks (fun t t' => k t t' 0 0) X := by
  have h1 := stPrior_law hks hkt hK z X
  have hm : Measurable fun w : (Fin (n + 1) × Fin (stDim M kt) → ℝ) × (Fin p → ℝ) => (Sum.elim
        (fun i : Fin (n + 1) × Fin M => (K.emission (z i.1) *ᵥ fun a => w.1 (i.1, a)) i.2) w.2 :
          (Fin (n + 1) × Fin M) ⊕ Fin p → ℝ) := by
    refine measurable_pi_lambda _ fun α => ?_
    rcases α with i | j
    · simp only [Sum.elim_inl, mulVec, dotProduct]; fun_prop
    · simp only [Sum.elim_inr]; fun_prop
  have hm' : Measurable fun x : (Fin (n + 1) × Fin M) ⊕ Fin p → ℝ => x ∘ Sum.inr :=
    measurable_pi_lambda _ fun _ => measurable_pi_apply _
  have h2 := congrArg (fun μ => μ.map fun x : (Fin (n + 1) × Fin M) ⊕ Fin p → ℝ => x ∘ Sum.inr) h1
  beta_reduce at h2
  rw [Measure.map_map hm' hm] at h2
  rw [show (Prod.snd : (Fin (n + 1) × Fin (stDim M kt) → ℝ) × (Fin p → ℝ) → _) =
    (fun x => x ∘ Sum.inr) ∘ fun w => Sum.elim
        (fun i : Fin (n + 1) × Fin M => (K.emission (z i.1) *ᵥ fun a => w.1 (i.1, a)) i.2) w.2 from rfl, h2]
  unfold stLaw
  have hpsd : (Matrix.of fun i j : (Fin (n + 1) × Fin M) ⊕ Fin p =>
      ks (Sum.elim (fun i => (Z i.2, z i.1)) X i).1 (Sum.elim (fun i => (Z i.2, z i.1)) X j).1 *
      k (Sum.elim (fun i => (Z i.2, z i.1)) X i).2 (Sum.elim (fun i => (Z i.2, z i.1)) X j).2 0 0).PosSemidef := by
    have h1 := hks _ fun i : (Fin (n + 1) × Fin M) ⊕ Fin p => (Sum.elim (fun i => (Z i.2, z i.1)) X i).1
    have h2 := (gpGram_psd hkt fun i : (Fin (n + 1) × Fin M) ⊕ Fin p => (Sum.elim (fun i => (Z i.2, z i.1)) X i).2).submatrix
      fun i => (i, (0 : Fin 1))
    exact h1.hadamard h2
  rw [gaussLaw_comp hpsd]
  rfl

/-- The evidence of the model is that of the spatio-temporal Gaussian process with the mean function. -/
theorem st_evidence {ks : S → S → ℝ} (hks : IsCovariance ks) {Z : Fin M → S} {kt : Stationary 1 d} {k}
    (hkt : Builds kt k) {K} (hK : sparseSpatioTemporalKernel ks kt Z = .ok K) (z : Fin (n + 1) → ℝ)
    (X : Fin p → S × ℝ) (m : Option (S × ℝ → ℝ)) {lik : ScalarLikelihood} (hlik : ExactLikelihood lik) (Y : Fin p → ℝ) :
    evidence (stPrior K ks Z (fun t t' => k t t' 0 0) z X) (fun x => stLogLik lik m X Y x.2) =
      evidence (stLaw (m.getD fun _ => 0) ks (fun t t' => k t t' 0 0) X) (fun f => ∑ i, lik.logProb (f i) (Y i)) := by
  have h1 : stLaw (m.getD fun _ => 0) ks (fun t t' => k t t' 0 0) X =
      ((stPrior K ks Z (fun t t' => k t t' 0 0) z X).map Prod.snd).map
        (fun f => fun i => f i + m.getD (fun _ => 0) (X i)) := by
    rw [stPrior_values hks hkt hK]
    unfold stLaw
    have hpsd : (Matrix.of fun i j : Fin p => ks (X i).1 (X j).1 * k (X i).2 (X j).2 0 0).PosSemidef :=
      (hks _ fun i => (X i).1).hadamard ((gpGram_psd hkt fun i => (X i).2).submatrix fun i => (i, (0 : Fin 1)))
    have := gaussLaw_map_affine hpsd (fun _ => 0) (fun i => m.getD (fun _ => 0) (X i)) (1 : Matrix (Fin p) (Fin p) ℝ)
    simp only [one_mulVec, Matrix.one_mul, transpose_one, Matrix.mul_one] at this
    rw [show (fun f : Fin p → ℝ => fun i => f i + m.getD (fun _ => 0) (X i)) =
      fun x => (fun i => m.getD (fun _ => 0) (X i)) + x from funext fun f => funext fun i => add_comm _ _, this]
    congr 1
    funext i
    simp
  have hma : Measurable fun f : Fin p → ℝ => fun i => f i + m.getD (fun _ => 0) (X i) := by fun_prop
  have hml : Measurable fun f : Fin p → ℝ => ENNReal.ofReal (Real.exp (∑ i, lik.logProb (f i) (Y i))) := by
    have : Measurable fun f : Fin p → ℝ => ∑ i, lik.logProb (f i) (Y i) :=
      Finset.measurable_sum _ fun i _ => (hlik.measurable (Y i)).comp (measurable_pi_apply i)
    fun_prop
  rw [h1, Measure.map_map hma measurable_snd]
  unfold evidence
  rw [lintegral_map hml (hma.comp measurable_snd)]
  rfl

/-- C43: under the same condition, on the full data, `log p(y) = elbo + KL(q-process ‖ posterior)` for the evidence of
the spatio-temporal Gaussian process; so `elbo` is a lower bound, and is attained exactly by the posterior. -/
theorem C43_bound {ks : S → S → ℝ} {kt : Stationary 1 d} {k} {Z : Fin M → S} {K} {z : Fin (n + 1) → ℝ}
    (h : STValid ks kt k Z K z) {q s : SSM n (stDim M kt)} (hq : q.Nondegenerate) (hs : K.stateSpaceModel z = .ok s)
    (m : Option (S × ℝ → ℝ)) {lik : ScalarLikelihood} (hlik : ExactLikelihood lik) {num : Option ℕ} {X : Fin p → S × ℝ}
    (hp : 0 < p) (hnum : num = none ∨ num = some p)
    (h0 : ∀ j, z 0 ≤ (X j).2) (h1 : ∀ j, (X j).2 ≤ z (Fin.last n)) (Y : Fin p → ℝ)
    (hex : ExactVariances ks k Z ⟨q, K, z, fun _ => 0⟩ X) :
    ∃ (e : ℝ) (ν : Measure _), spaceTimeElbo ks Z ⟨q, K, z, fun _ => 0⟩ m lik num (.ok q) (.ok s) X Y = .ok e ∧
      IsPredictive (stPrior K ks Z (fun t t' => k t t' 0 0) z X) q.law ν ∧
      ∀ post, IsBayesPosterior (stPrior K ks Z (fun t t' => k t t' 0 0) z X) (fun x => stLogLik lik m X Y x.2) post →
        klDiv ν post ≠ ⊤ ∧
        Real.log (evidence (stLaw (m.getD fun _ => 0) ks (fun t t' => k t t' 0 0) X)
          fun f => ∑ i, lik.logProb (f i) (Y i)).toReal = e + (klDiv ν post).toReal ∧
        (e = Real.log (evidence (stLaw (m.getD fun _ => 0) ks (fun t t' => k t t' 0 0) X)
          fun f => ∑ i, lik.logProb (f i) (Y i)).toReal ↔ ν = post) := by
  obtain ⟨kl, ν, hν, hprob, hkl, hkν, hkl0, hi, he⟩ := C43_elbo h hq hs m hlik num h0 h1 Y hex
  have hsc : stScale num p = 1 := by
    unfold stScale
    rcases hnum with hN | hN <;> rw [hN]
    exact div_self (Nat.cast_ne_zero.2 hp.ne')
  rw [hsc, one_mul] at he
  refine ⟨_, ν, he, hν, fun post hpost => ?_⟩
  have hm : Measurable fun x : (Fin (n + 1) × Fin (stDim M kt) → ℝ) × (Fin p → ℝ) => stLogLik lik m X Y x.2 :=
    (measurable_stLogLik hlik m X Y).comp measurable_snd
  obtain ⟨h2, h3⟩ := elbo_identity hm hpost (by rw [hkν]; exact ENNReal.ofReal_ne_top) hi
  rw [st_evidence h.space h.builds h.kernel z X m hlik Y, hkν, ENNReal.toReal_ofReal hkl0] at h3
  have hpp : IsProbabilityMeasure post := by
    rw [IsBayesPosterior.tilted hm hpost]
    exact isProbabilityMeasure_tilted (IsBayesPosterior.integrable_exp hm hpost)
  refine ⟨h2, h3, ?_⟩
  rw [h3, ← klDiv_eq_zero_iff]
  constructor
  · intro h4
    have h0 : (klDiv ν post).toReal = 0 := by linarith
    exact (ENNReal.toReal_eq_zero_iff _).1 h0 |>.resolve_right h2
  · intro h4
    rw [h4]; simp

/-- C43: the constructor of `SpatioTemporalSparseVariational`: it succeeds with valid arguments, the result is valid and
starts at the prior; `elbo` and `loss` are the above for the current `q`. -/
theorem C43_init {ks : S → S → ℝ} (hks : IsCovariance ks) {Z : Fin M → S} (hM : 0 < M)
    (hpd : (Matrix.of fun a b => ks (Z a) (Z b)).PosDef) {kt : Stationary 1 d} {k} (hkt : Builds kt k)
    (hN : NoiseTag kt true) (hv : ∀ t, 0 < k t t 0 0) {z : Fin (n + 1) → ℝ} (hz : StrictMono z)
    (hz0 : -10000000000 < z 0) (hz1 : z (Fin.last n) ≤ 10000000000) (hn : 0 < n) (lik : ScalarLikelihood)
    (m : Option (S × ℝ → ℝ)) (num : Option ℕ) :
    ∃ v, STSVGP.init Z z ks kt lik m num = .ok v ∧ v.Valid k ∧ v.q = v.distP ∧ v.kernelSpace = ks ∧
      v.inducingSpace = Z ∧ v.inducingTime = z ∧ v.likelihood = lik ∧ v.meanFunction = m ∧ v.numData = num := by
  obtain ⟨K, hK⟩ := stKernel_succeeds kt hpd hM
  have hvalid : STValid ks kt k Z K z := ⟨hks, hkt, hN, hv, hK, hz, hz0, hz1, hn⟩
  obtain ⟨hB, hj, hN', -, -⟩ := hvalid.kernel_good
  obtain ⟨s, hs, hnd⟩ := kernel_ssm_nondegenerate hB hN' hn hz
  have hcopy : s.createTrainableCopy = s := by
    unfold SSM.createTrainableCopy
    rw [show tril s.cholP0 = s.cholP0 from (hnd 0).1.tril_eq,
      show (fun k => tril (s.cholQ k)) = s.cholQ from funext fun k => (hnd k.succ).1.tril_eq]
  refine ⟨⟨ks, Z, K, z, lik, m, num, s, s⟩, ?_, ⟨hvalid, hs, hnd⟩, rfl, rfl, rfl, rfl, rfl, rfl, rfl⟩
  unfold STSVGP.init
  rw [hK]
  simp only [bind, Except.bind, pure, Except.pure, hs, hcopy]

/-- C43: the bound for a `SpatioTemporalSparseVariational` object. -/
theorem C43_svgp_bound {kt : Stationary 1 d} {v : STSVGP S n M (stDim M kt)} {k} (h : v.Valid k)
    (hlik : ExactLikelihood v.likelihood) {X : Fin p → S × ℝ}
    (hp : 0 < p) (hnum : v.numData = none ∨ v.numData = some p)
    (h0 : ∀ j, v.inducingTime 0 ≤ (X j).2) (h1 : ∀ j, (X j).2 ≤ v.inducingTime (Fin.last n)) (Y : Fin p → ℝ)
    (hex : ExactVariances v.kernelSpace k v.inducingSpace v.posterior X) :
    ∃ (e : ℝ) (ν : Measure _), v.elbo X Y = .ok e ∧ v.loss X Y = .ok (-e) ∧
      IsPredictive (stPrior v.kernel v.kernelSpace v.inducingSpace (fun t t' => k t t' 0 0) v.inducingTime X) v.q.law ν ∧
      ∀ post, IsBayesPosterior
          (stPrior v.kernel v.kernelSpace v.inducingSpace (fun t t' => k t t' 0 0) v.inducingTime X)
          (fun x => stLogLik v.likelihood v.meanFunction X Y x.2) post →
        klDiv ν post ≠ ⊤ ∧
        Real.log (evidence (stLaw (v.meanFunction.getD fun _ => 0) v.kernelSpace (fun t t' => k t t' 0 0) X)
          fun f => ∑ i, v.likelihood.logProb (f i) (Y i)).toReal = e + (klDiv ν post).toReal := by
  obtain ⟨e, ν, he, hν, hb⟩ := C43_bound h.base h.q h.distP v.meanFunction hlik hp hnum h0 h1 Y hex
  have he' : v.elbo X Y = .ok e := he
  refine ⟨e, ν, he', by unfold STSVGP.loss; rw [he']; rfl, hν, fun post hpost => ?_⟩
  exact ⟨(hb post hpost).1, (hb post hpost).2.1⟩

theorem gaussian_log_evidence {v σ2 : ℝ} (hv : 0 ≤ v) (hσ : 0 < σ2) (m y : ℝ) :
    Real.log (evidence (gaussianReal m v.toNNReal) fun x => (gaussianLikelihood σ2).logProb x y).toReal =
      -(1 / 2) * (Real.log (2 * Real.pi) + Real.log (v + σ2) + (y - m) ^ 2 / (v + σ2)) := by
  have hK : (v • (1 : Matrix (Fin 1) (Fin 1) ℝ)).PosSemidef := PosSemidef.one.smul hv
  have hR : (σ2 • (1 : Matrix (Fin 1) (Fin 1) ℝ)).PosDef := PosDef.one.smul hσ
  have hb := (bayes_psd hK hR 1 (fun _ => m) fun _ => y).2.2
  have hm : Measurable fun x : Fin 1 → ℝ => x 0 := measurable_pi_apply 0
  have hev := gaussLaw_eval hK (fun _ => m) 0
  simp only [Matrix.smul_apply, one_apply_eq, smul_eq_mul, mul_one] at hev
  have hlm : Measurable fun x => ENNReal.ofReal (Real.exp ((gaussianLikelihood σ2).logProb x y)) := by
    have := (gaussianLikelihood_exact σ2).measurable y
    fun_prop
  have e1 : evidence (gaussianReal m v.toNNReal)
      (fun x => (gaussianLikelihood σ2).logProb x y) = ENNReal.ofReal (Real.exp
        (gaussLogDensity (fun _ : Fin 1 => m) ((v + σ2) • (1 : Mat 1 1)) fun _ => y)) := by
    rw [← hev]
    unfold evidence at hb ⊢
    rw [lintegral_map hlm hm]
    rw [one_mulVec, Matrix.one_mul, transpose_one, Matrix.mul_one, ← add_smul] at hb
    rw [← hb]
    refine lintegral_congr fun x => ?_
    beta_reduce
    rw [one_mulVec, gaussLogDensity_iso hσ]
    simp
  rw [e1, ENNReal.toReal_ofReal (Real.exp_pos _).le, Real.log_exp, gaussLogDensity_iso (by linarith)]
  simp only [gaussianLikelihood, Finset.univ_unique, Fin.default_eq_zero, Finset.sum_const, Finset.card_singleton,
    one_smul]
  ring

/-- C43: for a Gaussian likelihood of variance `σ²`, if the returned variances are those of the model,
`predict_log_density` is `log ∫ N(y; f, σ²) ν(df)` with the predictive law of the value at the input. -/
theorem C43_predict_log_density {kt : Stationary 1 d} {v : STSVGP S n M (stDim M kt)} {k} (h : v.Valid k)
    {X : Fin p → S × ℝ} (h0 : ∀ j, v.inducingTime 0 ≤ (X j).2) (h1 : ∀ j, (X j).2 ≤ v.inducingTime (Fin.last n))
    (Y : Fin p → ℝ) (hex : ExactVariances v.kernelSpace k v.inducingSpace v.posterior X) {σ2 : ℝ} (hσ : 0 < σ2) :
    ∃ (l : Fin p → ℝ) (ν : Measure _), v.predictLogDensityGaussian σ2 X Y = .ok l ∧
      IsPredictive (stPrior v.kernel v.kernelSpace v.inducingSpace (fun t t' => k t t' 0 0) v.inducingTime X) v.q.law ν ∧
      ∀ i, l i = Real.log (evidence (ν.map fun x => x.2 i + v.meanFunction.getD (fun _ => 0) (X i))
        fun f => (gaussianLikelihood σ2).logProb f (Y i)).toReal := by
  obtain ⟨r, u, L, w, ν, hr, hu, hν, hprob, hw⟩ := C43_predict h.base h.q v.meanFunction h0 h1
  have hr' : v.predictF X = .ok r := hr
  refine ⟨_, ν, by unfold STSVGP.predictLogDensityGaussian; rw [hr']; rfl, hν, fun i => ?_⟩
  obtain ⟨e0, e1, -, -, -, e2, e3⟩ := hw i
  have : (r i).2 = w i := by rw [e2, e3]; exact hex u L hu (fun i => (hw i).2.2.2.1) i
  rw [e1, gaussian_log_evidence e0 hσ, this]

/-! ### findings and non-vacuity -/

/-- White noise in space, on two points. -/
noncomputable def whiteSpace (x y : Bool) : ℝ := if x = y then 1 else 0

theorem whiteSpace_cov : IsCovariance whiteSpace := by
  intro T _ _ x
  have := posSemidef_mul_transpose (Matrix.of fun (i : T) (b : Bool) => if x i = b then (1 : ℝ) else 0)
  convert this using 1
  ext i j
  rw [Matrix.mul_apply, Fintype.sum_bool]
  simp only [of_apply, transpose_apply, whiteSpace]
  cases x i <;> cases x j <;> simp

/-- A model over two points in space, one of them the inducing point, with a Matérn 1/2 temporal kernel of variance `a`
and a Gaussian likelihood, as built by the constructor. -/
theorem st_example (a : ℝ) (ha : 0 < a) : ∃ (kt : Stationary 1 1) (k : ℝ → ℝ → Mat 1 1)
    (v : STSVGP Bool 1 1 (stDim 1 kt)), STSVGP.init ![true] ![0, 1] whiteSpace kt (gaussianLikelihood 1) none none = .ok v ∧
      v.Valid k ∧ v.q = v.distP ∧ v.kernelSpace = whiteSpace ∧ v.inducingSpace = ![true] ∧ v.inducingTime = ![0, 1] ∧
      v.likelihood = gaussianLikelihood 1 ∧ v.meanFunction = none ∧ v.numData = none ∧ ∀ t, k t t 0 0 = a := by
  obtain ⟨kt, hkt⟩ := (C28_constructors (o := 1) 1 a 1 1 1 0).1.2 ⟨le_refl _, one_pos, ha⟩
  have hk : ∀ t : ℝ, iso (o := 1) (matern12Cov 1 a) t t 0 0 = a := fun t => by
    simp [iso, matern12Cov]
  have hpd : (Matrix.of fun a b => whiteSpace ((![true] : Fin 1 → Bool) a) ((![true] : Fin 1 → Bool) b)).PosDef := by
    have : (Matrix.of fun a b => whiteSpace ((![true] : Fin 1 → Bool) a) ((![true] : Fin 1 → Bool) b)) = 1 := by
      ext i j; fin_cases i; fin_cases j; simp [whiteSpace]
    rw [this]; exact PosDef.one
  obtain ⟨v, h1, h2, h3, h4, h5, h6, h7, h8, h9⟩ := C43_init (n := 1) whiteSpace_cov (Z := ![true]) one_pos hpd (.leaf (.matern12 hkt))
    (.matern12 hkt) (fun t => ha.trans_eq (hk t).symm) (z := ![0, 1])
    (Fin.strictMono_iff_lt_succ.2 fun i => by fin_cases i; simp) (by norm_num) (by norm_num [Fin.last]) one_pos
    (gaussianLikelihood 1) none none
  exact ⟨kt, _, v, h1, h2, h3, h4, h5, h6, h7, h8, h9, fun t => hk t⟩

/-- Finding: the conditional variance in space is not multiplied by the variance of the temporal kernel. With a temporal
kernel of variance two the predicted variance of a value independent of the inducing variables is one, not two, and
`elbo` of the constructed model exceeds the log evidence. -/
theorem C43_elbo_not_a_bound : ∃ (kt : Stationary 1 1) (k : ℝ → ℝ → Mat 1 1) (v : STSVGP Bool 1 1 (stDim 1 kt))
    (X : Fin 1 → Bool × ℝ) (Y : Fin 1 → ℝ) (r : Fin 1 → ℝ × ℝ) (e : ℝ),
    STSVGP.init ![true] ![0, 1] whiteSpace kt (gaussianLikelihood 1) none none = .ok v ∧ v.Valid k ∧
    v.predictF X = .ok r ∧ (r 0).2 = 1 ∧
    stLaw (fun _ => 0) whiteSpace (fun t t' => k t t' 0 0) X = gaussLaw 0 (Matrix.of fun _ _ => 2) ∧
    v.elbo X Y = .ok e ∧
    Real.log (evidence (stLaw (fun _ => 0) whiteSpace (fun t t' => k t t' 0 0) X)
      fun f => ∑ i, (gaussianLikelihood 1).logProb (f i) (Y i)).toReal < e := by
  obtain ⟨kt, k, v, hi, hv, hq, hks, hZ, hz, hlik, hm, hnum, hk⟩ := st_example 2 two_pos
  set X : Fin 1 → Bool × ℝ := fun _ => (false, 1) with hX
  have h0 : ∀ j, v.inducingTime 0 ≤ (X j).2 := fun j => by rw [hz]; simp [hX]
  have h1 : ∀ j, (X j).2 ≤ v.inducingTime (Fin.last 1) := fun j => by rw [hz]; simp [hX, Fin.last]
  obtain ⟨r, kl, hr, hkl, hkl0, he⟩ := C43_elbo_value hv.base hv.q hv.distP v.meanFunction v.likelihood v.numData h0 h1
    (fun _ => 0)
  obtain ⟨r', u, L, w, ν, hr', hu, hν, hprob, hw⟩ := C43_predict hv.base hv.q v.meanFunction h0 h1
  obtain rfl : r = r' := Except.ok.inj (hr.symm.trans hr')
  obtain ⟨-, -, -, -, hm1, -, hv1⟩ := hw 0
  have hsw : spaceWeights v.kernelSpace v.inducingSpace (X 0).1 = 0 := by
    rw [hks, hZ]
    unfold spaceWeights
    rw [show (fun m => whiteSpace ((![true] : Fin 1 → Bool) m) (X 0).1) = 0 from by
      funext m; fin_cases m; simp [whiteSpace, hX], mulVec_zero]
  have hsr : spaceResidual v.kernelSpace v.inducingSpace (X 0).1 (X 0).1 = 1 := by
    unfold spaceResidual
    rw [hsw, hks, zero_dotProduct]
    simp [whiteSpace]
  rw [hsw, hsr, mulVec_zero, zero_dotProduct, add_zero] at hv1
  rw [hsw, zero_dotProduct, hm] at hm1
  have hm1 : (r 0).1 = 0 := by rw [hm1]; simp
  have hkl00 : kl = 0 := by
    have hps : IsProbabilityMeasure v.distP.law := by rw [SSM.law_eq_gauss]; infer_instance
    rw [hq, klDiv_self] at hkl
    have := congrArg ENNReal.toReal hkl
    rw [ENNReal.toReal_ofReal hkl0] at this
    simpa using this.symm
  have hlaw : stLaw (fun _ => 0) whiteSpace (fun t t' => k t t' 0 0) X = gaussLaw 0 (Matrix.of fun _ _ => 2) := by
    unfold stLaw
    congr 1
    ext i j
    simp [whiteSpace, hX, hk]
  have he' : v.elbo X (fun _ => 0) = .ok _ := he
  refine ⟨kt, k, v, X, fun _ => 0, r, _, hi, hv, hr, hv1, hlaw, he', ?_⟩
  rw [hlaw]
  have h2 : ((2 : ℝ) • (1 : Matrix (Fin 1) (Fin 1) ℝ)).PosSemidef := PosSemidef.one.smul (by norm_num)
  have h3 : ((1 : ℝ) • (1 : Matrix (Fin 1) (Fin 1) ℝ)).PosDef := PosDef.one.smul one_pos
  have hb := (bayes_psd h2 h3 1 0 0).2.2
  rw [one_mulVec, Matrix.one_mul, transpose_one, Matrix.mul_one, ← add_smul, gaussLogDensity_iso (by norm_num)] at hb
  have hfun : (fun f : Fin 1 → ℝ => ∑ i, (gaussianLikelihood 1).logProb (f i) 0) =
      fun x => gaussLogDensity ((1 : Matrix (Fin 1) (Fin 1) ℝ) *ᵥ x) ((1 : ℝ) • 1) 0 := by
    funext f
    rw [one_mulVec, gaussLogDensity_iso one_pos]
    simp
  rw [hfun, show (Matrix.of fun _ _ => 2 : Mat 1 1) = (2 : ℝ) • 1 from by ext i j; fin_cases i; fin_cases j; simp, hb,
    ENNReal.toReal_ofReal (Real.exp_pos _).le, Real.log_exp, hnum, hlik, hkl00]
  simp only [stScale, Finset.univ_unique, Fin.default_eq_zero, Finset.sum_singleton, hm1, hv1, gaussianLikelihood]
  have h4 : (1 : ℝ) < Real.log 3 := by
    rw [Real.lt_log_iff_exp_lt (by norm_num)]
    linarith [Real.exp_one_lt_d9]
  norm_num
  linarith

/-- Non-vacuity of the bound: the same model with temporal variance one and two data. -/
example : ∃ (kt : Stationary 1 1) (k : ℝ → ℝ → Mat 1 1) (v : STSVGP Bool 1 1 (stDim 1 kt)) (X : Fin 2 → Bool × ℝ),
    v.Valid k ∧ ExactLikelihood v.likelihood ∧ v.numData = none ∧ (∀ j, v.inducingTime 0 ≤ (X j).2) ∧
    (∀ j, (X j).2 ≤ v.inducingTime (Fin.last 1)) ∧ ExactVariances v.kernelSpace k v.inducingSpace v.posterior X ∧
    (X 0).1 ≠ (X 1).1 := by
  obtain ⟨kt, k, v, hi, hv, hq, hks, hZ, hz, hlik, hm, hnum, hk⟩ := st_example 1 one_pos
  refine ⟨kt, k, v, ![(true, 1 / 2), (false, 1)], hv, by rw [hlik]; exact gaussianLikelihood_exact 1, hnum, ?_, ?_,
    C43_predict_exact _ hk _ _ _, by simp⟩
  · intro j; rw [hz]; fin_cases j <;> simp
  · intro j; rw [hz]; fin_cases j <;> norm_num [Fin.last]

end MF
