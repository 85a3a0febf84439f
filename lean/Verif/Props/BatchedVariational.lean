import Verif.Lemmas.BatchedVariational
import Verif.Props.BatchedKernels
import Verif.Props.Transformations
import Verif.Props.VGP
import Verif.Props.SVGP

/-!
# C64: parameter transformations and variational models on batches

`HoldsTriple`, `HoldsVGP`, `HoldsSVGP` (Spec/BatchedVariational.lean) and `Elementwise` (Spec/Batched.lean) say what it means that a batched call is
one call per batch element. The objectives are scalars: for them the relation is that the batched value is the sum over all batch indices.
-/

namespace MF
open Matrix Spec Tensor MeasureTheory InformationTheory

variable {n o d p : ℕ} {bs : List ℕ}

/-! ### Parameter transformations -/

/-- C64: `ssm_to_expectations` and `expectations_to_ssm_params` of a batch, for every batch shape: one call per batch element; the batched call
raises exactly when one of them raises. -/
theorem C64_expectations (hbs : ∀ k ∈ bs, 0 < k) :
    (∀ (S : TSSM) (s : List ℕ → SSM n d), HoldsSSM bs S s →
      Elementwise bs (HoldsTriple bs) (tensorSsmToExpectations S) fun b => ssmToExpectations (s b)) ∧
    (∀ (L D U : Tensor) (l : List ℕ → Fin (n + 1) → Vec d) (D' : List ℕ → Fin (n + 1) → Mat d d) (U' : List ℕ → Fin n → Mat d d),
      HoldsVecs bs L l → HoldsMats bs D D' → HoldsMats bs U U' →
      Elementwise bs (HoldsSSM bs) (tensorExpectationsToSSM L D U) fun b => expectationsToSSM (l b) (D' b) (U' b)) :=
  ⟨fun _ _ h => ssmToExpectations_holds hbs h, fun _ _ _ _ _ _ hL hD hU => expectationsToSSM_holds hL hD hU⟩

/-- C64: `ssm_to_naturals` (at least one transition) and `naturals_to_ssm_params` of a batch. -/
theorem C64_naturals (hbs : ∀ k ∈ bs, 0 < k) :
    (∀ (S : TSSM) (s : List ℕ → SSM n d), 0 < n → HoldsSSM bs S s →
      ∃ x, tensorSsmToNaturals S = .ok x ∧ HoldsTriple bs x fun b => ssmToNaturals (s b)) ∧
    (∀ (L D U : Tensor) (l : List ℕ → Fin (n + 1) → Vec d) (D' : List ℕ → Fin (n + 1) → Mat d d) (U' : List ℕ → Fin n → Mat d d),
      HoldsVecs bs L l → HoldsMats bs D D' → HoldsMats bs U U' →
      Elementwise bs (HoldsSSM bs) (tensorNaturalsToSSM L D U) fun b => naturalsToSSM (l b) (D' b) (U' b)) :=
  ⟨fun _ _ hn h => ssmToNaturals_holds hn h, fun _ _ _ _ _ _ hL hD hU => naturalsToSSM_holds hbs hL hD hU⟩

/-- C64: `ssm_to_naturals_no_smoothing` and `naturals_to_ssm_params_no_smoothing` of a batch. -/
theorem C64_naturals_no_smoothing :
    (∀ (S : TSSM) (s : List ℕ → SSM n d), HoldsSSM bs S s →
      ∃ x, tensorSsmToNaturalsNoSmoothing S = .ok x ∧ HoldsTriple bs x fun b => ssmToNaturalsNoSmoothing (s b)) ∧
    (∀ (L D U : Tensor) (l : List ℕ → Fin (n + 1) → Vec d) (D' : List ℕ → Fin (n + 1) → Mat d d) (U' : List ℕ → Fin n → Mat d d),
      HoldsVecs bs L l → HoldsMats bs D D' → HoldsMats bs U U' →
      Elementwise bs (HoldsSSM bs) (tensorNaturalsToSSMNoSmoothing L D U) fun b => naturalsToSSMNoSmoothing (l b) (D' b) (U' b)) :=
  ⟨fun _ _ h => ssmToNaturalsNoSmoothing_holds h, fun _ _ _ _ _ _ hL hD hU => naturalsToSSMNoSmoothing_holds hL hD hU⟩

/-- C64 with C16 and C17: on a batch of non-degenerate models both directions succeed, and the way through the expectation parameters and the way
through the natural parameters give back every model of the batch (exactly, where its Cholesky factors have a positive diagonal). -/
theorem C64_model_round_trips (hbs : ∀ k ∈ bs, 0 < k) {S : TSSM} {s : List ℕ → SSM n d} (h : HoldsSSM bs S s)
    (hs : ∀ b, InRange b bs → (s b).Nondegenerate) (hn : 0 < n) (hd : 0 < d) :
    (∃ x S', ∃ s' : List ℕ → SSM n d, tensorSsmToExpectations S = .ok x ∧ tensorExpectationsToSSM x.1 x.2.1 x.2.2 = .ok S' ∧ HoldsSSM bs S' s' ∧
      ∀ b, InRange b bs → SameModel (s b) (s' b) ∧ (PositiveFactors (s b) → s' b = s b)) ∧
    (∃ x S', ∃ s' : List ℕ → SSM n d, tensorSsmToNaturals S = .ok x ∧ tensorNaturalsToSSM x.1 x.2.1 x.2.2 = .ok S' ∧ HoldsSSM bs S' s' ∧
      ∀ b, InRange b bs → SameModel (s b) (s' b) ∧ (PositiveFactors (s b) → s' b = s b)) := by
  constructor
  · obtain ⟨x, y, hx, hxy, hy⟩ := (ssmToExpectations_holds hbs h).transfer (P := fun b y => ∃ s', expectationsToSSM y.1 y.2.1 y.2.2 = .ok s' ∧
        SameModel (s b) s' ∧ (PositiveFactors (s b) → s' = s b)) fun b hb => by
      obtain ⟨l, D, U, s', h1, h2, h3⟩ := C16_model_round_trip (s b) (hs b hb) hn hd
      exact ⟨(l, D, U), h1, s', h2, h3⟩
    obtain ⟨S', s', hS', hSs, hs'⟩ := (expectationsToSSM_holds hxy.1 hxy.2.1 hxy.2.2).transfer (P := fun b s' =>
        SameModel (s b) s' ∧ (PositiveFactors (s b) → s' = s b)) fun b hb => (hy b hb).2
    exact ⟨x, S', s', hx, hS', hSs, fun b hb => (hs' b hb).2⟩
  · obtain ⟨x, hx, hxy⟩ := ssmToNaturals_holds hn h
    obtain ⟨S', s', hS', hSs, hs'⟩ := (naturalsToSSM_holds hbs hxy.1 hxy.2.1 hxy.2.2).transfer (P := fun b s' =>
        SameModel (s b) s' ∧ (PositiveFactors (s b) → s' = s b)) fun b hb => C17_model_round_trip (s b) (hs b hb) hn hd
    exact ⟨x, S', s', hx, hS', hSs, fun b hb => (hs' b hb).2⟩

/-- C64 with C17: for a batch of natural parameters with symmetric diagonal blocks and positive definite precisions, the batched conversion succeeds
and converting back returns tensors holding the same parameters. -/
theorem C64_naturals_round_trip (hbs : ∀ k ∈ bs, 0 < k) {L D U : Tensor} {l : List ℕ → Fin (n + 1) → Vec d}
    {D' : List ℕ → Fin (n + 1) → Mat d d} {U' : List ℕ → Fin n → Mat d d} (hL : HoldsVecs bs L l) (hD : HoldsMats bs D D') (hU : HoldsMats bs U U')
    (hn : 0 < n) (hd : 0 < d) (hsym : ∀ b, InRange b bs → ∀ i, (D' b i)ᵀ = D' b i)
    (hP : ∀ b, InRange b bs → (denseSym (fun i => (-2 : ℝ) • D' b i) (fun k => -U' b k)).PosDef) :
    ∃ S x, tensorNaturalsToSSM L D U = .ok S ∧ tensorSsmToNaturals S = .ok x ∧ HoldsTriple bs x fun b => (l b, D' b, U' b) := by
  obtain ⟨S, s, hS, hSs, hs⟩ := (naturalsToSSM_holds hbs hL hD hU).transfer (P := fun b s => ssmToNaturals s = (l b, D' b, U' b)) fun b hb => by
    obtain ⟨s, h1, -, h2⟩ := C17_naturals_round_trip (l b) (D' b) (U' b) hn hd (hsym b hb) (hP b hb)
    exact ⟨s, h1, h2⟩
  obtain ⟨x, hx, hxy⟩ := ssmToNaturals_holds hn hSs
  exact ⟨S, x, hS, hx, hxy.1.congr fun b hb => by beta_reduce; rw [(hs b hb).2], hxy.2.1.congr fun b hb => by beta_reduce; rw [(hs b hb).2],
    hxy.2.2.congr fun b hb => by beta_reduce; rw [(hs b hb).2]⟩

/-! ### `create_trainable_copy` -/

/-- C64: `create_trainable_copy` of a batch copies every element. For non-degenerate models the copy is the model. -/
theorem C64_trainable_copy {S : TSSM} {s : List ℕ → SSM n d} (h : HoldsSSM bs S s) :
    ∃ C, S.createTrainableCopy = .ok C ∧ HoldsSSM bs C fun b => (s b).createTrainableCopy := createTrainableCopy_holds h

/-! ### Variational GP -/

/-- C64: building `VariationalGaussianProcess` from a batch of time points and observations, with or without an initial distribution: one model per
batch element. Building raises exactly when building one of them raises. -/
theorem C64_vgp_init (hbs : ∀ k ∈ bs, 0 < k) {T Y : Tensor} {ts : List ℕ → Fin (n + 1) → ℝ} {ys : List ℕ → Fin (n + 1) → Vec o}
    (hT : HoldsTimes bs T ts) (hY : HoldsVecs bs Y ys) {K : TKernel} {k : Stationary o d} (hK : HoldsKernel K k) (lik : ScalarLikelihood)
    {M : Option (Tensor → Except Err Tensor)} {m : List ℕ → Option (ℝ → Vec o)}
    (hM : HoldsMeanOn bs (M.getD (tensorZeroMean 1)) fun b => (m b).getD fun _ => 0) :
    Elementwise bs (HoldsVGP bs) (TVGP.init T Y K lik M none) (fun b => VGP.init (n := n) (d := d) (ts b) (ys b) k lik (m b) none) ∧
    ∀ (Q : TSSM) (q : List ℕ → SSM n d), HoldsSSM bs Q q →
      Elementwise bs (HoldsVGP bs) (TVGP.init T Y K lik M (some Q)) fun b => VGP.init (ts b) (ys b) k lik (m b) (some (q b)) :=
  ⟨vgpInit_holds hbs hT hY hK lik hM (.inl ⟨rfl, fun _ _ => rfl⟩), fun Q q hQ =>
    vgpInit_holds hbs hT hY hK lik hM (.inr ⟨Q, q, rfl, hQ, fun _ _ => rfl⟩)⟩

/-- C64: the prior, the posterior and the ELBO of a batch of variational models. The ELBO is the sum of the elements' ELBOs, the loss the sum of
their losses. -/
theorem C64_vgp (hbs : ∀ k ∈ bs, 0 < k) {V : TVGP} {v : List ℕ → VGP n o d} (h : HoldsVGP bs V v) :
    HoldsProcess bs V.posterior (fun b => (v b).posterior) ∧
    Elementwise bs (HoldsSSM bs) V.distP (fun b => (v b).distP) ∧
    Elementwise bs (fun e E => e = sumShape bs E) V.elbo (fun b => (v b).elbo) ∧
    Elementwise bs (fun e E => e = sumShape bs E) V.loss (fun b => (v b).loss) := by
  refine ⟨vgpPosterior_holds h, vgpDistP_holds hbs h, vgpElbo_holds hbs h, ?_⟩
  rcases vgpElbo_holds hbs h with ⟨x, y, hx, hr, hy⟩ | ⟨e, hx, b, hb, hy⟩
  · refine .inl ⟨-x, fun b => -(y b), by simp only [TVGP.loss, hx, Bind.bind, Except.bind]; rfl, ?_, fun b hb => ?_⟩
    · have := sumShape_mul bs y (-1)
      simp only [mul_neg, mul_one] at this
      beta_reduce at hr ⊢
      rw [this, ← hr]
    · have e1 := hy b hb
      simp only [VGP.loss, e1, Bind.bind, Except.bind]; rfl
  · exact .inr ⟨e, by simp only [TVGP.loss, hx, Bind.bind, Except.bind], b, hb, by simp only [VGP.loss, hy, Bind.bind, Except.bind]⟩

theorem sumShape_eq_iff {u : List ℕ} {f g : List ℕ → ℝ} (h : ∀ b, InRange b u → f b ≤ g b) :
    sumShape u f = sumShape u g ↔ ∀ b, InRange b u → f b = g b := by
  refine ⟨fun he => ?_, fun he => sumShape_congr he⟩
  induction u generalizing f g with
  | nil =>
    intro b hb
    cases b with
    | nil => exact he
    | cons i b => exact absurd hb (by simp [InRange])
  | cons k u ih =>
    have hle : ∀ i ∈ (Finset.univ : Finset (Fin k)), sumShape u (fun b => f ((i : ℕ) :: b)) ≤ sumShape u fun b => g ((i : ℕ) :: b) :=
      fun i _ => sumShape_le fun b hb => h _ ⟨i.2, hb⟩
    have hall := (Finset.sum_eq_sum_iff_of_le hle).1 he
    intro b hb
    obtain ⟨i, b', rfl, hi, hb'⟩ := inRange_cons_iff.1 hb
    exact ih (f := fun b => f (i :: b)) (g := fun b => g (i :: b)) (fun b hb => h (i :: b) ⟨hi, hb⟩) (hall ⟨i, hi⟩ (Finset.mem_univ _)) b' hb'

/-- C64 with C33: for a batch of valid variational models with an exact likelihood the ELBO exists, is at most the sum of the log evidences of the
batch elements, and the difference is the sum of the Kullback–Leibler divergences to the posteriors. It is tight exactly when the variational
distribution of every element is its posterior. -/
theorem C64_vgp_bound (hbs : ∀ k ∈ bs, 0 < k) {V : TVGP} {v : List ℕ → VGP n o d} (h : HoldsVGP bs V v) {k : ℝ → ℝ → Mat o o}
    (hv : ∀ b, InRange b bs → (v b).Valid k) (hlik : ExactLikelihood V.likelihood) :
    ∃ (e : ℝ) (s : List ℕ → SSM n d), V.elbo = .ok e ∧ V.loss = .ok (-e) ∧ (∀ b, InRange b bs → (v b).kernel.stateSpaceModel (v b).times = .ok (s b)) ∧
      ∀ post : (b : List ℕ) → Measure _, (∀ b, InRange b bs → IsBayesPosterior (s b).law
          (fun x => outputLogLik V.likelihood (v b).observations (latentOf (v b).kernel (v b).meanFunction (v b).times x)) (post b)) →
        sumShape bs (fun b => Real.log (evidence (gpLaw (v b).meanFunction k (v b).times) (outputLogLik V.likelihood (v b).observations)).toReal) =
          e + sumShape bs (fun b => (klDiv (v b).q.law (post b)).toReal) ∧
        e ≤ sumShape bs (fun b => Real.log (evidence (gpLaw (v b).meanFunction k (v b).times) (outputLogLik V.likelihood (v b).observations)).toReal) ∧
        (e = sumShape bs (fun b => Real.log (evidence (gpLaw (v b).meanFunction k (v b).times) (outputLogLik V.likelihood (v b).observations)).toReal) ↔
          ∀ b, InRange b bs → (v b).q.law = post b) := by
  have hlik' : ∀ b, InRange b bs → ExactLikelihood (v b).likelihood := fun b hb => by rw [h.likelihood b hb]; exact hlik
  obtain ⟨e, E, he, hE, hEv⟩ := (vgpElbo_holds hbs h).transfer (P := fun b E => ∃ s : SSM n d, (v b).kernel.stateSpaceModel (v b).times = .ok s ∧
      ∀ post, IsBayesPosterior s.law
          (fun x => outputLogLik (v b).likelihood (v b).observations (latentOf (v b).kernel (v b).meanFunction (v b).times x)) post →
        Real.log (evidence (gpLaw (v b).meanFunction k (v b).times) (outputLogLik (v b).likelihood (v b).observations)).toReal =
          E + (klDiv (v b).q.law post).toReal ∧
        E ≤ Real.log (evidence (gpLaw (v b).meanFunction k (v b).times) (outputLogLik (v b).likelihood (v b).observations)).toReal ∧
        (E = Real.log (evidence (gpLaw (v b).meanFunction k (v b).times) (outputLogLik (v b).likelihood (v b).observations)).toReal ↔
          (v b).q.law = post)) fun b hb => by
    obtain ⟨s, E, h1, h2, -, h4⟩ := C33_elbo (hv b hb) (hlik' b hb)
    exact ⟨E, h2, s, h1, fun post hp => (h4 post hp).2⟩
  haveI : Nonempty (SSM n d) := ⟨⟨0, 0, fun _ => 0, fun _ => 0, fun _ => 0⟩⟩
  choose! s hs using fun b hb => (hEv b hb).2
  refine ⟨e, s, he, by simp only [TVGP.loss, he, Bind.bind, Except.bind]; rfl, fun b hb => (hs b hb).1, fun post hp => ?_⟩
  have key := fun b hb => (hs b hb).2 (post b) (by rw [h.likelihood b hb]; exact hp b hb)
  have hle : ∀ b, InRange b bs → E b ≤
      Real.log (evidence (gpLaw (v b).meanFunction k (v b).times) (outputLogLik V.likelihood (v b).observations)).toReal := fun b hb => by
    have := (key b hb).2.1; rwa [h.likelihood b hb] at this
  subst hE
  refine ⟨?_, sumShape_le hle, ?_⟩
  · rw [← sumShape_add]
    exact sumShape_congr fun b hb => by have := (key b hb).1; rwa [h.likelihood b hb] at this
  · rw [sumShape_eq_iff hle]
    refine forall₂_congr fun b hb => ?_
    have := (key b hb).2.2; rwa [h.likelihood b hb] at this

/-! ### Sparse variational GP -/

/-- C64: building `SparseVariationalGaussianProcess` from a batch of inducing inputs. -/
theorem C64_svgp_init (hbs : ∀ k ∈ bs, 0 < k) {Z : Tensor} {zs : List ℕ → Fin (n + 1) → ℝ}
    (hZ : HoldsTimes bs Z zs) {K : TKernel} {k : Stationary o d} (hK : HoldsKernel K k) (lik : ScalarLikelihood) (numData : Option ℕ)
    {M : Option (Tensor → Except Err Tensor)} {m : List ℕ → Option (ℝ → Vec o)}
    (hM : HoldsMeanOn bs (M.getD (tensorZeroMean 1)) fun b => (m b).getD fun _ => 0) :
    Elementwise bs (HoldsSVGP bs) (TSVGP.init K lik Z M numData none) (fun b => SVGP.init k lik (zs b) (m b) numData none) ∧
    ∀ (Q : TSSM) (q : List ℕ → SSM n d), HoldsSSM bs Q q →
      Elementwise bs (HoldsSVGP bs) (TSVGP.init K lik Z M numData (some Q)) fun b => SVGP.init k lik (zs b) (m b) numData (some (q b)) :=
  ⟨svgpInit_holds hbs hZ hK lik numData hM (.inl ⟨rfl, fun _ _ => rfl⟩), fun Q q hQ =>
    svgpInit_holds hbs hZ hK lik numData hM (.inr ⟨Q, q, rfl, hQ, fun _ _ => rfl⟩)⟩

/-- C64: prior, posterior, ELBO, loss and predictive log densities of a batch of sparse variational models on a batch of minibatches. The
minibatch factor `num_data / minibatch size` is that of every element. -/
theorem C64_svgp (hbs : ∀ k ∈ bs, 0 < k) {V : TSVGP} {v : List ℕ → SVGP n o d} (h : HoldsSVGP bs V v) {X Y : Tensor}
    {xs : List ℕ → Fin (p + 1) → ℝ} {ys : List ℕ → Fin (p + 1) → Vec o} (hX : HoldsTimes bs X xs) (hY : HoldsVecs bs Y ys)
    (lik : PredictiveLikelihood) :
    HoldsProcess bs V.posterior (fun b => (v b).posterior) ∧
    Elementwise bs (HoldsSSM bs) V.distP (fun b => (v b).distP) ∧
    Elementwise bs (fun e E => e = sumShape bs E) (V.elbo X Y) (fun b => (v b).elbo (xs b) (ys b)) ∧
    Elementwise bs (fun e E => e = sumShape bs E) (V.loss X Y) (fun b => (v b).loss (xs b) (ys b)) ∧
    Elementwise bs (fun x (y : List ℕ → Fin (p + 1) → ℝ) => HoldsVec bs x y) (V.predictLogDensity lik X Y)
      (fun b => (v b).predictLogDensity lik (xs b) (ys b)) := by
  refine ⟨svgpPosterior_holds h, svgpDistP_holds hbs h, svgpElbo_holds hbs h hX hY, ?_, svgpLogDensity_holds hbs h lik hX hY⟩
  rcases svgpElbo_holds hbs h hX hY with ⟨x, y, hx, hr, hy⟩ | ⟨e, hx, b, hb, hy⟩
  · refine .inl ⟨-x, fun b => -(y b), by simp only [TSVGP.loss, hx, Bind.bind, Except.bind]; rfl, ?_, fun b hb => ?_⟩
    · have := sumShape_mul bs y (-1)
      simp only [mul_neg, mul_one] at this
      beta_reduce at hr ⊢
      rw [this, ← hr]
    · have e1 := hy b hb
      simp only [SVGP.loss, e1, Bind.bind, Except.bind]; rfl
  · exact .inr ⟨e, by simp only [TSVGP.loss, hx, Bind.bind, Except.bind], b, hb, by simp only [SVGP.loss, hy, Bind.bind, Except.bind]⟩

/-- C64 with C35: for a batch of valid sparse models with an exact likelihood, evaluated on the full data sets between the inducing points, the ELBO
exists and is at most the sum of the log evidences, with equality exactly when for every element the process built from the variational
distribution is the posterior. -/
theorem C64_svgp_bound (hbs : ∀ k ∈ bs, 0 < k) {V : TSVGP} {v : List ℕ → SVGP n o d} (h : HoldsSVGP bs V v) {k : ℝ → ℝ → Mat o o}
    (hv : ∀ b, InRange b bs → (v b).Valid k) (hlik : ExactLikelihood V.likelihood) {X Y : Tensor} {xs : List ℕ → Fin (p + 1) → ℝ}
    {ys : List ℕ → Fin (p + 1) → Vec o} (hX : HoldsTimes bs X xs) (hY : HoldsVecs bs Y ys) (hN : V.numData = none ∨ V.numData = some (p + 1))
    (hx : ∀ b, InRange b bs → ∀ j, (v b).inducing 0 ≤ xs b j ∧ xs b j ≤ (v b).inducing (Fin.last n)) :
    ∃ (e : ℝ) (ν : (b : List ℕ) → Measure _), V.elbo X Y = .ok e ∧ V.loss X Y = .ok (-e) ∧
      (∀ b, InRange b bs → IsPredictive (priorLaw (v b).kernel (v b).inducing (xs b)) (v b).q.law (ν b)) ∧
      ∀ post : (b : List ℕ) → Measure _, (∀ b, InRange b bs → IsBayesPosterior (priorLaw (v b).kernel (v b).inducing (xs b))
          (fun x => outputLogLik V.likelihood (ys b) (latentAt (v b).kernel (v b).meanFunction (xs b) x.2)) (post b)) →
        sumShape bs (fun b => Real.log (evidence (gpLaw (v b).meanFunction k (xs b)) (outputLogLik V.likelihood (ys b))).toReal) =
          e + sumShape bs (fun b => (klDiv (ν b) (post b)).toReal) ∧
        e ≤ sumShape bs (fun b => Real.log (evidence (gpLaw (v b).meanFunction k (xs b)) (outputLogLik V.likelihood (ys b))).toReal) ∧
        (e = sumShape bs (fun b => Real.log (evidence (gpLaw (v b).meanFunction k (xs b)) (outputLogLik V.likelihood (ys b))).toReal) ↔
          ∀ b, InRange b bs → ν b = post b) := by
  have hlik' : ∀ b, InRange b bs → ExactLikelihood (v b).likelihood := fun b hb => by rw [h.likelihood b hb]; exact hlik
  obtain ⟨e, E, he, hE, hEv⟩ := (svgpElbo_holds hbs h hX hY).transfer (P := fun b E => ∃ ν : Measure _,
      IsPredictive (priorLaw (v b).kernel (v b).inducing (xs b)) (v b).q.law ν ∧
      ∀ post, IsBayesPosterior (priorLaw (v b).kernel (v b).inducing (xs b))
          (fun x => outputLogLik (v b).likelihood (ys b) (latentAt (v b).kernel (v b).meanFunction (xs b) x.2)) post →
        Real.log (evidence (gpLaw (v b).meanFunction k (xs b)) (outputLogLik (v b).likelihood (ys b))).toReal =
          E + (klDiv ν post).toReal ∧
        E ≤ Real.log (evidence (gpLaw (v b).meanFunction k (xs b)) (outputLogLik (v b).likelihood (ys b))).toReal ∧
        (E = Real.log (evidence (gpLaw (v b).meanFunction k (xs b)) (outputLogLik (v b).likelihood (ys b))).toReal ↔ ν = post)) fun b hb => by
    obtain ⟨E, ν, h1, -, h3, h4⟩ := C35_bound (hv b hb) (hlik' b hb) (Nat.succ_pos p) (by rw [h.numData b hb]; exact hN)
      (fun j => (hx b hb j).1) (fun j => (hx b hb j).2) (ys b)
    exact ⟨E, h1, ν, h3, fun post hp => (h4 post hp).2⟩
  choose! ν hν using fun b hb => (hEv b hb).2
  refine ⟨e, ν, he, by simp only [TSVGP.loss, he, Bind.bind, Except.bind]; rfl, fun b hb => (hν b hb).1, fun post hp => ?_⟩
  have key := fun b hb => (hν b hb).2 (post b) (by rw [h.likelihood b hb]; exact hp b hb)
  have hle : ∀ b, InRange b bs → E b ≤
      Real.log (evidence (gpLaw (v b).meanFunction k (xs b)) (outputLogLik V.likelihood (ys b))).toReal := fun b hb => by
    have := (key b hb).2.1; rwa [h.likelihood b hb] at this
  subst hE
  refine ⟨?_, sumShape_le hle, ?_⟩
  · rw [← sumShape_add]
    exact sumShape_congr fun b hb => by have := (key b hb).1; rwa [h.likelihood b hb] at this
  · rw [sumShape_eq_iff hle]
    refine forall₂_congr fun b hb => ?_
    have := (key b hb).2.2; rwa [h.likelihood b hb] at this

/-! ### Sites -/

/-- C64: the site based models (`CVIGaussianProcess`, `PowerExpectationPropagation`) accept observations of shape `[N, 1]` and no others: with any
non-empty batch shape, and with several outputs, the constructor raises `ValueError`, although `input_data` is documented as
`batch_shape + [num_data, output_dim]`. -/
theorem C64_sites_reject_batches (Y : Tensor) :
    (∃ N, Y.shape = [1, N] ∧ ∃ x, tensorSitesInit Y = .ok x ∧ x.1.shape = [1, N] ∧ x.2.shape = [1, 1, N]) ∨
    ((¬ ∃ N, Y.shape = [1, N]) ∧ ∃ e, tensorSitesInit Y = .error e) := by
  by_cases hY : ∃ N, Y.shape = [1, N]
  · obtain ⟨N, hN⟩ := hY
    have := (C42_sites [N, 1] [N, 1, 1] (some [N, 1]) N 1).2 ⟨rfl, rfl, rfl, fun l hl => (Option.some.inj hl).symm⟩
    refine .inl ⟨N, hN, (zeros Y.shape, (expand 0 (ones Y.shape)).map (· * -1e-10)), ?_, ?_, ?_⟩
    · simp only [tensorSitesInit, zeros, ones, expand, Tensor.map, tfShape, hN, Bind.bind, Except.bind, Pure.pure, Except.pure]
      simp
      rw [show (insertAt 1 0 [1, N]).reverse = [N, 1, 1] from rfl, this]
    · simp [zeros, hN]
    · simp [ones, expand, Tensor.map, hN]
      rfl
  · refine .inr ⟨hY, ?_⟩
    cases h : Shapes.sitesInit (zeros Y.shape).tfShape ((expand 0 (ones Y.shape)).map (· * -1e-10)).tfShape (some (zeros Y.shape).tfShape) with
    | error e => exact ⟨e, by simp only [tensorSitesInit, h, Bind.bind, Except.bind]⟩
    | ok x =>
      obtain ⟨N, o⟩ := x
      obtain ⟨-, h2, -, -⟩ := (C42_sites ..).1 h
      refine absurd ⟨N, ?_⟩ hY
      have := congrArg List.reverse h2
      simpa [tfShape, zeros] using this

/-! ### Non-vacuity -/

/-- The batch of the examples: two Matérn 3/2 models on different times and observations. -/
theorem batch_example : ∃ (T Y X : Tensor) (K : TKernel) (k : Stationary 1 2), tensorMatern32 1 2 3 0 = .ok K ∧ matern32 1 2 3 0 = .ok k ∧ HoldsKernel K k ∧
    HoldsTimes (n := 3) [2] T (fun b i => (i : ℝ) * (b.getD 0 0 + 1)) ∧ HoldsVecs (n := 3) (d := 1) [2] Y (fun b i _ => (i : ℝ) + b.getD 0 0) ∧
    HoldsTimes (n := 3) [2] X (fun b i => (i : ℝ) / 2 * (b.getD 0 0 + 1)) ∧
    ∀ b, InRange b [2] → StrictMono (fun i : Fin 3 => (i : ℝ) * ((b.getD 0 0 : ℕ) + 1)) ∧
      -10000000000 < ((0 : Fin 3) : ℝ) * ((b.getD 0 0 : ℕ) + 1) ∧ ((Fin.last 2 : Fin 3) : ℝ) * ((b.getD 0 0 : ℕ) + 1) ≤ 10000000000 := by
  obtain ⟨k, hk⟩ := (C28_constructors (o := 1) 2 3 1 1 1 0).2.1.2 (by norm_num)
  rcases (C63_kernels 1 2 3 1 1 1 0).2.2.1 with ⟨K, k', hK, hk', hKk⟩ | ⟨e, -, he⟩
  swap
  · rw [hk] at he
    cases he
  obtain rfl : k = k' := Except.ok.inj (hk.symm.trans hk')
  refine ⟨⟨[3, 2], fun i => i.getD 0 0 * (i.getD 1 0 + 1)⟩, ⟨[1, 3, 2], fun i => i.getD 1 0 + i.getD 2 0⟩,
    ⟨[3, 2], fun i => i.getD 0 0 / 2 * (i.getD 1 0 + 1)⟩, K, k, hK, hk, hKk, ⟨rfl, fun b _ i => by simp⟩, ⟨rfl, fun b _ t i => by simp⟩,
    ⟨rfl, fun b _ i => by simp⟩, fun b hb => ⟨?_, ?_, ?_⟩⟩
  · intro i j hij
    have : (i : ℝ) < j := by exact_mod_cast hij
    exact mul_lt_mul_of_pos_right this (by positivity)
  · show -10000000000 < ((0 : ℕ) : ℝ) * ((b.getD 0 0 : ℕ) + 1)
    norm_num
  · obtain ⟨i, b', rfl, hi, -⟩ := inRange_cons_iff.1 hb
    have : (i : ℝ) < 2 := by exact_mod_cast hi
    show ((2 : ℕ) : ℝ) * (((i :: b').getD 0 0 : ℕ) + 1) ≤ 10000000000
    rw [List.getD_cons_zero]
    push_cast
    linarith

/-- Non-vacuity of `C64_vgp_bound`: building the batched model from two different data sets succeeds, all elements are valid, the likelihood is
exact, and all posteriors exist. -/
theorem batch_vgp_example : ∃ (T Y : Tensor) (K : TKernel) (V : TVGP) (v : List ℕ → VGP 2 1 2) (kf : ℝ → ℝ → Mat 1 1),
    TVGP.init T Y K (gaussianLikelihood 3) none none = .ok V ∧ HoldsVGP [2] V v ∧ (∀ b, InRange b [2] → (v b).Valid kf) ∧
    ExactLikelihood V.likelihood ∧ (v [0]).observations ≠ (v [1]).observations ∧
    ∀ b, InRange b [2] → ∀ s : SSM 2 2, ∃ post, IsBayesPosterior s.law
      (fun x => outputLogLik V.likelihood (v b).observations (latentOf (v b).kernel (v b).meanFunction (v b).times x)) post := by
  obtain ⟨T, Y, X, K, k, hK, hk, hKk, hT, hY, -, hb3⟩ := batch_example
  have hlik := gaussianLikelihood_exact 3
  have hmean : HoldsMeanOn [2] ((none : Option (Tensor → Except Err Tensor)).getD (tensorZeroMean 1)) fun _ => (none : Option (ℝ → Vec 1)).getD fun _ => 0 :=
    (C63_mean_functions 1 1 5 (.inl rfl)).1.on [2]
  obtain ⟨V, v, hV, hVv, hv⟩ := (C64_vgp_init (bs := [2]) (by simp) hT hY hKk (gaussianLikelihood 3) (m := fun _ => none) hmean).1.transfer (P := fun b w =>
      w.Valid _ ∧ w.observations = (fun (i : Fin 3) _ => (i : ℝ) + b.getD 0 0) ∧ w.likelihood = gaussianLikelihood 3) fun b hb => by
    obtain ⟨h1, h2, h3⟩ := hb3 b hb
    obtain ⟨w, e, hw, hval, -, -⟩ := (C33_init (y := fun i _ => (i : ℝ) + b.getD 0 0) (.leaf (.matern32 hk)) (.matern32 hk)
      (by rw [(kernelInit_ok hk).2.2]; rfl) h1 h2 h3 (by norm_num) hlik none).1
    refine ⟨w, hw, hval, ?_⟩
    have := hw
    simp only [VGP.init, Bind.bind, Except.bind, Pure.pure, Except.pure] at this
    split at this
    · cases this
    · cases this
      exact ⟨rfl, rfl⟩
  have h0 : InRange [0] [2] := ⟨by norm_num, trivial⟩
  have h1 : InRange [1] [2] := ⟨by norm_num, trivial⟩
  have hVl : V.likelihood = gaussianLikelihood 3 := (hVv.likelihood _ h0).symm.trans (hv _ h0).2.2.2
  refine ⟨T, Y, K, V, v, _, hV, hVv, fun b hb => (hv b hb).2.1, by rw [hVl]; exact hlik, ?_, fun b hb s => ?_⟩
  · rw [(hv _ h0).2.2.1, (hv _ h1).2.2.1]
    intro h
    have := congrFun (congrFun h 0) 0
    simp at this
  · rw [← hVv.likelihood b hb]
    refine C33_posterior_exists (by rw [(hv b hb).2.2.2]; exact hlik) fun y => ?_
    rw [(hv b hb).2.2.2]
    refine ⟨-(1 / 2) * (Real.log (2 * Real.pi) + Real.log 3), fun f => ?_⟩
    have : 0 ≤ (f - y) ^ 2 / 3 := by positivity
    simp only [gaussianLikelihood]; linarith

/-- Non-vacuity of `C64_svgp_bound`: two sparse models with different inducing inputs, valid, on data between the inducing points. -/
example : ∃ (Z X Y : Tensor) (K : TKernel) (V : TSVGP) (v : List ℕ → SVGP 2 1 2) (kf : ℝ → ℝ → Mat 1 1) (xs : List ℕ → Fin (2 + 1) → ℝ)
    (ys : List ℕ → Fin (2 + 1) → Vec 1),
    TSVGP.init K poissonLikelihood Z none (some 3) none = .ok V ∧ HoldsSVGP [2] V v ∧ (∀ b, InRange b [2] → (v b).Valid kf) ∧
    ExactLikelihood V.likelihood ∧ (v [0]).inducing ≠ (v [1]).inducing ∧ V.numData = some (2 + 1) ∧ HoldsTimes [2] X xs ∧ HoldsVecs [2] Y ys ∧
    ∀ b, InRange b [2] → ∀ j, (v b).inducing 0 ≤ xs b j ∧ xs b j ≤ (v b).inducing (Fin.last 2) := by
  obtain ⟨Z, Y, X, K, k, hK, hk, hKk, hZ, hY, hX, hb3⟩ := batch_example
  have hmean : HoldsMeanOn [2] ((none : Option (Tensor → Except Err Tensor)).getD (tensorZeroMean 1)) fun _ => (none : Option (ℝ → Vec 1)).getD fun _ => 0 :=
    (C63_mean_functions 1 1 5 (.inl rfl)).1.on [2]
  obtain ⟨V, v, hV, hVv, hv⟩ := (C64_svgp_init (bs := [2]) (by simp) hZ hKk poissonLikelihood (some 3) (m := fun _ => none) hmean).1.transfer (P := fun b w =>
      w.Valid _ ∧ w.inducing = (fun i : Fin 3 => (i : ℝ) * (b.getD 0 0 + 1)) ∧ w.likelihood = poissonLikelihood ∧ w.numData = some 3) fun b hb => by
    obtain ⟨h1, h2, h3⟩ := hb3 b hb
    obtain ⟨w, s, hw, -, hval, -, -, hnum, hl, hz⟩ := (C35_init (.leaf (.matern32 hk)) (.matern32 hk)
      (by rw [(kernelInit_ok hk).2.2]; rfl) h1 h2 h3 (by norm_num) poissonLikelihood none (some 3)).1
    exact ⟨w, hw, hval, hz, hl, hnum⟩
  have h0 : InRange [0] [2] := ⟨by norm_num, trivial⟩
  have h1 : InRange [1] [2] := ⟨by norm_num, trivial⟩
  have hVl : V.likelihood = poissonLikelihood := (hVv.likelihood _ h0).symm.trans (hv _ h0).2.2.2.1
  refine ⟨Z, X, Y, K, V, v, _, _, _, hV, hVv, fun b hb => (hv b hb).2.1, by rw [hVl]; exact poissonLikelihood_exact, ?_,
    (hVv.numData _ h0).symm.trans (hv _ h0).2.2.2.2, hX, hY, fun b hb j => ?_⟩
  · rw [(hv _ h0).2.2.1, (hv _ h1).2.2.1]
    intro h
    have := congrFun h 1
    simp at this
  · rw [(hv b hb).2.2.1]
    have h0 : (0 : ℝ) ≤ (b.getD 0 0 : ℕ) := Nat.cast_nonneg _
    have hj : (j : ℝ) ≤ 2 := by exact_mod_cast Nat.le_of_lt_succ j.2
    refine ⟨?_, ?_⟩
    · show ((0 : ℕ) : ℝ) * _ ≤ (j : ℝ) / 2 * ((b.getD 0 0 : ℕ) + 1)
      rw [Nat.cast_zero, zero_mul]
      positivity
    · show (j : ℝ) / 2 * ((b.getD 0 0 : ℕ) + 1) ≤ ((2 : ℕ) : ℝ) * ((b.getD 0 0 : ℕ) + 1)
      push_cast
      nlinarith

/-- Non-vacuity of the round trips: a batch of shape `[2]` of different non-degenerate models with positive factors. -/
example : ∃ (S : TSSM) (s : List ℕ → SSM 1 1), HoldsSSM [2] S s ∧ (∀ b, InRange b [2] → (s b).Nondegenerate ∧ PositiveFactors (s b)) ∧ s [0] ≠ s [1] := by
  refine ⟨⟨⟨[1, 2], fun i => i.getD 1 0⟩, ⟨[1, 1, 2], fun i => i.getD 2 0 + 1⟩, ⟨[1, 1, 1, 2], fun i => i.getD 3 0⟩, ⟨[1, 1, 2], fun i => i.getD 2 0⟩,
    ⟨[1, 1, 1, 2], fun i => i.getD 3 0 + 2⟩⟩, fun b => ⟨fun _ => b.getD 0 0, fun _ _ => b.getD 0 0 + 1, fun _ _ _ => b.getD 0 0, fun _ _ => b.getD 0 0,
    fun _ _ _ => b.getD 0 0 + 2⟩, ⟨⟨rfl, fun b _ i => by simp⟩, ⟨rfl, fun b _ i j => by simp⟩, ⟨rfl, fun b _ t i j => by simp⟩, ⟨rfl, fun b _ t i => by simp⟩,
    ⟨rfl, fun b _ t i j => by simp⟩⟩, fun b _ => ⟨?_, ?_⟩, fun h => ?_⟩
  · intro i
    refine Fin.cases ?_ (fun i => ?_) i <;> refine ⟨fun a c hac => absurd hac (by rw [Subsingleton.elim a c]; exact lt_irrefl _), fun a => ?_⟩
    · show ((b.getD 0 0 : ℕ) : ℝ) + 1 ≠ 0
      positivity
    · show ((b.getD 0 0 : ℕ) : ℝ) + 2 ≠ 0
      positivity
  · constructor
    · intro i; show (0 : ℝ) < (b.getD 0 0 : ℕ) + 1; positivity
    · intro k i; show (0 : ℝ) < (b.getD 0 0 : ℕ) + 2; positivity
  · have := congrFun (congrArg SSM.mu0 h) 0
    simp at this

end MF
