import Verif.Lemmas.BatchedKalman
import Verif.Props.StateSpaceModel
import Verif.Props.KalmanFilter

/-!
# C62: batching

A call on tensors with leading batch axes is the family of the calls for the batch elements, for every batch shape without empty axes. The
batched code (`Verif/Model/Batched.lean`) works on raw tensors; the calls for single elements are those of the typed model, about which C01–C20
are proved. `Elementwise` (`Verif/Spec/Batched.lean`) also covers failures: the batched call raises if and only if some element does.
-/

namespace MF
open Matrix Spec Tensor

variable {n d m : ℕ} {bs : List ℕ} {S : TSSM} {s : List ℕ → SSM n d}

/-! ### Every tensor of a documented shape is such a family -/

/-- C62: the hypotheses "`x` holds …" below are met by every tensor of the documented shape. -/
theorem C62_tensors_are_families (x : Tensor) :
    (∀ d', x.shape = d' :: bs → ∃ f : List ℕ → Vec d', HoldsVec bs x f) ∧
    (∀ r c, x.shape = c :: r :: bs → ∃ f : List ℕ → Mat r c, HoldsMat bs x f) ∧
    (∀ n' d', x.shape = d' :: n' :: bs → ∃ f : List ℕ → Fin n' → Vec d', HoldsVecs bs x f) ∧
    (∀ n' r c, x.shape = c :: r :: n' :: bs → ∃ f : List ℕ → Fin n' → Mat r c, HoldsMats bs x f) :=
  ⟨fun _ h => ⟨fun b i => x.val (i :: b), h, fun _ _ _ => rfl⟩, fun _ _ h => ⟨fun b i j => x.val (j :: i :: b), h, fun _ _ _ _ => rfl⟩,
    fun _ _ h => ⟨fun b t i => x.val (i :: t :: b), h, fun _ _ _ _ => rfl⟩,
    fun _ _ _ h => ⟨fun b t i j => x.val (j :: i :: t :: b), h, fun _ _ _ _ _ => rfl⟩⟩

/-- C62: the `StateSpaceModel` constructor accepts the documented batched shapes, and the resulting object is a family of models. -/
theorem C62_state_space_model {mu0 cholP0 A b cholQ : Tensor} (h1 : mu0.tfShape = bs.reverse ++ [d]) (h2 : cholP0.tfShape = bs.reverse ++ [d, d])
    (h3 : A.tfShape = bs.reverse ++ [n, d, d]) (h4 : b.tfShape = bs.reverse ++ [n, d]) (h5 : cholQ.tfShape = bs.reverse ++ [n, d, d]) :
    ∃ s : List ℕ → SSM n d, TSSM.init mu0 cholP0 A b cholQ = .ok ⟨mu0, cholP0, A, b, cholQ⟩ ∧ HoldsSSM bs ⟨mu0, cholP0, A, b, cholQ⟩ s := by
  have e : ∀ {x : Tensor} {l : List ℕ}, x.tfShape = bs.reverse ++ l.reverse → x.shape = l ++ bs := fun {x l} h => by
    rw [← List.reverse_reverse x.shape]
    show x.tfShape.reverse = _
    rw [h]
    simp
  obtain ⟨m', hm⟩ := (C62_tensors_are_families mu0).1 _ (e (l := [d]) h1)
  obtain ⟨P', hP⟩ := (C62_tensors_are_families cholP0).2.1 _ _ (e (l := [d, d]) h2)
  obtain ⟨A', hA⟩ := (C62_tensors_are_families A).2.2.2 _ _ _ (e (l := [d, d, n]) h3)
  obtain ⟨b', hb⟩ := (C62_tensors_are_families b).2.2.1 _ _ (e (l := [d, n]) h4)
  obtain ⟨Q', hQ⟩ := (C62_tensors_are_families cholQ).2.2.2 _ _ _ (e (l := [d, d, n]) h5)
  have hS : HoldsSSM bs ⟨mu0, cholP0, A, b, cholQ⟩ fun i => (⟨m' i, P' i, A' i, b' i, Q' i⟩ : SSM n d) := ⟨hm, hP, hA, hb, hQ⟩
  exact ⟨_, ssm_init hS, hS⟩

/-! ### Block tri-diagonal matrices -/

/-- C62: the constructor of batched block tri-diagonal matrices. -/
theorem C62_block_tri_constructor (hbs : ∀ k ∈ bs, 0 < k) (sym : Bool) {D S : Tensor} {D' : List ℕ → Fin (n + 1) → Mat d d}
    {S' : List ℕ → Fin n → Mat d d} (hD : HoldsMats bs D D') (hS : HoldsMats bs S S') :
    Elementwise bs (HoldsBTD bs) (TBTD.init sym D (some S)) (fun b => BTD.init sym (D' b) (some (S' b))) ∧
    Elementwise bs (HoldsBTD bs) (TBTD.init sym D none) (fun b => BTD.init sym (n := n) (D' b) none) :=
  ⟨init_holds hbs sym hD (.inr ⟨S, S', rfl, hS, fun _ _ => rfl⟩), init_holds hbs sym hD (.inl ⟨rfl, fun _ _ => rfl⟩)⟩

/-- C62: `to_dense`, `dense_mult`, `solve`, `block_diagonal_of_inverse`, `abs_log_det` per batch element; the right-hand sides may have further
leading (sample) axes `ss`. -/
theorem C62_block_tri_operations {M : TBTD false} {l : List ℕ → LowerBTD n d} (hM : HoldsBTD bs M l) {M' : TBTD true}
    {m' : List ℕ → SymBTD n d} (hM' : HoldsBTD bs M' m') (ss : List ℕ) {x : Tensor} {f : List ℕ → Fin (n + 1) → Vec d}
    (hx : HoldsVecs (bs ++ ss) x f) (tr : Bool) :
    (∃ z, M.toDense = .ok z ∧ HoldsMat bs z fun b => (l b).toDense) ∧
    (∃ z, M'.toDense = .ok z ∧ HoldsMat bs z fun b => (m' b).toDense) ∧
    (∃ z, M.denseMult x tr = .ok z ∧ HoldsVecs (bs ++ ss) z fun b => (l (b.take bs.length)).denseMult (f b) tr) ∧
    (∃ z, M'.denseMult x tr = .ok z ∧ HoldsVecs (bs ++ ss) z fun b => (m' (b.take bs.length)).denseMult (f b) tr) ∧
    (∃ z, M.solve x tr = .ok z ∧ HoldsVecs (bs ++ ss) z fun b => (l (b.take bs.length)).solve (f b) tr) ∧
    (∃ z, M.blockDiagonalOfInverse = .ok z ∧ HoldsMats bs z fun b => (l b).blockDiagonalOfInverse) ∧
    ∃ z, M.absLogDet = .ok z ∧ HoldsReal bs z fun b => (l b).absLogDet :=
  ⟨toDense_holds hM, toDense_holds hM', denseMult_holds hM ss hx tr, denseMult_holds hM' ss hx tr, solve_holds hM ss hx tr,
    blockDiagonalOfInverse_holds hM, absLogDet_holds hM⟩

/-- C62: `+` of batched block tri-diagonal matrices. -/
theorem C62_block_tri_add {sym : Bool} (hbs : ∀ k ∈ bs, 0 < k) {M M' : TBTD sym} {a a' : List ℕ → BTD sym n d} (h : HoldsBTD bs M a)
    (h' : HoldsBTD bs M' a') : Elementwise bs (HoldsBTD bs) (M.add M') fun b => (a b).add (a' b) := add_holds hbs h h'

/-- C62: `cholesky` and `upper_diagonal_lower` of batched block tri-diagonal matrices; they raise iff they raise for some element. -/
theorem C62_block_tri_factorisations (hbs : ∀ k ∈ bs, 0 < k) {M : TBTD true} {a : List ℕ → SymBTD n d} (h : HoldsBTD bs M a) :
    Elementwise bs (HoldsBTD bs) M.cholesky (fun b => (a b).cholesky) ∧
    Elementwise bs (fun (P : TBTD false × TBTD false) (p : List ℕ → LowerBTD n d × LowerBTD n d) =>
      HoldsBTD bs P.1 (fun b => (p b).1) ∧ HoldsBTD bs P.2 (fun b => (p b).2)) M.upperDiagonalLower (fun b => (a b).upperDiagonalLower) :=
  ⟨btd_cholesky_holds hbs h, upperDiagonalLower_holds hbs h⟩

/-! ### State space models -/

/-- C62: the moments and the precision of a batched state space model are those of its elements. -/
theorem C62_moments (hbs : ∀ k ∈ bs, 0 < k) (h : HoldsSSM bs S s) :
    Elementwise bs (HoldsVecs bs) S.marginalMeans (fun b => (s b).marginalMeans) ∧
    Elementwise bs (HoldsMats bs) S.marginalCovariances (fun b => (s b).marginalCovariances) ∧
    Elementwise bs (fun (P : Tensor × Tensor) (p : List ℕ → (Fin (n + 1) → Mat d d) × (Fin n → Mat d d)) =>
      HoldsMats bs P.1 (fun b => (p b).1) ∧ HoldsMats bs P.2 (fun b => (p b).2)) S.covarianceBlocks (fun b => (s b).covarianceBlocks) ∧
    Elementwise bs (fun (P : Tensor × Tensor) (p : List ℕ → (Fin (n + 1) → Vec d) × (Fin (n + 1) → Mat d d)) =>
      HoldsVecs bs P.1 (fun b => (p b).1) ∧ HoldsMats bs P.2 (fun b => (p b).2)) S.marginals (fun b => (s b).marginals) ∧
    Elementwise bs (HoldsBTD bs) S.precision (fun b => (s b).precision) ∧
    ∃ z, S.initialCovariance = .ok z ∧ HoldsMat bs z fun b => (s b).initialCovariance :=
  ⟨marginalMeans_holds hbs h, marginalCovariances_holds hbs h, covarianceBlocks_holds hbs h, marginals_holds hbs h, precision_holds hbs h,
    initialCovariance_holds h⟩

/-- C62: `log_pdf` of states with shape `sample_shape + batch_shape + event_shape`: every sample is evaluated under the model of its own batch
element. -/
theorem C62_log_pdf (h : HoldsSSM bs S s) (ss : List ℕ) {x : Tensor} {ξ : List ℕ → Fin (n + 1) → Vec d} (hx : HoldsVecs (bs ++ ss) x ξ) :
    ∃ z, S.logPdf x = .ok z ∧ HoldsReal (bs ++ ss) z fun b => (s (b.take bs.length)).logPdf (ξ b) := logPdf_holds h ss hx

/-- C62: `sample(sample_shape)`: every sample of every batch element is made of its own standard normal draws, by the model of that element. -/
theorem C62_sample (hbs : ∀ k ∈ bs, 0 < k) (h : HoldsSSM bs S s) (hd : 0 < d) (ss : List ℕ) (draws : List ℕ → ℝ) :
    Elementwise (bs ++ ss) (HoldsVecs (bs ++ ss)) (S.sample ss draws) fun b =>
      (s (b.take bs.length)).sample fun t i => draws (0 :: (i : ℕ) :: (t : ℕ) :: b) := sample_holds hbs h hd ss draws

/-- C62: the divergence of two batched models is the batch of the divergences; likewise `normalizer` and `log_det_precision`. -/
theorem C62_divergence (hbs : ∀ k ∈ bs, 0 < k) {S' : TSSM} {s' : List ℕ → SSM n d} (h : HoldsSSM bs S s) (h' : HoldsSSM bs S' s') :
    Elementwise bs (HoldsReal bs) (S.klDivergence S') (fun b => (s b).klDivergence (s' b)) ∧
    Elementwise bs (HoldsReal bs) S.normalizer (fun b => (s b).normalizer) ∧
    ∃ z, S.logDetPrecision = .ok z ∧ HoldsReal bs z fun b => (s b).logDetPrecision :=
  ⟨klDivergence_holds hbs h h', normalizer_holds hbs h, logDetPrecision_holds h⟩

/-- C62: `state_space_model_from_covariances` decides element by element whether a covariance is zero. -/
theorem C62_from_covariances (hbs : ∀ k ∈ bs, 0 < k) {m0 P0 A b Q : Tensor} {m0' : List ℕ → Vec d} {P0' : List ℕ → Mat d d}
    {A' : List ℕ → Fin n → Mat d d} {b' : List ℕ → Fin n → Vec d} {Q' : List ℕ → Fin n → Mat d d} (hm : HoldsVec bs m0 m0')
    (hP : HoldsMat bs P0 P0') (hA : HoldsMats bs A A') (hb : HoldsVecs bs b b') (hQ : HoldsMats bs Q Q') :
    Elementwise bs (HoldsSSM bs) (tensorSSMFromCovariances m0 P0 A b Q) fun i => ssmFromCovariances (m0' i) (P0' i) (A' i) (b' i) (Q' i) :=
  fromCovariances_holds hbs hm hP hA hb hQ

/-! ### Emission models and Kalman filters -/

/-- C62: the projections of an emission model per batch element; the state may have further leading (sample) axes. -/
theorem C62_emission {k : ℕ} {H x y : Tensor} {H' : List ℕ → Fin k → Mat m d} {f : List ℕ → Fin k → Vec d} {g : List ℕ → Fin k → Mat d d}
    (ss : List ℕ) (hH : HoldsMats bs H H') (hx : HoldsVecs (bs ++ ss) x f) (hy : HoldsMats (bs ++ ss) y g) :
    (∃ z, tensorProjectState H x = .ok z ∧ HoldsVecs (bs ++ ss) z fun b => projectStateToF (H' (b.take bs.length)) (f b)) ∧
    (∃ z, tensorProjectCovariance H y true = .ok z ∧
      HoldsMats (bs ++ ss) z fun b => projectStateCovarianceToFFull (H' (b.take bs.length)) (g b)) ∧
    ∃ z, tensorProjectCovariance H y false = .ok z ∧
      HoldsVecs (bs ++ ss) z fun b => projectStateCovarianceToFDiag (H' (b.take bs.length)) (g b) :=
  ⟨projectState_holds ss hH hx, projectCovFull_holds ss hH hy, projectCovDiag_holds ss hH hy⟩

/-- C62: a batched `KalmanFilter` (one observation noise for the batch): the posteriors are those of the elements and the log likelihood is the sum
over the batch. -/
theorem C62_kalman_filter (hbs : ∀ k ∈ bs, 0 < k) (h : HoldsSSM bs S s) {H y R : Tensor} {H' : List ℕ → Fin (n + 1) → Mat m d}
    {y' : List ℕ → Fin (n + 1) → Vec m} {R' : Mat m m} (hH : HoldsMats bs H H') (hy : HoldsVecs bs y y') (hR : HoldsMat [] R fun _ => R') :
    ∃ F, tensorKalmanFilter S H y R = .ok F ∧
      Elementwise bs (HoldsSSM bs) F.posteriorSSM (fun b => (kalmanFilter (s b) (H' b) (y' b) R').posteriorSSM) ∧
      Elementwise bs (fun v L => v = sumShape bs L) F.logLikelihood (fun b => (kalmanFilter (s b) (H' b) (y' b) R').logLikelihood) := by
  obtain ⟨F, hF, hf⟩ := kalmanFilter_holds h hH hy hR hbs
  exact ⟨F, hF, posteriorSSM_holds hbs hf, logLikelihood_holds hbs hf⟩

/-- C62: a batched `KalmanFilterWithSites`. -/
theorem C62_kalman_filter_with_sites (hbs : ∀ k ∈ bs, 0 < k) (h : HoldsSSM bs S s) {H y R : Tensor} {H' : List ℕ → Fin (n + 1) → Mat m d}
    {y' : List ℕ → Fin (n + 1) → Vec m} {R' : List ℕ → Fin (n + 1) → Mat m m} (hH : HoldsMats bs H H') (hy : HoldsVecs bs y y')
    (hR : HoldsMats bs R R') :
    ∃ F, tensorKalmanFilterWithSites S H y R m = .ok F ∧
      Elementwise bs (HoldsSSM bs) F.posteriorSSM (fun b => (kalmanFilterWithSites (s b) (H' b) (y' b) (R' b)).posteriorSSM) ∧
      Elementwise bs (fun v L => v = sumShape bs L) F.logLikelihood
        (fun b => (kalmanFilterWithSites (s b) (H' b) (y' b) (R' b)).logLikelihood) := by
  obtain ⟨F, hF, hf⟩ := kalmanSites_holds h hH hy hR
  exact ⟨F, hF, posteriorSSM_holds hbs hf, logLikelihood_holds hbs hf⟩

/-! ### What this means for the results: two examples of the transfer -/

theorem Spec.Elementwise.transfer {α β : Type*} {R : β → (List ℕ → α) → Prop} {X : Except Err β} {Y : List ℕ → Except Err α}
    (h : Elementwise bs R X Y) {P : List ℕ → α → Prop} (hP : ∀ b, InRange b bs → ∃ y, Y b = .ok y ∧ P b y) :
    ∃ x y, X = .ok x ∧ R x y ∧ ∀ b, InRange b bs → Y b = .ok (y b) ∧ P b (y b) := by
  rcases h with ⟨x, y, hx, hr, hy⟩ | ⟨e, -, b, hb, hy⟩
  · refine ⟨x, y, hx, hr, fun b hb => ⟨hy b hb, ?_⟩⟩
    obtain ⟨y', h1, h2⟩ := hP b hb
    rw [hy b hb] at h1
    rw [Except.ok.inj h1]
    exact h2
  · obtain ⟨y', h1, -⟩ := hP b hb
    rw [hy] at h1
    cases h1

/-- C62 with C18: for a batch of non-degenerate priors the batched posterior state space model exists, and the model at every batch index is the
Bayes posterior of the prior at that index given the observations at that index. -/
theorem C62_posterior_bayes (hbs : ∀ k ∈ bs, 0 < k) (h : HoldsSSM bs S s) {H y R : Tensor} {H' : List ℕ → Fin (n + 1) → Mat m d}
    {y' : List ℕ → Fin (n + 1) → Vec m} {R' : Mat m m} (hH : HoldsMats bs H H') (hy : HoldsVecs bs y y') (hR : HoldsMat [] R fun _ => R')
    (hs : ∀ b, InRange b bs → (s b).Nondegenerate) (hR' : NoiseFactor R') (hn : 0 < n) :
    ∃ F P, ∃ p : List ℕ → SSM n d, tensorKalmanFilter S H y R = .ok F ∧ F.posteriorSSM = .ok P ∧ HoldsSSM bs P p ∧ ∀ b, InRange b bs →
      IsBayesPosterior (stateLaw (s b)) (obsLogLik (H' b) id (fun _ => R' * R'ᵀ) (y' b)) (stateLaw (p b)) := by
  obtain ⟨F, hF, hp, -⟩ := C62_kalman_filter hbs h hH hy hR
  obtain ⟨P, p, hP, hPp, hb⟩ := hp.transfer (P := fun b q =>
    IsBayesPosterior (stateLaw (s b)) (obsLogLik (H' b) id (fun _ => R' * R'ᵀ) (y' b)) (stateLaw q)) fun b hb => by
      obtain ⟨q, hq, -, hq', -⟩ := C18_posterior (s b) (H' b) (y' b) R' (hs b hb) hR' hn
      exact ⟨q, hq, hq'⟩
  exact ⟨F, P, p, hF, hP, hPp, fun b hb' => (hb b hb').2⟩

/-- C62 with C19: the log likelihood of a batched filter is the sum over the batch of the log marginal likelihoods. -/
theorem C62_log_likelihood_evidence (hbs : ∀ k ∈ bs, 0 < k) (h : HoldsSSM bs S s) {H y R : Tensor} {H' : List ℕ → Fin (n + 1) → Mat m d}
    {y' : List ℕ → Fin (n + 1) → Vec m} {R' : Mat m m} (hH : HoldsMats bs H H') (hy : HoldsVecs bs y y') (hR : HoldsMat [] R fun _ => R')
    (hs : ∀ b, InRange b bs → (s b).Nondegenerate) (hR' : NoiseFactor R') (hn : 0 < n) (hd : 0 < d) :
    ∃ F, ∃ l : List ℕ → ℝ, tensorKalmanFilter S H y R = .ok F ∧ F.logLikelihood = .ok (sumShape bs l) ∧ ∀ b, InRange b bs →
      evidence (stateLaw (s b)) (obsLogLik (H' b) id (fun _ => R' * R'ᵀ) (y' b)) = ENNReal.ofReal (Real.exp (l b)) := by
  obtain ⟨F, hF, -, hl⟩ := C62_kalman_filter hbs h hH hy hR
  obtain ⟨v, l, hv, rfl, hb⟩ := hl.transfer (P := fun b v =>
    evidence (stateLaw (s b)) (obsLogLik (H' b) id (fun _ => R' * R'ᵀ) (y' b)) = ENNReal.ofReal (Real.exp v)) fun b hb => by
      obtain ⟨q, hq, hq', -⟩ := C19_log_likelihood (s b) (H' b) (y' b) R' (hs b hb) hR' hn hd
      exact ⟨q, hq, hq'⟩
  exact ⟨F, l, hF, hv, fun b hb' => (hb b hb').2⟩

/-! ### Non-vacuity -/

/-- Non-vacuity: a batch of shape `[3, 2]` of different, non-degenerate models (the initial mean depends on the batch index). -/
example : ∃ (S : TSSM) (s : List ℕ → SSM 2 2), HoldsSSM [2, 3] S s ∧ (∀ b, (s b).Nondegenerate) ∧ s [0, 0] ≠ s [1, 0] ∧
    (∀ k ∈ [2, 3], 0 < k) ∧ InRange [1, 2] [2, 3] := by
  let s : List ℕ → SSM 2 2 := fun b => { exSSM with mu0 := fun _ => (b.getD 0 0 : ℝ) }
  refine ⟨⟨⟨[2, 2, 3], fun l => l.getD 1 0⟩, ofMats [2, 3] fun b => (s b).cholP0,
    ⟨[2, 2, 2, 2, 3], fun l => entry exSSM.cholP0 0 0 * entry ((s []).A 0) (l.getD 1 0) (l.getD 0 0)⟩,
    ⟨[2, 2, 2, 3], fun l => (l.getD 0 0 : ℝ)⟩, ⟨[2, 2, 2, 2, 3], fun l => entry ((s []).cholQ 0) (l.getD 1 0) (l.getD 0 0)⟩⟩, s,
    ⟨⟨rfl, fun b _ i => rfl⟩, holds_ofMats _ _, ⟨rfl, fun b _ t i j => ?_⟩, ⟨rfl, fun b _ t i => ?_⟩, ⟨rfl, fun b _ t i j => ?_⟩⟩,
    fun b => ?_, fun h => ?_, by simp, by simp [InRange]⟩
  · fin_cases i <;> fin_cases j <;> simp [s, exSSM, entry]
  · fin_cases i <;> simp [s, exSSM]
  · fin_cases i <;> fin_cases j <;> simp [s, exSSM, entry]
  · exact exSSM_nondegenerate
  · have := congrFun (congrArg SSM.mu0 h) 0
    simp [s] at this

end MF
