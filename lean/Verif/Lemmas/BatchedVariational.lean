import Verif.Lemmas.BatchedTransform

/-!
# Variational models on tensors, per batch element
-/

namespace MF
open Tensor Spec Matrix
variable {n o d p : ℕ} {bs : List ℕ}

theorem tril_mat {x} {A : List ℕ → Mat d d} (hx : HoldsMat bs x A) : HoldsMat bs (trilT x) fun b => tril (A b) := by
  refine ⟨hx.1, fun b hb i j => ?_⟩
  simp only [trilT, tril, Matrix.of_apply, hx.2 b hb i j]
  exact if_congr Iff.rfl rfl rfl

theorem tril_mats {k x} {A : List ℕ → Fin k → Mat d d} (hx : HoldsMats bs x A) : HoldsMats bs (trilT x) fun b t => tril (A b t) := by
  refine ⟨hx.1, fun b hb t i j => ?_⟩
  simp only [trilT, tril, Matrix.of_apply, hx.2 b hb t i j]
  exact if_congr Iff.rfl rfl rfl

theorem createTrainableCopy_holds {S : TSSM} {s : List ℕ → SSM n d} (h : HoldsSSM bs S s) :
    ∃ C, S.createTrainableCopy = .ok C ∧ HoldsSSM bs C fun b => (s b).createTrainableCopy := by
  have hC : HoldsSSM bs ⟨S.mu0, trilT S.cholP0, S.A, S.b, trilT S.cholQ⟩ fun b => (s b).createTrainableCopy :=
    ⟨h.mu0, tril_mat h.cholP0, h.A, h.b, tril_mats h.cholQ⟩
  have hcheck : Shapes.checkCompatible S.A.tfShape S.A.tfShape = .ok () := by
    rw [tfShape3 h.A.1]
    exact (C42_check_compatible ..).2 ⟨rfl, rfl, .inl rfl⟩
  exact ⟨_, by simp only [TSSM.createTrainableCopy, ssm_init hC, hcheck, Bind.bind, Except.bind]; rfl, hC⟩

theorem likelihoodTerm_holds (f : ℝ → ℝ → ℝ → ℝ) {x y z : Tensor} {a c e : List ℕ → Fin p → Vec o} (hx : HoldsVecs bs x a) (hy : HoldsVecs bs y c)
    (hz : HoldsVecs bs z e) :
    ∃ w, likelihoodTerm f x y z = .ok w ∧ HoldsVec bs w fun b i => ∑ j, f (a b i j) (c b i j) (e b i j) := by
  refine ⟨_, by simp only [likelihoodTerm, hx.1, hy.1, hz.1, bshape_left (BT.refl (o :: p :: bs)), Bind.bind, Except.bind]; rfl, ?_⟩
  refine sum1_vecs ⟨rfl, fun b hb t i => ?_⟩
  have hr : InRange ((i : ℕ) :: (t : ℕ) :: b) (o :: p :: bs) := ⟨i.2, t.2, hb⟩
  simp only [bidx_self hr, hx.2 b hb, hy.2 b hb, hz.2 b hb]

theorem sumShape_add (u : List ℕ) (f g : List ℕ → ℝ) : sumShape u (fun b => f b + g b) = sumShape u f + sumShape u g := by
  induction u generalizing f g with
  | nil => rfl
  | cons k u ih => simp only [sumShape, ih, Finset.sum_add_distrib]

theorem sumShape_mul (u : List ℕ) (f : List ℕ → ℝ) (a : ℝ) : sumShape u (fun b => f b * a) = sumShape u f * a := by
  induction u generalizing f with
  | nil => rfl
  | cons k u ih => simp only [sumShape, ih, Finset.sum_mul]

theorem sumShape_sub (u : List ℕ) (f g : List ℕ → ℝ) : sumShape u (fun b => f b - g b) = sumShape u f - sumShape u g := by
  induction u generalizing f g with
  | nil => rfl
  | cons k u ih => simp only [sumShape, ih, Finset.sum_sub_distrib]

theorem sumShape_sum {k : ℕ} (u : List ℕ) (f : List ℕ → Fin k → ℝ) : sumShape u (fun b => ∑ i, f b i) = ∑ i, sumShape u fun b => f b i := by
  induction u generalizing f with
  | nil => rfl
  | cons m u ih => simp only [sumShape, ih]; exact Finset.sum_comm

theorem sumShape_le {u : List ℕ} {f g : List ℕ → ℝ} (h : ∀ b, InRange b u → f b ≤ g b) : sumShape u f ≤ sumShape u g := by
  induction u generalizing f g with
  | nil => exact h [] trivial
  | cons k u ih => exact Finset.sum_le_sum fun i _ => ih fun b hb => h _ ⟨i.2, hb⟩

theorem sumAll_real {x} {f : List ℕ → ℝ} (hx : HoldsReal bs x f) : x.sumAll = sumShape bs f := by
  unfold sumAll
  rw [hx.1]
  exact sumShape_congr fun b hb => hx.2 b hb

theorem sumAll_vec {k x} {f : List ℕ → Vec k} (hx : HoldsVec bs x f) : x.sumAll = sumShape bs fun b => ∑ i, f b i := by
  unfold sumAll
  rw [hx.1, sumShape_sum]
  exact Finset.sum_congr rfl fun i _ => sumShape_congr fun b hb => hx.2 b hb i

/-! ### `VariationalGaussianProcess` -/

theorem vgpPosterior_holds {V : TVGP} {v : List ℕ → VGP n o d} (h : HoldsVGP bs V v) : HoldsProcess bs V.posterior fun b => (v b).posterior :=
  ⟨⟨h.q, kernelOn_of h.kernel, h.times⟩, kernel_plain h.kernel, h.mean⟩

theorem vgpDistP_holds (hbs : ∀ k ∈ bs, 0 < k) {V : TVGP} {v : List ℕ → VGP n o d} (h : HoldsVGP bs V v) :
    Elementwise bs (HoldsSSM bs) V.distP fun b => (v b).distP := by
  exact (stateSpaceModel_holds hbs (kernelOn_of h.kernel) h.times).congr fun b hb => by simp only [VGP.distP]

theorem vgpElbo_holds (hbs : ∀ k ∈ bs, 0 < k) {V : TVGP} {v : List ℕ → VGP n o d} (h : HoldsVGP bs V v) :
    Elementwise bs (fun e E => e = sumShape bs E) V.elbo fun b => (v b).elbo := by
  rcases predictFDiag_holds hbs (vgpPosterior_holds h) h.times with ⟨x, f, hx, hr, hf⟩ | ⟨e, hx, b, hb, hf⟩
  swap
  · exact .inr ⟨e, by simp only [TVGP.elbo, hx, Bind.bind, Except.bind], b, hb, by simp only [VGP.elbo, hf, Bind.bind, Except.bind]⟩
  obtain ⟨w, hw, hwh⟩ := likelihoodTerm_holds V.likelihood.varExp hr.1 hr.2 h.observations
  rcases vgpDistP_holds hbs h with ⟨P, p', hP, hPh, hp⟩ | ⟨e, hP, b, hb, hp⟩
  swap
  · refine .inr ⟨e, by simp only [TVGP.elbo, hx, hw, hP, Bind.bind, Except.bind], b, hb, ?_⟩
    have e1 := hf b hb
    simp only [VGP.elbo, e1, hp, Bind.bind, Except.bind]
  rcases klDivergence_holds hbs h.q hPh with ⟨K, k', hK, hKh, hk⟩ | ⟨e, hK, b, hb, hk⟩
  swap
  · refine .inr ⟨e, by simp only [TVGP.elbo, hx, hw, hP, hK, Bind.bind, Except.bind], b, hb, ?_⟩
    have e1 := hf b hb
    have e2 := hp b hb
    simp only [VGP.elbo, e1, e2, hk, Bind.bind, Except.bind]
  refine .inl ⟨w.sumAll - K.sumAll, fun b => (∑ i, V.likelihood.varExps (f b i).1 (f b i).2 ((v b).observations i)) - k' b, ?_, ?_, fun b hb => ?_⟩
  · simp only [TVGP.elbo, hx, hw, hP, hK, Bind.bind, Except.bind, Pure.pure, Except.pure]
  · beta_reduce
    rw [sumAll_vec hwh, sumAll_real hKh, sumShape_sub]
    rfl
  · have e1 := hf b hb
    have e2 := hp b hb
    have e3 := hk b hb
    simp only [VGP.elbo, e1, e2, e3, h.likelihood b hb, Bind.bind, Except.bind, Pure.pure, Except.pure]

theorem vgpInit_holds (hbs : ∀ k ∈ bs, 0 < k) {T Y : Tensor} {ts : List ℕ → Fin (n + 1) → ℝ} {ys : List ℕ → Fin (n + 1) → Vec o}
    (hT : HoldsTimes bs T ts) (hY : HoldsVecs bs Y ys) {K : TKernel} {k : Stationary o d} (hK : HoldsKernel K k) (lik : ScalarLikelihood)
    {M : Option (Tensor → Except Err Tensor)} {m : List ℕ → Option (ℝ → Vec o)}
    (hM : HoldsMeanOn bs (M.getD (tensorZeroMean 1)) fun b => (m b).getD fun _ => 0)
    {Q : Option TSSM} {q : List ℕ → Option (SSM n d)} (hQ : (Q = none ∧ ∀ b, InRange b bs → q b = none) ∨
      ∃ (S : TSSM) (s : List ℕ → SSM n d), Q = some S ∧ HoldsSSM bs S s ∧ ∀ b, InRange b bs → q b = some (s b)) :
    Elementwise bs (HoldsVGP bs) (TVGP.init T Y K lik M Q) fun b => VGP.init (ts b) (ys b) k lik (m b) (q b) := by
  have key : ∀ (S : TSSM) (s : List ℕ → SSM n d), HoldsSSM bs S s →
      ∃ C, S.createTrainableCopy = .ok C ∧ HoldsVGP bs ⟨T, Y, K, lik, M.getD (tensorZeroMean 1), C⟩ fun b =>
        (⟨ts b, ys b, k, lik, (m b).getD fun _ => 0, (s b).createTrainableCopy⟩ : VGP n o d) := fun S s hS => by
    obtain ⟨C, hC, hCh⟩ := createTrainableCopy_holds hS
    exact ⟨C, hC, hT, hY, ⟨k, hK, fun _ _ => rfl⟩, fun _ _ => rfl, hM, hCh⟩
  rcases hQ with ⟨rfl, hq⟩ | ⟨S, s, rfl, hS, hq⟩
  · rcases stateSpaceModel_holds hbs (hK.on bs) hT with ⟨S, s, hS, hSh, hs⟩ | ⟨e, hS, b, hb, hs⟩
    · obtain ⟨C, hC, hV⟩ := key S s hSh
      refine .inl ⟨_, _, ?_, hV, fun b hb => ?_⟩
      · simp only [TVGP.init, hS, hC, Bind.bind, Except.bind, Pure.pure, Except.pure]
      · have e1 := hs b hb
        simp only [VGP.init, hq b hb, e1, Bind.bind, Except.bind, Pure.pure, Except.pure]
    · refine .inr ⟨e, by simp only [TVGP.init, hS, Bind.bind, Except.bind], b, hb, ?_⟩
      simp only [VGP.init, hq b hb, hs, Bind.bind, Except.bind]
  · obtain ⟨C, hC, hV⟩ := key S s hS
    refine .inl ⟨_, _, ?_, hV, fun b hb => ?_⟩
    · simp only [TVGP.init, hC, Bind.bind, Except.bind, Pure.pure, Except.pure]
    · simp only [VGP.init, hq b hb, Bind.bind, Except.bind, Pure.pure, Except.pure]

/-! ### `SparseVariationalGaussianProcess` -/

theorem svgpPosterior_holds {V : TSVGP} {v : List ℕ → SVGP n o d} (h : HoldsSVGP bs V v) : HoldsProcess bs V.posterior fun b => (v b).posterior :=
  ⟨⟨h.q, kernelOn_of h.kernel, h.inducing⟩, kernel_plain h.kernel, h.mean⟩

theorem svgpDistP_holds (hbs : ∀ k ∈ bs, 0 < k) {V : TSVGP} {v : List ℕ → SVGP n o d} (h : HoldsSVGP bs V v) :
    Elementwise bs (HoldsSSM bs) V.distP fun b => (v b).distP := by
  exact (stateSpaceModel_holds hbs (kernelOn_of h.kernel) h.inducing).congr fun b hb => by simp only [SVGP.distP]

theorem svgpElbo_holds (hbs : ∀ k ∈ bs, 0 < k) {V : TSVGP} {v : List ℕ → SVGP n o d} (h : HoldsSVGP bs V v) {X Y : Tensor}
    {xs : List ℕ → Fin (p + 1) → ℝ} {ys : List ℕ → Fin (p + 1) → Vec o} (hX : HoldsTimes bs X xs) (hY : HoldsVecs bs Y ys) :
    Elementwise bs (fun e E => e = sumShape bs E) (V.elbo X Y) fun b => (v b).elbo (xs b) (ys b) := by
  rcases predictFDiag_holds hbs (svgpPosterior_holds h) hX with ⟨x, f, hx, hr, hf⟩ | ⟨e, hx, b, hb, hf⟩
  swap
  · exact .inr ⟨e, by simp only [TSVGP.elbo, hx, Bind.bind, Except.bind], b, hb, by simp only [SVGP.elbo, hf, Bind.bind, Except.bind]⟩
  obtain ⟨w, hw, hwh⟩ := likelihoodTerm_holds V.likelihood.varExp hr.1 hr.2 hY
  rcases svgpDistP_holds hbs h with ⟨P, p', hP, hPh, hp⟩ | ⟨e, hP, b, hb, hp⟩
  swap
  · refine .inr ⟨e, by simp only [TSVGP.elbo, hx, hw, hP, Bind.bind, Except.bind], b, hb, ?_⟩
    have e1 := hf b hb
    simp only [SVGP.elbo, e1, hp, Bind.bind, Except.bind]
  rcases klDivergence_holds hbs h.q hPh with ⟨K, k', hK, hKh, hk⟩ | ⟨e, hK, b, hb, hk⟩
  swap
  · refine .inr ⟨e, by simp only [TSVGP.elbo, hx, hw, hP, hK, Bind.bind, Except.bind], b, hb, ?_⟩
    have e1 := hf b hb
    have e2 := hp b hb
    simp only [SVGP.elbo, e1, e2, hk, Bind.bind, Except.bind]
  have hXd : X.dim 0 = p + 1 := by simp [dim, hX.1]
  obtain ⟨a, ha⟩ : ∃ a : ℝ, (V.numData = none ∧ a = 1) ∨ ∃ N, V.numData = some N ∧ a = (N : ℝ) / ((p + 1 : ℕ) : ℝ) := by
    cases V.numData with
    | none => exact ⟨_, .inl ⟨rfl, rfl⟩⟩
    | some N => exact ⟨_, .inr ⟨N, rfl, rfl⟩⟩
  refine .inl ⟨w.sumAll * a - K.sumAll, fun b => (∑ i, V.likelihood.varExps (f b i).1 (f b i).2 (ys b i)) * a - k' b, ?_, ?_, fun b hb => ?_⟩
  · rcases ha with ⟨hN, rfl⟩ | ⟨N, hN, rfl⟩ <;>
      simp only [TSVGP.elbo, hx, hw, hP, hK, hXd, hN, Bind.bind, Except.bind, Pure.pure, Except.pure]
  · beta_reduce
    rw [sumAll_vec hwh, sumAll_real hKh, sumShape_sub, sumShape_mul]
    rfl
  · have e1 := hf b hb
    have e2 := hp b hb
    have e3 := hk b hb
    rcases ha with ⟨hN, rfl⟩ | ⟨N, hN, rfl⟩ <;>
      simp only [SVGP.elbo, e1, e2, e3, h.likelihood b hb, h.numData b hb, hN, Bind.bind, Except.bind, Pure.pure, Except.pure]

theorem svgpLogDensity_holds (hbs : ∀ k ∈ bs, 0 < k) {V : TSVGP} {v : List ℕ → SVGP n o d} (h : HoldsSVGP bs V v) (lik : PredictiveLikelihood)
    {X Y : Tensor} {xs : List ℕ → Fin (p + 1) → ℝ} {ys : List ℕ → Fin (p + 1) → Vec o} (hX : HoldsTimes bs X xs) (hY : HoldsVecs bs Y ys) :
    Elementwise bs (fun x (y : List ℕ → Fin (p + 1) → ℝ) => HoldsVec bs x y) (V.predictLogDensity lik X Y) fun b =>
      (v b).predictLogDensity lik (xs b) (ys b) := by
  rcases predictFDiag_holds hbs (svgpPosterior_holds h) hX with ⟨x, f, hx, hr, hf⟩ | ⟨e, hx, b, hb, hf⟩
  swap
  · exact .inr ⟨e, by simp only [TSVGP.predictLogDensity, hx, Bind.bind, Except.bind], b, hb, by
      simp only [SVGP.predictLogDensity, hf, Bind.bind, Except.bind]⟩
  obtain ⟨w, hw, hwh⟩ := likelihoodTerm_holds lik.predictLogDensity hr.1 hr.2 hY
  refine .inl ⟨w, _, by simp only [TSVGP.predictLogDensity, hx, hw, Bind.bind, Except.bind], hwh, fun b hb => ?_⟩
  have e1 := hf b hb
  simp only [SVGP.predictLogDensity, e1, Bind.bind, Except.bind, Pure.pure, Except.pure]
  rfl

theorem svgpInit_holds (hbs : ∀ k ∈ bs, 0 < k) {Z : Tensor} {zs : List ℕ → Fin (n + 1) → ℝ}
    (hZ : HoldsTimes bs Z zs) {K : TKernel} {k : Stationary o d} (hK : HoldsKernel K k) (lik : ScalarLikelihood) (numData : Option ℕ)
    {M : Option (Tensor → Except Err Tensor)} {m : List ℕ → Option (ℝ → Vec o)}
    (hM : HoldsMeanOn bs (M.getD (tensorZeroMean 1)) fun b => (m b).getD fun _ => 0)
    {Q : Option TSSM} {q : List ℕ → Option (SSM n d)} (hQ : (Q = none ∧ ∀ b, InRange b bs → q b = none) ∨
      ∃ (S : TSSM) (s : List ℕ → SSM n d), Q = some S ∧ HoldsSSM bs S s ∧ ∀ b, InRange b bs → q b = some (s b)) :
    Elementwise bs (HoldsSVGP bs) (TSVGP.init K lik Z M numData Q) fun b => SVGP.init k lik (zs b) (m b) numData (q b) := by
  have key : ∀ (S : TSSM) (s : List ℕ → SSM n d), HoldsSSM bs S s →
      ∃ C, S.createTrainableCopy = .ok C ∧ HoldsSVGP bs ⟨K, lik, Z, M.getD (tensorZeroMean 1), numData, C⟩ fun b =>
        (⟨k, lik, zs b, (m b).getD fun _ => 0, numData, (s b).createTrainableCopy⟩ : SVGP n o d) := fun S s hS => by
    obtain ⟨C, hC, hCh⟩ := createTrainableCopy_holds hS
    exact ⟨C, hC, hZ, ⟨k, hK, fun _ _ => rfl⟩, fun _ _ => rfl, hM, fun _ _ => rfl, hCh⟩
  rcases hQ with ⟨rfl, hq⟩ | ⟨S, s, rfl, hS, hq⟩
  · rcases stateSpaceModel_holds hbs (hK.on bs) hZ with ⟨S, s, hS, hSh, hs⟩ | ⟨e, hS, b, hb, hs⟩
    · obtain ⟨C, hC, hV⟩ := key S s hSh
      refine .inl ⟨_, _, ?_, hV, fun b hb => ?_⟩
      · simp only [TSVGP.init, hS, hC, Bind.bind, Except.bind, Pure.pure, Except.pure]
      · have e1 := hs b hb
        simp only [SVGP.init, hq b hb, e1, Bind.bind, Except.bind, Pure.pure, Except.pure]
    · refine .inr ⟨e, by simp only [TSVGP.init, hS, Bind.bind, Except.bind], b, hb, ?_⟩
      simp only [SVGP.init, hq b hb, hs, Bind.bind, Except.bind]
  · obtain ⟨C, hC, hV⟩ := key S s hS
    refine .inl ⟨_, _, ?_, hV, fun b hb => ?_⟩
    · simp only [TSVGP.init, hC, Bind.bind, Except.bind, Pure.pure, Except.pure]
    · simp only [SVGP.init, hq b hb, Bind.bind, Except.bind, Pure.pure, Except.pure]

end MF
