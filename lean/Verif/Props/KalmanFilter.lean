import Verif.Lemmas.Kalman
import Verif.Props.StateSpaceModel

/-!
# Properties C18–C20: Kalman filters

Specification vocabulary (`Spec/LinearGaussian`): `obsLogLik` = `Σ_j log N(y_j; H_j x_{idx j}, R_j)`,
`evidence`, `IsBayesPosterior` (posterior measure = prior reweighted by the likelihood and divided by
the evidence), `obsMatrix`/`blkDiag` (the big `G` and `Σ` of the textbook formulas).
-/

namespace MF
open Matrix Spec MeasureTheory ProbabilityTheory

variable {n d m : ℕ}

/-- The law of the state trajectory of a model. -/
noncomputable abbrev stateLaw (s : SSM n d) : Measure (Ix n d → ℝ) :=
  trajLaw s.mu0 s.cholP0 s.A s.b s.cholQ

/-- `μ` and `K` are the means and the joint covariance of the model's trajectory. -/
structure HasMoments (s : SSM n d) (μ : Fin (n + 1) → Vec d) (K : Matrix (Ix n d) (Ix n d) ℝ) :
    Prop where
  means : IsMeans s.mu0 s.A s.b μ
  cov : IsJointCov (s.cholP0 * s.cholP0ᵀ) s.A (fun k => s.cholQ k * (s.cholQ k)ᵀ) K

theorem HasMoments.eq {s : SSM n d} {μ K} (h : HasMoments s μ K) : μ = s.mus ∧ K = s.Kd :=
  ⟨SSM.IsMeans.unique h.means SSM.mus_isMeans, SSM.IsJointCov.unique h.cov SSM.Kd_isJointCov⟩

/-- `chol` is a valid noise factor: lower triangular with non-zero diagonal. -/
def NoiseFactor (chol : Mat m m) : Prop := LowerTri chol ∧ ∀ i, chol i i ≠ 0

theorem NoiseFactor.posDef {c : Mat m m} (h : NoiseFactor c) : (c * cᵀ).PosDef :=
  posDef_mul_transpose (h.1.isUnit h.2)

theorem NoiseFactor.cholSolve {c : Mat m m} (h : NoiseFactor c) : MF.cholSolve c 1 = (c * cᵀ)⁻¹ := by
  rw [MF.cholSolve, h.1.tril_eq, Matrix.mul_one]

/-- The textbook linear-Gaussian posterior formulas. -/
structure TextbookPosterior {N : ℕ} (μ : Fin (n + 1) → Vec d) (K : Matrix (Ix n d) (Ix n d) ℝ)
    (G : Matrix (Fin N × Fin m) (Ix n d) ℝ) (R : Matrix (Fin N × Fin m) (Fin N × Fin m) ℝ)
    (y : Fin N → Vec m) (μ' : Fin (n + 1) → Vec d) (K' : Matrix (Ix n d) (Ix n d) ℝ) : Prop where
  precision : K'⁻¹ = K⁻¹ + Gᵀ * R⁻¹ * G
  cov : K' = K - K * Gᵀ * (G * K * Gᵀ + R)⁻¹ * (G * K)
  mean : stk μ' = stk μ + (K * Gᵀ * (G * K * Gᵀ + R)⁻¹) *ᵥ (stk y - G *ᵥ stk μ)

theorem textbook_of {N : ℕ} {p s : SSM n d} (hp : p.Nondegenerate) (hs : s.Nondegenerate)
    (G : Matrix (Fin N × Fin m) (Ix n d) ℝ) {R : Matrix (Fin N × Fin m) (Fin N × Fin m) ℝ}
    (hR : R.PosDef) (y : Fin N → Vec m)
    (hK : s.Kd = (p.Kd⁻¹ + Gᵀ * R⁻¹ * G)⁻¹)
    (hm : stk s.mus = stk p.mus + (p.Kd⁻¹ + Gᵀ * R⁻¹ * G)⁻¹ *ᵥ
        ((Gᵀ * R⁻¹) *ᵥ (stk y - G *ᵥ stk p.mus))) :
    TextbookPosterior p.mus p.Kd G R y s.mus s.Kd := by
  have hKp := SSM.Kd_posDef hp
  refine ⟨?_, ?_, ?_⟩
  · rw [hK, nonsing_inv_nonsing_inv _ (isUnit_det (bayes_J_posDef hKp hR G).isUnit)]
  · rw [hK]; exact bayes_post_cov hKp hR G
  · rw [hm, mulVec_mulVec, bayes_gain hKp hR]

/-! ### C18 -/

private theorem dense_lik (f : KF n d m) (R : Fin (n + 1) → Mat m m) (h : ∀ t, f.rInv t = (R t)⁻¹)
    (k : Fin (n + 1)) :
    f.lik k = ∑ j, if id j = k then (f.H j)ᵀ * (R j)⁻¹ * f.H j else 0 := by
  simp [KF.lik, h]

private theorem dense_obs (f : KF n d m) (R : Fin (n + 1) → Mat m m) (h : ∀ t, f.rInv t = (R t)⁻¹)
    (y : Fin (n + 1) → Vec m) (k : Fin (n + 1)) :
    ((f.H k)ᵀ * f.rInv k) *ᵥ y k =
      ∑ j, if id j = k then ((f.H j)ᵀ * (R j)⁻¹) *ᵥ y j else 0 := by
  simp [h]

private theorem rInv_symm (f : KF n d m) (R : Fin (n + 1) → Mat m m) (hR : ∀ t, (R t).PosDef)
    (h : ∀ t, f.rInv t = (R t)⁻¹) (t) : (f.rInv t)ᵀ = f.rInv t := by
  rw [h, transpose_nonsing_inv, posDef_tr (hR t)]

/-- Every filter whose noise precisions are the inverses of `R`. -/
private theorem posterior_of (f : KF n d m) (R : Fin (n + 1) → Mat m m) (hp : f.prior.Nondegenerate)
    (hR : ∀ t, (R t).PosDef) (h : ∀ t, f.rInv t = (R t)⁻¹) (hn : 0 < n) :
    ∃ s, f.posteriorSSM = .ok s ∧ s.Nondegenerate ∧
      IsBayesPosterior (stateLaw f.prior) (obsLogLik f.H id R f.obs) (stateLaw s) ∧
      ∀ μ K μ' K', HasMoments f.prior μ K → HasMoments s μ' K' →
        TextbookPosterior μ K (obsMatrix f.H id) (blkDiag R) f.obs μ' K' := by
  obtain ⟨-, s, hs, hnd, -, hK, hm, hb⟩ := KF.posterior_bayes hp (rInv_symm f R hR h) hn f.H id R f.obs
    hR (dense_lik f R h) (dense_obs f R h f.obs)
  refine ⟨s, hs, hnd, hb, ?_⟩
  intro μ K μ' K' h1 h2
  obtain ⟨rfl, rfl⟩ := h1.eq
  obtain ⟨rfl, rfl⟩ := h2.eq
  exact textbook_of hp hnd _ (posDef_blkDiag hR) f.obs hK hm

private theorem logLik_of (f : KF n d m) (R : Fin (n + 1) → Mat m m) (hp : f.prior.Nondegenerate)
    (hR : ∀ t, (R t).PosDef) (h : ∀ t, f.rInv t = (R t)⁻¹) (hn : 0 < n) (hd : 0 < d)
    (hld : f.logDetR = .ok (∑ t, Real.log ((R t)⁻¹).det)) :
    ∃ r, f.logLikelihood = .ok r ∧
      evidence (stateLaw f.prior) (obsLogLik f.H id R f.obs) = ENNReal.ofReal (Real.exp r) ∧
      ∀ μ K, HasMoments f.prior μ K →
        r = gaussLogDensity (obsMatrix f.H id *ᵥ stk μ)
          (obsMatrix f.H id * K * (obsMatrix f.H id)ᵀ + blkDiag R) (stk f.obs) := by
  have hJ := (KF.posterior_bayes hp (rInv_symm f R hR h) hn f.H id R f.obs
    hR (dense_lik f R h) (dense_obs f R h f.obs)).1
  have e := evidence_formula' hp f.H id R f.obs hR (dense_lik f R h)
    (fun t => ((f.H t)ᵀ * f.rInv t) *ᵥ (f.obs t - f.H t *ᵥ f.prior.mus t))
    (dense_obs f R h fun t => f.obs t - f.H t *ᵥ f.prior.mus t)
  have hl := KF.logLikelihood_eq hp (rInv_symm f R hR h) hn hd hJ hld
  simp only [h, id] at e hl
  rw [← e] at hl
  refine ⟨_, hl, ?_, ?_⟩
  · exact evidence_eq hp f.H id R f.obs hR
  · intro μ K h1
    obtain ⟨rfl, rfl⟩ := h1.eq
    rfl

/-- C18: `KalmanFilter.posterior_state_space_model()` does not fail; its trajectory law is exactly
the Bayes posterior of the prior trajectory law given `y_t = H_t x_t + N(0, R)`, `R = chol cholᵀ`, and
its moments are the textbook ones. -/
theorem C18_posterior (prior : SSM n d) (H : Fin (n + 1) → Mat m d) (y : Fin (n + 1) → Vec m)
    (cholR : Mat m m) (hp : prior.Nondegenerate) (hR : NoiseFactor cholR) (hn : 0 < n) :
    ∃ s, (kalmanFilter prior H y cholR).posteriorSSM = .ok s ∧ s.Nondegenerate ∧
      IsBayesPosterior (stateLaw prior) (obsLogLik H id (fun _ => cholR * cholRᵀ) y) (stateLaw s) ∧
      ∀ μ K μ' K', HasMoments prior μ K → HasMoments s μ' K' →
        TextbookPosterior μ K (obsMatrix H id) (blkDiag fun _ => cholR * cholRᵀ) y μ' K' :=
  posterior_of (kalmanFilter prior H y cholR) (fun _ => cholR * cholRᵀ) hp (fun _ => hR.posDef)
    (fun _ => hR.cholSolve) hn

/-! ### C19 -/

/-- C19: `log_likelihood()` is the log of the marginal likelihood (evidence), and equals
`log N(y; G μ, G K Gᵀ + Σ)`. -/
theorem C19_log_likelihood (prior : SSM n d) (H : Fin (n + 1) → Mat m d) (y : Fin (n + 1) → Vec m)
    (cholR : Mat m m) (hp : prior.Nondegenerate) (hR : NoiseFactor cholR) (hn : 0 < n)
    (hd : 0 < d) :
    ∃ r, (kalmanFilter prior H y cholR).logLikelihood = .ok r ∧
      evidence (stateLaw prior) (obsLogLik H id (fun _ => cholR * cholRᵀ) y) =
        ENNReal.ofReal (Real.exp r) ∧
      ∀ μ K, HasMoments prior μ K →
        r = gaussLogDensity (obsMatrix H id *ᵥ stk μ)
          (obsMatrix H id * K * (obsMatrix H id)ᵀ + blkDiag fun _ => cholR * cholRᵀ) (stk y) := by
  refine logLik_of (kalmanFilter prior H y cholR) (fun _ => cholR * cholRᵀ) hp (fun _ => hR.posDef)
    (fun _ => hR.cholSolve) hn hd ?_
  show (do
    let l ← tfLogdet (MF.cholSolve cholR (1 : Mat m m))
    return ((n + 1 : ℕ) : ℝ) * l) = _
  rw [hR.cholSolve, tfLogdet_posDef hR.posDef.inv]
  simp only [bind, Except.bind, pure, Except.pure, Finset.sum_const, Finset.card_univ,
    Fintype.card_fin, nsmul_eq_mul]

/-- Non-vacuity for C18/C19. -/
example : ∃ (H : Fin 3 → Mat 1 2) (cholR : Mat 1 1), exSSM.Nondegenerate ∧ NoiseFactor cholR ∧
    H 0 ≠ 0 := by
  refine ⟨fun _ => !![1, 0], !![2], exSSM_nondegenerate, ⟨?_, ?_⟩, fun h => ?_⟩
  · intro i j hij; fin_cases i; fin_cases j; simp at hij
  · intro i; fin_cases i; simp
  · have := congrFun (congrFun h 0) 0
    simp at this

/-! ### C20 -/

/-- C20: `KalmanFilterWithSites` performs exact inference for observations `means` with noise
covariances `precisions⁻¹`. -/
theorem C20_sites (prior : SSM n d) (H : Fin (n + 1) → Mat m d) (means : Fin (n + 1) → Vec m)
    (precisions : Fin (n + 1) → Mat m m) (hp : prior.Nondegenerate)
    (hP : ∀ t, (precisions t).PosDef) (hn : 0 < n) (hd : 0 < d) :
    ∃ s r, (kalmanFilterWithSites prior H means precisions).posteriorSSM = .ok s ∧
      s.Nondegenerate ∧
      (kalmanFilterWithSites prior H means precisions).logLikelihood = .ok r ∧
      IsBayesPosterior (stateLaw prior) (obsLogLik H id (fun t => (precisions t)⁻¹) means)
        (stateLaw s) ∧
      (∀ μ K μ' K', HasMoments prior μ K → HasMoments s μ' K' →
        TextbookPosterior μ K (obsMatrix H id) (blkDiag fun t => (precisions t)⁻¹) means μ' K') ∧
      evidence (stateLaw prior) (obsLogLik H id (fun t => (precisions t)⁻¹) means) =
        ENNReal.ofReal (Real.exp r) := by
  have hi : ∀ t, ((precisions t)⁻¹)⁻¹ = precisions t := fun t =>
    nonsing_inv_nonsing_inv _ (isUnit_det (hP t).isUnit)
  obtain ⟨s, hs, hnd, hb, ht⟩ := posterior_of (kalmanFilterWithSites prior H means precisions)
    (fun t => (precisions t)⁻¹) hp (fun t => (hP t).inv) (fun t => (hi t).symm) hn
  obtain ⟨r, hr, he, -⟩ := logLik_of (kalmanFilterWithSites prior H means precisions)
    (fun t => (precisions t)⁻¹) hp (fun t => (hP t).inv) (fun t => (hi t).symm) hn hd (by
      simp only [hi]; exact sumLogdet_posDef hP)
  exact ⟨s, r, hs, hnd, hr, hb, ht, he⟩

/-- C20: sites may have non-positive precision; the posterior is then computed exactly when the total
precision `K⁻¹ + Gᵀ P G` is positive definite, and raises otherwise. -/
theorem C20_improper_sites (prior : SSM n d) (H : Fin (n + 1) → Mat m d)
    (means : Fin (n + 1) → Vec m) (precisions : Fin (n + 1) → Mat m m) (hp : prior.Nondegenerate)
    (hs : ∀ t, (precisions t)ᵀ = precisions t) (hn : 0 < n) (μ : Fin (n + 1) → Vec d)
    (K : Matrix (Ix n d) (Ix n d) ℝ) (hm : HasMoments prior μ K) :
    let P := K⁻¹ + (obsMatrix H id)ᵀ * blkDiag precisions * obsMatrix H id
    (P.PosDef → ∃ s, (kalmanFilterWithSites prior H means precisions).posteriorSSM = .ok s ∧
      s.Nondegenerate ∧ ∀ μ' K', HasMoments s μ' K' → K'⁻¹ = P ∧
        P *ᵥ stk μ' = K⁻¹ *ᵥ stk μ + ((obsMatrix H id)ᵀ * blkDiag precisions) *ᵥ stk means) ∧
    (¬ P.PosDef →
      (kalmanFilterWithSites prior H means precisions).posteriorSSM = .error .invalidArgument) := by
  intro P
  set f := kalmanFilterWithSites prior H means precisions with hf
  obtain ⟨rfl, rfl⟩ := hm.eq
  have hJ : f.J = P := by
    show prior.Pd + denseDiag f.lik = _
    rw [denseDiag_lik_eq f H id precisions (by intro k; simp [KF.lik, hf, kalmanFilterWithSites]),
      ← SSM.Kd_inv hp]
  constructor
  · intro hP
    obtain ⟨s, h1, h2, -, h3, h4⟩ := KF.posteriorSSM_ok (f := f) hp hs hn (by rw [hJ]; exact hP)
    refine ⟨s, h1, h2, ?_⟩
    intro μ' K' h'
    obtain ⟨rfl, rfl⟩ := h'.eq
    refine ⟨by rw [SSM.Kd_inv h2, h3, hJ], ?_⟩
    rw [← hJ, h4, stk_backproj_eq _ H id precisions means (by
      intro k; simp [hf, kalmanFilterWithSites]), add_comm]
    congr 1
    show prior.Pd *ᵥ _ = _
    rw [← SSM.Kd_inv hp]
    rfl
  · intro hP
    exact KF.posteriorSSM_error (f := f) hp hs hn (by rw [hJ]; exact hP)

/-- C20: the natural-parameter sites with `nat2 < 0` observe `-nat1/(2 nat2)` with noise variance
`-1/(2 nat2)`. -/
theorem C20_univariate_sites {N : ℕ} (s : UnivariateSites N) (h : ∀ t, s.nat2 t 0 0 < 0) (t) :
    (s.precisions t).PosDef ∧
      s.means t 0 = -s.nat1 t 0 / (2 * s.nat2 t 0 0) ∧
      (s.precisions t)⁻¹ 0 0 = -1 / (2 * s.nat2 t 0 0) ∧
      s.logDetPrecisions t 0 0 = Real.log (s.precisions t).det := by
  have hp : (s.precisions t) = fun _ _ => -2 * s.nat2 t 0 0 := by
    funext i j
    fin_cases i; fin_cases j
    rfl
  have hpos : 0 < -2 * s.nat2 t 0 0 := by have := h t; linarith
  have hdet : (s.precisions t).det = -2 * s.nat2 t 0 0 := by
    rw [det_unique, hp]
  refine ⟨?_, ?_, ?_, ?_⟩
  · have : s.precisions t = (-2 * s.nat2 t 0 0) • (1 : Mat 1 1) := by
      ext i j; fin_cases i; fin_cases j; simp [hp]
    rw [this]
    exact PosDef.one.smul hpos
  · have := (h t).ne
    simp only [UnivariateSites.means]
    field_simp
  · have h2 : (s.precisions t)⁻¹ = fun _ _ => (-2 * s.nat2 t 0 0)⁻¹ := by
      have h3 : s.precisions t = (-2 * s.nat2 t 0 0) • (1 : Mat 1 1) := by
        ext i j; fin_cases i; fin_cases j; simp [hp]
      have h4 : s.precisions t * ((-2 * s.nat2 t 0 0)⁻¹ • (1 : Mat 1 1)) = 1 := by
        rw [h3, Matrix.smul_mul, Matrix.mul_smul, Matrix.one_mul, smul_smul,
          mul_inv_cancel₀ hpos.ne', one_smul]
      rw [inv_eq_right_inv h4]
      ext i j; fin_cases i; fin_cases j; simp
    rw [h2]
    have := (h t).ne
    field_simp
  · rw [hdet]; rfl

theorem scatterNd_injective {α : Type*} [AddCommMonoid α] {N G : ℕ} {idx : Fin N → Fin G}
    (h : Function.Injective idx) (u : Fin N → α) (j : Fin N) : scatterNd idx u (idx j) = u j := by
  unfold scatterNd
  rw [Finset.sum_eq_single j]
  · simp
  · intro b _ hb; rw [if_neg (fun e => hb (h e))]
  · simp

theorem scatterNd_not_mem {α : Type*} [AddCommMonoid α] {N G : ℕ} {idx : Fin N → Fin G}
    (u : Fin N → α) (g : Fin G) (h : ∀ j, idx j ≠ g) : scatterNd idx u g = 0 := by
  unfold scatterNd
  exact Finset.sum_eq_zero fun j _ => if_neg (h j)

/-- C20: with distinct observed grid indices, `KalmanFilterWithSparseSites` performs exact inference
for observations at those indices only, and its `log_likelihood` is their marginal likelihood. -/
theorem C20_sparse_sites {N : ℕ} (prior : SSM n d) (H : Fin (n + 1) → Mat 1 d)
    (precisions : Fin N → Mat 1 1) (idx : Fin N → Fin (n + 1)) (y : Fin N → Vec 1)
    (hp : prior.Nondegenerate) (hP : ∀ j, (precisions j).PosDef) (hidx : Function.Injective idx)
    (hn : 0 < n) (hd : 0 < d) :
    ∃ s r, (sparseFilter prior H precisions idx y).posteriorSSM = .ok s ∧ s.Nondegenerate ∧
      sparseLogLikelihood prior H precisions idx y = .ok r ∧
      IsBayesPosterior (stateLaw prior)
        (obsLogLik (fun j => H (idx j)) idx (fun j => (precisions j)⁻¹) y) (stateLaw s) ∧
      (∀ μ K μ' K', HasMoments prior μ K → HasMoments s μ' K' →
        TextbookPosterior μ K (obsMatrix (fun j => H (idx j)) idx)
          (blkDiag fun t => (precisions t)⁻¹) y μ' K') ∧
      evidence (stateLaw prior)
        (obsLogLik (fun j => H (idx j)) idx (fun j => (precisions j)⁻¹) y) =
        ENNReal.ofReal (Real.exp r) := by
  set f := sparseFilter prior H precisions idx y with hf
  have hi : ∀ t, ((precisions t)⁻¹)⁻¹ = precisions t := fun t =>
    nonsing_inv_nonsing_inv _ (isUnit_det (hP t).isUnit)
  have hR : ∀ j, ((precisions j)⁻¹).PosDef := fun j => (hP j).inv
  have hsym : ∀ t, (f.rInv t)ᵀ = f.rInv t := by
    intro t; ext i j; fin_cases i; fin_cases j; rfl
  have hlik : ∀ k, f.lik k = ∑ j, if idx j = k then
      (H (idx j))ᵀ * ((precisions j)⁻¹)⁻¹ * H (idx j) else 0 := by
    intro k
    simp only [hi]
    by_cases hk : ∃ j, idx j = k
    · obtain ⟨j, rfl⟩ := hk
      rw [Finset.sum_eq_single j]
      · show (H (idx j))ᵀ * scatterNd idx precisions (idx j) * H (idx j) = _
        rw [scatterNd_injective hidx, if_pos rfl]
      · intro b _ hb; rw [if_neg (fun e => hb (hidx e))]
      · simp
    · push Not at hk
      rw [Finset.sum_eq_zero fun j _ => if_neg (hk j)]
      show (H k)ᵀ * scatterNd idx precisions k * H k = 0
      rw [scatterNd_not_mem _ _ hk]; simp
  have hobs : ∀ (z : Fin N → Vec 1) (w : Fin (n + 1) → Vec 1), (∀ j, w (idx j) = z j) →
      ∀ k, ((f.H k)ᵀ * f.rInv k) *ᵥ w k = ∑ j, if idx j = k then
      ((H (idx j))ᵀ * ((precisions j)⁻¹)⁻¹) *ᵥ z j else 0 := by
    intro z w hw k
    simp only [hi]
    by_cases hk : ∃ j, idx j = k
    · obtain ⟨j, rfl⟩ := hk
      rw [Finset.sum_eq_single j]
      · show ((H (idx j))ᵀ * scatterNd idx precisions (idx j)) *ᵥ _ = _
        rw [scatterNd_injective hidx, if_pos rfl, hw]
      · intro b _ hb; rw [if_neg (fun e => hb (hidx e))]
      · simp
    · push Not at hk
      rw [Finset.sum_eq_zero fun j _ => if_neg (hk j)]
      show ((H k)ᵀ * scatterNd idx precisions k) *ᵥ w k = 0
      rw [scatterNd_not_mem _ _ hk]; simp
  obtain ⟨hJ, s, hs, hnd, -, hK, hm, hb⟩ := KF.posterior_bayes (f := f) hp hsym hn
    (fun j => H (idx j)) idx (fun j => (precisions j)⁻¹) y hR hlik
    (hobs y f.obs fun j => scatterNd_injective hidx y j)
  have e := evidence_formula' (f := f) hp (fun j => H (idx j)) idx (fun j => (precisions j)⁻¹) y hR hlik
    (fun t => ((f.H t)ᵀ * f.rInv t) *ᵥ (f.obs t - f.H t *ᵥ f.prior.mus t))
    (hobs (fun j => y j - H (idx j) *ᵥ f.prior.mus (idx j))
      (fun t => f.obs t - f.H t *ᵥ f.prior.mus t) (fun j => by
        show scatterNd idx y (idx j) - _ = _
        rw [scatterNd_injective hidx]
        rfl))
  simp only [hi] at e
  obtain ⟨c, hc, hcc, hca⟩ := KF.post_cholesky (f := f) hp hsym hn hd hJ
  have hbp : f.backProject (fun t => f.obs t - f.H t *ᵥ f.prior.mus t) =
      fun t => ((f.H t)ᵀ * f.rInv t) *ᵥ (f.obs t - f.H t *ᵥ f.prior.mus t) := by
    funext t; exact KF.backProject_eq hsym _ t
  have hproj : projectStateToF f.H f.prior.mus = fun t => f.H t *ᵥ f.prior.mus t := rfl
  have hld : f.logDetR = .ok (∑ j, Real.log (precisions j).det) := sumLogdet_posDef hP
  refine ⟨s, gaussLogDensity (obsMatrix (fun j => H (idx j)) idx *ᵥ stk f.prior.mus)
        (obsMatrix (fun j => H (idx j)) idx * f.prior.Kd * (obsMatrix (fun j => H (idx j)) idx)ᵀ +
          blkDiag fun j => (precisions j)⁻¹) (stk y), hs, hnd, ?_, hb, ?_, ?_⟩
  · rw [e]
    unfold sparseLogLikelihood
    have hk := KF.kInvPost_eq (f := f) hp hn
    have hmm := SSM.marginalMeans_eq (s := f.prior) hn
    simp only [bind, Except.bind, ← hf, hk, hmm, hc, hproj, hld, hbp, pure, Except.pure]
    rw [KF.sq_sum_eq c _ hcc, hca, SSM.logdet_Kd (s := f.prior) hp]
    congr 1
    have e1 : ∀ j, ∑ o, ∑ q, precisions j o q * (y j - f.H (idx j) *ᵥ f.prior.mus (idx j)) q *
        (y j - f.H (idx j) *ᵥ f.prior.mus (idx j)) o =
        (y j - H (idx j) *ᵥ f.prior.mus (idx j)) ⬝ᵥ
            (precisions j *ᵥ (y j - H (idx j) *ᵥ f.prior.mus (idx j))) := by
      intro j
      show ∑ o, ∑ q, precisions j o q * (y j - H (idx j) *ᵥ f.prior.mus (idx j)) q *
        (y j - H (idx j) *ᵥ f.prior.mus (idx j)) o = _
      simp only [dotProduct, mulVec]
      refine Finset.sum_congr rfl fun o _ => ?_
      rw [← Finset.sum_mul, mul_comm]
    simp only [e1]
    push_cast
    ring
  · intro μ K μ' K' h1 h2
    obtain ⟨rfl, rfl⟩ := h1.eq
    obtain ⟨rfl, rfl⟩ := h2.eq
    exact textbook_of hp hnd _ (posDef_blkDiag hR) y hK hm
  · exact evidence_eq hp (fun j => H (idx j)) idx (fun j => (precisions j)⁻¹) y hR

/-- C20 (why distinctness is needed): two observations `y₀, y₁` of equal precision `r` scattered to
the same grid point are treated as one observation `y₀ + y₁` of precision `2 r`, whose information
vector is twice the correct `r (y₀ + y₁)`. -/
theorem C20_duplicate_indices (prior : SSM n d) (H : Fin (n + 1) → Mat 1 d) (r : ℝ)
    (y : Fin 2 → Vec 1) (k : Fin (n + 1)) :
    (sparseFilter prior H (fun _ => r • (1 : Mat 1 1)) (fun _ : Fin 2 => k) y).backProject
        (sparseFilter prior H (fun _ => r • (1 : Mat 1 1)) (fun _ : Fin 2 => k) y).obs k =
      (2 : ℝ) • ∑ j, ((H k)ᵀ * (r • (1 : Mat 1 1))) *ᵥ y j := by
  set f := sparseFilter prior H (fun _ => r • (1 : Mat 1 1)) (fun _ : Fin 2 => k) y with hf
  have hsym : ∀ t, (f.rInv t)ᵀ = f.rInv t := by
    intro t; ext i j; fin_cases i; fin_cases j; rfl
  rw [KF.backProject_eq hsym]
  have h1 : f.rInv k = (2 : ℝ) • (r • (1 : Mat 1 1)) := by
    show scatterNd _ _ k = _
    simp [scatterNd, two_smul]
  have h2 : f.obs k = ∑ j, y j := by
    show scatterNd _ _ k = _
    simp [scatterNd]
  have h3 : f.H = H := rfl
  rw [h1, h2, h3, Matrix.mul_smul, smul_mulVec, mulVec_sum]

/-- Non-vacuity for C20: two distinct grid points out of three are observed. -/
example : ∃ (prec : Fin 2 → Mat 1 1) (idx : Fin 2 → Fin 3), exSSM.Nondegenerate ∧
    (∀ j, (prec j).PosDef) ∧ Function.Injective idx :=
  ⟨fun _ => 1, ![0, 2], exSSM_nondegenerate, fun _ => PosDef.one, by
    intro a b h; fin_cases a <;> fin_cases b <;> simp_all⟩

end MF
