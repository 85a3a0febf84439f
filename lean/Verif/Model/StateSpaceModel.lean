import Verif.Model.BlockTriDiag
import Mathlib.Analysis.SpecialFunctions.Trigonometric.Basic

/-!
# Model of `markovflow/state_space_model.py` and `markovflow/gauss_markov.py`

Batch shape `()`, `n = num_transitions`, `d = state_dim`.
-/

namespace MF
open Matrix

/-- `tfd.MultivariateNormalTriL(loc, scale_tril).log_prob(x)`: contract. Only the lower triangle of
`scale_tril` is read. -/
noncomputable def mvnTriLLogProb {d : ℕ} (loc : Vec d) (scale : Mat d d) (x : Vec d) : ℝ :=
  let r := (tril scale)⁻¹ *ᵥ (x - loc)
  (-1 / 2) * (r ⬝ᵥ r) - (d / 2) * Real.log (2 * Real.pi) - ∑ i, Real.log (abs (scale i i))

/-- A `StateSpaceModel` instance (state_space_model.py:35-124): the five tensors stored by
`__init__`. The shape assertions (l.101-116) hold by typing; they are modelled on raw shapes in
`Verif/Model/Shapes.lean`. -/
structure SSM (n d : ℕ) where
  /-- `_mu_0` -/
  mu0 : Vec d
  /-- `_chol_P_0` -/
  cholP0 : Mat d d
  /-- `_A_s` -/
  A : Fin n → Mat d d
  /-- `_b_s` -/
  b : Fin n → Vec d
  /-- `_chol_Q_s` -/
  cholQ : Fin n → Mat d d

namespace SSM
variable {n d : ℕ} (s : SSM n d)

/-- `initial_covariance` (l.175-182) -/
def initialCovariance : Mat d d := s.cholP0 * s.cholP0ᵀ

/-- `concatenated_cholesky_process_covariance` (l.184-191) -/
def concatChol : Fin (n + 1) → Mat d d := Fin.cons s.cholP0 s.cholQ

/-- `concatenated_state_offsets` (l.212-219) -/
def concatOffsets : Fin (n + 1) → Vec d := Fin.cons s.mu0 s.b

/-- `a_inv_block` (l.277-296) -/
def aInvBlock : Except Err (LowerBTD n d) :=
  BTD.init false (fun _ => 1) (some fun k => -s.A k)

/-- `marginal_means` (l.231-251) -/
noncomputable def marginalMeans : Except Err (Fin (n + 1) → Vec d) := do
  let a ← s.aInvBlock
  return a.solve s.concatOffsets

/-- `_build_precision` (l.431-483), `precision` (gauss_markov.py:72-77) -/
noncomputable def precision : Except Err (SymBTD n d) :=
  let invQA : Fin n → Mat d d := fun k => cholSolve (s.cholQ k) (s.A k)
  let aqa : Fin n → Mat d d := fun k => (s.A k)ᵀ * invQA k
  let concattedInvQ : Fin (n + 1) → Mat d d := fun b => cholSolve (s.concatChol b) 1
  let padded : Fin (n + 1) → Mat d d := Fin.snoc (α := fun _ => Mat d d) aqa 0
  let diag := fun b => concattedInvQ b + padded b
  BTD.init true diag (some fun k => -invQA k)

/-- `marginal_covariances` (l.253-262) -/
noncomputable def marginalCovariances : Except Err (Fin (n + 1) → Mat d d) := do
  let p ← s.precision
  let c ← p.cholesky
  return c.blockDiagonalOfInverse

/-- `subsequent_covariances` (l.326-341) -/
def subsequentCovariances (marginalCovs : Fin (n + 1) → Mat d d) : Fin n → Mat d d :=
  fun k => s.A k * marginalCovs k.castSucc

/-- `covariance_blocks` (l.264-275) -/
noncomputable def covarianceBlocks :
    Except Err ((Fin (n + 1) → Mat d d) × (Fin n → Mat d d)) := do
  let m ← s.marginalCovariances
  let m' ← s.marginalCovariances
  return (m, s.subsequentCovariances m')

/-- `marginals` (gauss_markov.py:107-117) -/
noncomputable def marginals : Except Err ((Fin (n + 1) → Vec d) × (Fin (n + 1) → Mat d d)) := do
  let m ← s.marginalMeans
  let c ← s.marginalCovariances
  return (m, c)

/-- `sample` (l.298-324) for one sample, as a function of the standard normal draws `epsilons`. -/
noncomputable def sample (epsilons : Fin (n + 1) → Vec d) : Except Err (Fin (n + 1) → Vec d) := do
  let b := s.concatOffsets
  let z : Fin (n + 1) → Vec d := fun k => s.concatChol k *ᵥ epsilons k
  let conditionalEpsilons : Fin (n + 1) → Vec d := fun k => b k + z k
  let a ← s.aInvBlock
  return a.solve conditionalEpsilons

/-- `log_det_precision` (l.343-373) -/
noncomputable def logDetPrecision : ℝ :=
  -((∑ i, Real.log ((s.cholP0 i i) ^ 2)) + ∑ k, ∑ i, Real.log ((s.cholQ k i i) ^ 2))

/-- `_log_pdf_factors` (l.485-513) -/
noncomputable def logPdfFactors (x : Fin (n + 1) → Vec d) : Fin (n + 1) → ℝ :=
  let initialPdf := mvnTriLLogProb s.mu0 s.cholP0 (x 0)
  let condMeans : Fin n → Vec d := fun k => s.A k *ᵥ x k.castSucc + s.b k
  let remaining : Fin n → ℝ := fun k => mvnTriLLogProb (condMeans k) (s.cholQ k) (x k.succ)
  Fin.cons initialPdf remaining

/-- `log_pdf` (l.515-526) -/
noncomputable def logPdf (x : Fin (n + 1) → Vec d) : ℝ := ∑ k, s.logPdfFactors x k

/-- `create_non_trainable_copy` (l.375-394): `tf.stop_gradient` is the identity on values. -/
def createNonTrainableCopy : SSM n d := ⟨s.mu0, s.cholP0, s.A, s.b, s.cholQ⟩

/-- `create_trainable_copy` (l.396-429): wraps the tensors in `Parameter`s; the Cholesky factors go
through gpflow's `triangular()` bijector (`FillTriangular`): flattening the lower triangle and
rebuilding it, i.e. `tril` on values. -/
def createTrainableCopy : SSM n d :=
  ⟨s.mu0, tril s.cholP0, s.A, s.b, fun k => tril (s.cholQ k)⟩

/-- `kl_divergence` (l.528-593). `check_compatible` holds by typing. -/
noncomputable def klDivergence (dist : SSM n d) : Except Err ℝ := do
  let marginalCovs1 ← s.marginalCovariances
  let precision2 ← dist.precision
  let subsequentCovs1 := s.subsequentCovariances marginalCovs1
  -- `precision_2.block_sub_diagonal` is never `None` for a `StateSpaceModel`
  let sub2 : Fin n → Mat d d := precision2.sub.getD 0
  let trace := (∑ b, ∑ i, ∑ j, precision2.diag b i j * marginalCovs1 b i j)
    + 2 * ∑ k, ∑ i, ∑ j, sub2 k i j * subsequentCovs1 k i j
  let m2 ← dist.marginalMeans
  let m1 ← s.marginalMeans
  let meanDiff : Fin (n + 1) → Vec d := fun b => m2 b - m1 b
  let c ← precision2.cholesky
  let lMeanDiff := c.denseMult meanDiff true
  let mahalanobis := ∑ b, ∑ i, lMeanDiff b i * lMeanDiff b i
  let dim : ℝ := ((n + 1) * d : ℕ)
  return (1 / 2) * (trace + mahalanobis - dim - dist.logDetPrecision + s.logDetPrecision)

/-- `normalizer` (l.595-609) -/
noncomputable def normalizer : Except Err ℝ := do
  let dim : ℝ := ((n + 1) * d : ℕ)
  let cst := dim * Real.log (2 * Real.pi)
  let logDet := -s.logDetPrecision
  let p ← s.precision
  let c ← p.cholesky
  let (m, _) ← s.marginals
  let lMean := c.denseMult m true
  let mahalanobis := ∑ b, ∑ i, lMean b i * lMean b i
  return (1 / 2) * (cst + logDet + mahalanobis)

end SSM

open Classical in
/-- `cholesky_or_zero` (l.634-656) on one matrix: `mask` is "all entries equal zero"; the Cholesky of
`covariance + fix` is evaluated in either case. -/
noncomputable def choleskyOrZero {d : ℕ} (covariance : Mat d d) : Except Err (Mat d d) := do
  let mask : Prop := ∀ i j, covariance i j = 0
  let fix : Mat d d := if mask then 1 else 0
  let c ← tfCholesky (covariance + fix)
  return if mask then 0 else c

/-- `choleskyOrZero` on a stack of matrices: one failing factorisation fails the whole op (state_space_model.py:622-664). -/
noncomputable def choleskyOrZeros {d : ℕ} : {n : ℕ} → (Fin n → Mat d d) →
    Except Err (Fin n → Mat d d)
  | 0, _ => .ok Fin.elim0
  | _ + 1, q => do
    let c ← choleskyOrZero (q 0)
    let cs ← choleskyOrZeros (Fin.tail q)
    return Fin.cons c cs

/-- `state_space_model_from_covariances` (l.612-664). `assert_greater_equal(size(covariance), 1)`
(l.646) fails when there are no transitions (or state dimension zero). -/
noncomputable def ssmFromCovariances {n d : ℕ} (initialMean : Vec d) (initialCovariance : Mat d d)
    (stateTransitions : Fin n → Mat d d) (stateOffsets : Fin n → Vec d)
    (processCovariances : Fin n → Mat d d) : Except Err (SSM n d) := do
  if n = 0 ∨ d = 0 then .error .invalidArgument
  let c0 ← choleskyOrZero initialCovariance
  let cq ← choleskyOrZeros processCovariances
  return ⟨initialMean, c0, stateTransitions, stateOffsets, cq⟩

end MF
