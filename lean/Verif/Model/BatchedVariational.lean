import Verif.Model.BatchedPosterior
import Verif.Model.SVGP
import Verif.Model.PredictDensity

/-!
# Transformations and variational models on tensors of any batch shape

`ssm_gaussian_transformations.py`, `models/variational.py`, `models/sparse_variational.py` and the constructor of
`models/variational_cvi.py` once more, on raw tensors. Shapes are innermost first (see `Verif/Model/Tensor.lean`). The 5-tuples of state space
parameters are represented by the record `TSSM` (without the checks of its constructor), as in `Verif/Model/Transformations.lean`.
-/

namespace MF
open Tensor

namespace Tensor

/-- `tf.linalg.solve(A, B)` (contract): the batch shapes must agree; raises as soon as one matrix is singular. -/
noncomputable def solveT (x y : Tensor) : Except Err Tensor :=
  match x.shape, y.shape with
  | k :: r :: s, c :: k' :: t =>
    if k = r ∧ k = k' ∧ s = t then batched s fun b => tfSolve (x.matAt k k b) (y.matAt k c b) else .error .invalidArgument
  | _, _ => .error .invalidArgument

/-- `solve_triang_band(left, right, …, transpose_left=True)` (contract; ssm_gaussian_transformations.py:473-481), with a lower-banded result of
the bandwidth of `right`; the bandwidths are the numbers of rows minus one. -/
noncomputable def solveTriangBandLeftT (left right : Tensor) : Except Err Tensor :=
  match left.shape, right.shape with
  | N :: rl :: s, N' :: rr :: t =>
    if N = N' then do
      let u ← bshape s t
      return ofMats (r := rr) (c := N) u fun b i j =>
        MF.solveTriangBandT N (rl - 1) (rr - 1) (left.arrayAt (bidx s b)) (right.arrayAt (bidx t b)) i j
    else .error .invalidArgument
  | _, _ => .error .invalidArgument

/-- `x[..., lo:]` to the end of the innermost axis, with `-k:` written as the position it starts at (contract) -/
def lastCols (k : ℕ) (x : Tensor) : Tensor := sliceFrom 0 (x.dim 0 - k) x

/-- The values of a `Parameter` with transform `triangular()` on matrices (contract of `tfp.bijectors.FillTriangular`): the lower triangle. -/
def trilT (x : Tensor) : Tensor :=
  ⟨x.shape, fun i => match i with
    | j :: i :: b => if j ≤ i then x.val (j :: i :: b) else 0
    | b => x.val b⟩

end Tensor

/-! ### `ssm_gaussian_transformations.py` -/

/-- `ssm_to_expectations` (ssm_gaussian_transformations.py:31-89) -/
noncomputable def tensorSsmToExpectations (s : TSSM) : Except Err (Tensor × Tensor × Tensor) := do
  let mm ← s.marginalMeans
  let means := expand 0 mm
  let covs ← s.marginalCovariances
  let mmT ← matmul means means.matT
  let etaDiag ← plus covs mmT
  let AC ← matmul s.A (sliceDrop 2 1 covs)
  let mm' ← matmul (sliceFrom 2 1 means) (sliceDrop 2 1 means).matT
  let etaSub ← plus AC mm'
  return (index 0 0 means, etaDiag, etaSub)

/-- `expectations_to_ssm_params` (ssm_gaussian_transformations.py:92-178) -/
noncomputable def tensorExpectationsToSSM (etaLinear etaDiag etaSub : Tensor) : Except Err TSSM := do
  let means := expand 0 etaLinear
  let mmT ← matmul means means.matT
  let covs ← minus etaDiag mmT
  let mm' ← matmul (sliceDrop 2 1 means) (sliceFrom 2 1 means).matT
  let covsSub ← minus etaSub.matT mm'
  let chols ← choleskyT covs
  let sol ← cholSolveT (sliceDrop 2 1 chols) covsSub
  let As := sol.matT
  let initialMean := index 1 0 (index 0 0 means)
  let cholInitial := index 2 0 chols
  let Am ← matmul As (sliceDrop 2 1 means)
  let offsets ← minus (sliceFrom 2 1 means) Am
  let CA ← matmul (sliceDrop 2 1 covs) As.matT
  let ACA ← matmul As CA
  let condCovs ← minus (sliceFrom 2 1 covs) ACA
  let cholQ ← choleskyT condCovs
  return ⟨initialMean, cholInitial, As, index 0 0 offsets, cholQ⟩

/-- `ssm_to_naturals` (ssm_gaussian_transformations.py:181-253) -/
noncomputable def tensorSsmToNaturals (s : TSSM) : Except Err (Tensor × Tensor × Tensor) := do
  let offs ← s.concatOffsets
  let offsets := expand 0 offs
  let chols ← s.concatChol
  let linvA ← triSolveT (sliceFrom 2 1 chols) s.A
  let thetaSub ← triSolveT (sliceFrom 2 1 chols) linvA true
  let tmp ← cholSolveT chols offsets
  let At ← matmul s.A.matT (sliceFrom 2 1 tmp)
  let first ← minus (sliceDrop 2 1 tmp) At
  let thetaLinear ← concat 2 first (sliceFrom 2 (tmp.dim 2 - 1) tmp)
  let tmp2 ← matmul linvA.matT linvA
  let tmp2' ← concat 2 tmp2 (zeros (sliceTo 2 1 tmp2).shape)
  let precisions ← cholSolveT chols (eye s.stateDim (chols.shape.drop 2))
  let p ← plus precisions tmp2'
  return (index 0 0 thetaLinear, p.map (-(1 / 2 : ℝ) * ·), thetaSub)

/-- `ssm_to_naturals_no_smoothing` (ssm_gaussian_transformations.py:256-329) -/
noncomputable def tensorSsmToNaturalsNoSmoothing (s : TSSM) : Except Err (Tensor × Tensor × Tensor) := do
  let offs ← s.concatOffsets
  let offsets := expand 0 offs
  let chols ← s.concatChol
  let thetaSub ← cholSolveT (sliceFrom 2 1 chols) s.A
  let thetaLinear ← cholSolveT chols offsets
  let precisions ← cholSolveT chols (eye s.stateDim (chols.shape.drop 2))
  return (index 0 0 thetaLinear, precisions.map (-(1 / 2 : ℝ) * ·), thetaSub)

/-- `naturals_to_ssm_params` (ssm_gaussian_transformations.py:332-511) -/
noncomputable def tensorNaturalsToSSM (thetaLinear thetaDiag thetaSub : Tensor) : Except Err TSSM := do
  let precision ← TBTD.init true (thetaDiag.map (-2 * ·)) (some (thetaSub.map (-·)))
  -- l.442-454
  let chol ← precision.cholesky
  let cholBand ← chol.asBand
  let block := bandToBlockT precision.inner true (inverseFromCholeskyBandT cholBand)
  let covBlocks ← reshape (2 * precision.inner :: precision.inner :: precision.outer :: precision.batch) block.matT
  -- l.456-463
  let marginalCovs := sliceTo 0 precision.inner covBlocks
  let subDiag := lastCols precision.inner covBlocks
  let sol ← solveT marginalCovs subDiag
  let As := sliceDrop 2 1 sol.matT
  -- l.465-471
  let identities := eye precision.inner (precision.outer :: precision.batch)
  let aInv ← TBTD.init false identities (some (As.map (-·)))
  -- l.473-491
  let aInvBand ← aInv.asBand
  let precisionBand ← precision.asBand
  let tmp ← solveTriangBandLeftT aInvBand precisionBand
  let tmpBlock := sliceTo 1 precision.inner (bandToBlockT precision.inner true tmp)
  let condPrecisions ← reshape (precision.inner :: precision.inner :: precision.outer :: precision.batch) tmpBlock.matT
  -- l.493-511
  let cholPrec ← choleskyT condPrecisions
  let covariances ← cholSolveT cholPrec identities
  let chols ← choleskyT covariances
  let pto ← aInv.solve thetaLinear true
  let offsets ← matmul covariances (expand 0 pto)
  return ⟨index 1 0 (index 0 0 offsets), index 2 0 chols, As, index 0 0 (sliceFrom 2 1 offsets), sliceFrom 2 1 chols⟩

/-- `naturals_to_ssm_params_no_smoothing` (ssm_gaussian_transformations.py:514-593) -/
noncomputable def tensorNaturalsToSSMNoSmoothing (thetaLinear thetaDiag thetaSub : Tensor) : Except Err TSSM := do
  let cholPrec ← choleskyT (thetaDiag.map (-2 * ·))
  let As ← cholSolveT (sliceFrom 2 1 cholPrec) thetaSub
  let offsets ← cholSolveT cholPrec (expand 0 thetaLinear)
  let covs ← cholSolveT cholPrec (eye (cholPrec.dim 0) (index 0 0 (index 0 0 cholPrec)).shape)
  let chols ← choleskyT covs
  return ⟨index 1 0 (index 0 0 offsets), index 2 0 chols, As, index 0 0 (sliceFrom 2 1 offsets), sliceFrom 2 1 chols⟩

/-! ### Variational models -/

/-- `create_trainable_copy` (state_space_model.py:396-429), as `SSM.createTrainableCopy`, with the checks of the constructor and
`check_compatible`. -/
def TSSM.createTrainableCopy (s : TSSM) : Except Err TSSM := do
  let c ← TSSM.init s.mu0 (trilT s.cholP0) s.A s.b (trilT s.cholQ)
  Shapes.checkCompatible c.A.tfShape s.A.tfShape
  return c

/-- A scalar function of `Fmu`, `Fvar`, `Y` applied element-wise with broadcasting, then summed over the outputs (contract of GPflow's scalar
likelihoods; called at variational.py:141-146). -/
def likelihoodTerm (f : ℝ → ℝ → ℝ → ℝ) (Fmu Fvar Y : Tensor) : Except Err Tensor := do
  let w ← bshape Fmu.shape Fvar.shape
  let s ← bshape w Y.shape
  return (sum1 ⟨s, fun i => f (Fmu.val (bidx Fmu.shape i)) (Fvar.val (bidx Fvar.shape i)) (Y.val (bidx Y.shape i))⟩)

/-- The attributes of a `VariationalGaussianProcess` (variational.py:80-127). -/
structure TVGP where
  /-- `time_points` -/
  times : Tensor
  /-- `observations` -/
  observations : Tensor
  /-- `kernel` -/
  kernel : TKernel
  /-- `likelihood` -/
  likelihood : ScalarLikelihood
  /-- `mean_function` -/
  meanFunction : Tensor → Except Err Tensor
  /-- `dist_q` -/
  q : TSSM

namespace TVGP

/-- `__init__` (variational.py:80-127) -/
noncomputable def init (times observations : Tensor) (kernel : TKernel) (likelihood : ScalarLikelihood)
    (meanFunction : Option (Tensor → Except Err Tensor)) (initialDistribution : Option TSSM) : Except Err TVGP := do
  let initial ← match initialDistribution with
    | none => kernel.stateSpaceModel times
    | some q => pure q
  let q ← initial.createTrainableCopy
  return ⟨times, observations, kernel, likelihood, meanFunction.getD (tensorZeroMean 1), q⟩

variable (v : TVGP)

/-- `dist_p` (variational.py:193-198) -/
noncomputable def distP : Except Err TSSM := v.kernel.stateSpaceModel v.times

/-- `posterior` (variational.py:207-216, built in `__init__` l.121-127) -/
def posterior : TCondProcess := ⟨v.q, v.kernel, v.times, v.meanFunction⟩

/-- `elbo` (variational.py:129-152) -/
noncomputable def elbo : Except Err ℝ := do
  let (mus, covs) ← v.posterior.predictF v.times false
  let ve ← likelihoodTerm v.likelihood.varExp mus covs v.observations
  let p ← v.distP
  let kl ← v.q.klDivergence p
  return ve.sumAll - kl.sumAll

/-- `loss` (variational.py:218-222) -/
noncomputable def loss : Except Err ℝ := do
  let e ← v.elbo
  return -e

end TVGP

/-- The attributes of a `SparseVariationalGaussianProcess` (sparse_variational.py:97-147). -/
structure TSVGP where
  /-- `kernel` -/
  kernel : TKernel
  /-- `likelihood` -/
  likelihood : ScalarLikelihood
  /-- `inducing_inputs` -/
  inducing : Tensor
  /-- `mean_function` -/
  meanFunction : Tensor → Except Err Tensor
  /-- `num_data` -/
  numData : Option ℕ
  /-- `dist_q` -/
  q : TSSM

namespace TSVGP

/-- `__init__` (sparse_variational.py:97-147) -/
noncomputable def init (kernel : TKernel) (likelihood : ScalarLikelihood) (inducing : Tensor)
    (meanFunction : Option (Tensor → Except Err Tensor)) (numData : Option ℕ) (initialDistribution : Option TSSM) : Except Err TSVGP := do
  let initial ← match initialDistribution with
    | none => kernel.stateSpaceModel inducing
    | some q => pure q
  let q ← initial.createTrainableCopy
  return ⟨kernel, likelihood, inducing, meanFunction.getD (tensorZeroMean 1), numData, q⟩

variable (v : TSVGP)

/-- `dist_p` (sparse_variational.py:225-230) -/
noncomputable def distP : Except Err TSSM := v.kernel.stateSpaceModel v.inducing

/-- `posterior` (sparse_variational.py:239-248, built in `__init__` l.140-146) -/
def posterior : TCondProcess := ⟨v.q, v.kernel, v.inducing, v.meanFunction⟩

/-- `elbo` (sparse_variational.py:149-192); `0 / 0` for an empty minibatch is `0` here, as in `SVGP.elbo`. -/
noncomputable def elbo (X Y : Tensor) : Except Err ℝ := do
  let (mus, covs) ← v.posterior.predictF X false
  let ve ← likelihoodTerm v.likelihood.varExp mus covs Y
  let prior ← v.distP
  let kl ← v.q.klDivergence prior
  let scale : ℝ := match v.numData with
    | some numData => (numData : ℝ) / (X.dim 0 : ℝ)
    | none => 1
  return ve.sumAll * scale - kl.sumAll

/-- `loss` (sparse_variational.py:250-260) -/
noncomputable def loss (X Y : Tensor) : Except Err ℝ := do
  let e ← v.elbo X Y
  return -e

/-- `predict_log_density` (sparse_variational.py:262-270) -/
noncomputable def predictLogDensity (lik : PredictiveLikelihood) (X Y : Tensor) : Except Err Tensor := do
  let (mus, covs) ← v.posterior.predictF X false
  likelihoodTerm lik.predictLogDensity mus covs Y

end TSVGP

/-- The sites of `GaussianProcessWithSitesBase.__init__` (variational_cvi.py:69-102), the base class of `CVIGaussianProcess` and
`PowerExpectationPropagation`: `nat1 = zeros_like(observations)`, `nat2 = ones_like(observations)[..., None] * -1e-10`, `log_norm` as `nat1`, and the
checks of `UnivariateGaussianSitesNat`. -/
noncomputable def tensorSitesInit (observations : Tensor) : Except Err (Tensor × Tensor) := do
  let nat1 := zeros observations.shape
  let nat2 := (expand 0 (ones observations.shape)).map (· * -1e-10)
  let _ ← Shapes.sitesInit nat1.tfShape nat2.tfShape (some (zeros observations.shape).tfShape)
  return (nat1, nat2)

end MF
