import Verif.Model.Tensor

/-!
# The core classes on tensors of any batch shape

`block_tri_diag.py`, `state_space_model.py`, `emission_model.py` and `kalman_filter.py` once more, now on raw tensors: every axis number,
reshape, slice and shape assertion of the code is present. Shapes are innermost first (see `Verif/Model/Tensor.lean`): `x.shape.drop 3` is
`x.shape[:-3]` of the code.
-/

namespace MF
open Tensor

/-- An instance of `BlockTriDiagonal` with tensors of any batch shape (block_tri_diag.py:36-88). -/
structure TBTD (sym : Bool) where
  /-- `_diag`, `[..., outer_dim, inner_dim, inner_dim]` -/
  diag : Tensor
  /-- `_sub_diag`, `[..., outer_dim - 1, inner_dim, inner_dim]` or `None` -/
  sub : Option Tensor

namespace TBTD
variable {sym : Bool}

/-- `BlockTriDiagonal.__init__` (block_tri_diag.py:45-88): the shape checks of `Verif/Model/Shapes.lean`. -/
def init (sym : Bool) (diag : Tensor) (sub : Option Tensor) : Except Err (TBTD sym) := do
  Shapes.blockTriInit diag.tfShape (sub.map tfShape)
  return ⟨diag, sub⟩

variable (M : TBTD sym)

/-- `inner_dim` (block_tri_diag.py:117-123) -/
def inner : ℕ := M.diag.dim 1
/-- `outer_dim` (block_tri_diag.py:125-130) -/
def outer : ℕ := M.diag.dim 2
/-- `batch_shape` (block_tri_diag.py:110-115) -/
def batch : List ℕ := M.diag.shape.drop 3

/-- `bandwidth` (block_tri_diag.py:101-108) -/
def bandwidth : ℕ := (M.inner - 1) + (if M.sub.isSome then M.inner else 0)

/-- `_convert_to_band` / `as_band` (block_tri_diag.py:91-98, 206-237) -/
def asBand : Except Err Tensor :=
  match M.sub with
  | none => do
    let concatted ← reshape (M.inner :: M.outer * M.inner :: M.batch) M.diag.matT
    return blockToBandT M.inner concatted.matT
  | some sub => do
    let padding := zeros (M.inner :: M.inner :: 1 :: M.batch)
    let padded ← concat 2 sub padding
    let cat ← concat 0 M.diag.matT padded.matT
    let concatted ← reshape (2 * M.inner :: M.outer * M.inner :: M.batch) cat
    return blockToBandT M.inner concatted.matT

/-- `to_dense` (block_tri_diag.py:150-173) -/
def toDense : Except Err Tensor := do
  let band ← M.asBand
  let lower := unpackBandT M.bandwidth band
  let dim := M.outer * M.inner
  Shapes.assertEqual lower.tfShape (M.batch.reverse ++ [dim, dim])
  if sym then do
    let two ← plus lower lower.matT
    minus two lower.diagPart.diag
  else return lower

/-- `_flatten_right` (block_tri_diag.py:239-249) -/
def flattenRight (right : Tensor) : Except Err Tensor := reshape (1 :: M.outer * M.inner :: right.shape.drop 2) right

/-- `_unflatten_right` (block_tri_diag.py:251-259) -/
def unflattenRight (flat : Tensor) : Except Err Tensor := reshape (M.inner :: M.outer :: flat.shape.drop 2) flat

/-- `dense_mult` (block_tri_diag.py:175-199) -/
def denseMult (right : Tensor) (transposeLeft : Bool := false) : Except Err Tensor := do
  let rightFlat ← M.flattenRight right
  let band ← M.asBand
  let prod ← productBandMatT M.bandwidth band rightFlat transposeLeft sym
  M.unflattenRight prod

/-- `LowerTriangularBlockTriDiagonal.solve` (block_tri_diag.py:339-351) -/
noncomputable def solve (M : TBTD false) (right : Tensor) (transposeLeft : Bool := false) : Except Err Tensor := do
  Shapes.assertCompatibleRight M.diag.tfShape right.tfShape
  let rightFlat ← M.flattenRight right
  let band ← M.asBand
  let solved ← solveTriangMatT band rightFlat transposeLeft
  M.unflattenRight solved

/-- `LowerTriangularBlockTriDiagonal.block_diagonal_of_inverse` (block_tri_diag.py:318-337) -/
noncomputable def blockDiagonalOfInverse (M : TBTD false) : Except Err Tensor := do
  let band ← M.asBand
  let block := bandToBlockT M.inner true (sliceTo 1 M.inner (inverseFromCholeskyBandT band))
  reshape (M.inner :: M.inner :: M.outer :: M.batch) block.matT

/-- `LowerTriangularBlockTriDiagonal.abs_log_det` (block_tri_diag.py:353-366) -/
noncomputable def absLogDet (M : TBTD false) : Except Err Tensor := do
  let band ← M.asBand
  return ((index 1 0 band).map fun v => Real.log (v ^ 2)).sum1.map ((1 / 2 : ℝ) * ·)

/-- `__add__` (block_tri_diag.py:368-380, 412-421) -/
def add (M' : TBTD sym) : Except Err (TBTD sym) := do
  let sub ← match M.sub with
    | some s => match M'.sub with
      | some s' => do
        let t ← plus s s'
        pure (some t)
      | none => pure (some s)
    | none => pure M'.sub
  let diag ← plus M.diag M'.diag
  init sym diag sub

/-- `_banded_to_block_tri` (block_tri_diag.py:548-592) -/
def bandedToBlockTri (banded : Tensor) (blockSize : ℕ) : Except Err (TBTD false) := do
  let block := bandToBlockT blockSize false banded
  let batch := block.shape.drop 2
  let numDiagsInner := block.dim 1
  let outerInner := block.dim 0
  let outer := outerInner / blockSize
  let numDiags := numDiagsInner / blockSize
  if numDiags = 1 ∨ numDiags = 2 then do
    let a ← reshape (outerInner :: blockSize :: numDiags :: batch) block
    let b ← reshape (blockSize :: blockSize :: outer :: numDiags :: batch) a.matT
    let diags := b.matT
    let sub := if numDiags = 2 then some (sliceDrop 2 1 (index 3 1 diags)) else none
    let diag := index 3 0 diags
    init false diag sub
  else .error .assertion

/-- `SymmetricBlockTriDiagonal.cholesky` (block_tri_diag.py:423-436) -/
noncomputable def cholesky (M : TBTD true) : Except Err (TBTD false) := do
  let band ← M.asBand
  let c ← choleskyBandT band
  bandedToBlockTri c M.inner

/-- The body of the `tf.while_loop` of `upper_diagonal_lower` (block_tri_diag.py:488-510). -/
noncomputable def udlStep (diag sub chols : Tensor) (counter : ℕ) : Except Err Tensor := do
  let diag_k := index 2 counter diag
  let sub_k := index 2 counter sub
  let dInv ← cholSolveT (index 2 0 chols) sub_k
  let p ← matmul sub_k.matT dInv
  let D_k ← minus diag_k p
  let c ← choleskyT (expand 2 D_k)
  concat 2 c chols

/-- The `tf.while_loop` of `upper_diagonal_lower` (block_tri_diag.py:512-530): `k` iterations are left, `counter = k - 1`. -/
noncomputable def udlLoop (diag sub : Tensor) : ℕ → Tensor → Except Err Tensor
  | 0, chols => .ok chols
  | k + 1, chols => do
    let chols' ← udlStep diag sub chols k
    udlLoop diag sub k chols'

/-- `SymmetricBlockTriDiagonal.upper_diagonal_lower` (block_tri_diag.py:438-545) -/
noncomputable def upperDiagonalLower (M : TBTD true) : Except Err (TBTD false × TBTD false) :=
  match M.sub with
  | none => .error .assertion
  | some sub => do
    let first ← choleskyT (sliceFrom 2 (M.outer - 1) M.diag)
    let chols ← udlLoop M.diag sub (M.outer - 1) first
    let identities := eye M.inner (M.outer :: M.batch)
    let us ← cholSolveT (sliceFrom 2 1 chols) sub
    let U ← init false identities (some us)
    let D ← init false chols none
    return (U, D)

end TBTD

/-- A `StateSpaceModel` instance with tensors of any batch shape (state_space_model.py:35-124). -/
structure TSSM where
  /-- `_mu_0` -/
  mu0 : Tensor
  /-- `_chol_P_0` -/
  cholP0 : Tensor
  /-- `_A_s` -/
  A : Tensor
  /-- `_b_s` -/
  b : Tensor
  /-- `_chol_Q_s` -/
  cholQ : Tensor

namespace TSSM

/-- `StateSpaceModel.__init__` (state_space_model.py:67-124): the shape checks of `Verif/Model/Shapes.lean`. -/
def init (mu0 cholP0 A b cholQ : Tensor) : Except Err TSSM := do
  Shapes.ssmInit mu0.tfShape cholP0.tfShape A.tfShape b.tfShape cholQ.tfShape
  return ⟨mu0, cholP0, A, b, cholQ⟩

variable (s : TSSM)

/-- `batch_shape` (state_space_model.py:134-139) -/
def batch : List ℕ := s.A.shape.drop 3
/-- `state_dim` (state_space_model.py:141-146) -/
def stateDim : ℕ := s.A.dim 1
/-- `num_transitions` (state_space_model.py:148-155) -/
def numTransitions : ℕ := s.A.dim 2

/-- `initial_covariance` (state_space_model.py:175-182) -/
def initialCovariance : Except Err Tensor := matmul s.cholP0 s.cholP0.matT

/-- `concatenated_cholesky_process_covariance` (state_space_model.py:184-191) -/
def concatChol : Except Err Tensor := concat 2 (expand 2 s.cholP0) s.cholQ

/-- `concatenated_state_offsets` (state_space_model.py:212-219) -/
def concatOffsets : Except Err Tensor := concat 1 (expand 1 s.mu0) s.b

/-- `event_shape` (state_space_model.py:126-132), innermost first -/
def eventShape : Except Err (List ℕ) := do
  let c ← s.concatOffsets
  return c.shape.take 2

/-- `tf.eye(state_dim, batch_shape=concat([batch_shape, event_shape[:-1]]))` (state_space_model.py:288-290, 456-460) -/
def identities : Except Err Tensor := do
  let e ← s.eventShape
  return eye s.stateDim (e.drop 1 ++ s.batch)

/-- `a_inv_block` (state_space_model.py:277-296) -/
def aInvBlock : Except Err (TBTD false) := do
  let i ← s.identities
  TBTD.init false i (some (s.A.map (-·)))

/-- `marginal_means` (state_space_model.py:231-251) -/
noncomputable def marginalMeans : Except Err Tensor := do
  let a ← s.aInvBlock
  let c ← s.concatOffsets
  a.solve c

/-- `_build_precision` (state_space_model.py:431-483) -/
noncomputable def precision : Except Err (TBTD true) := do
  let invQA ← cholSolveT s.cholQ s.A
  let aqa ← matmul s.A.matT invQA
  let padding := expand 2 (zeros s.cholP0.shape)
  let identities ← s.identities
  let c ← s.concatChol
  let invQ ← cholSolveT c identities
  let padded ← concat 2 aqa padding
  let diag ← plus invQ padded
  Shapes.assertEqual diag.tfShape c.tfShape
  TBTD.init true diag (some (invQA.map (-·)))

/-- `marginal_covariances` (state_space_model.py:253-262) -/
noncomputable def marginalCovariances : Except Err Tensor := do
  let p ← s.precision
  let c ← p.cholesky
  c.blockDiagonalOfInverse

/-- `subsequent_covariances` (state_space_model.py:326-341) -/
def subsequentCovariances (marginalCovs : Tensor) : Except Err Tensor := do
  let c ← matmul s.A (sliceDrop 2 1 marginalCovs)
  Shapes.assertEqual c.tfShape s.A.tfShape
  return c

/-- `covariance_blocks` (state_space_model.py:264-275) -/
noncomputable def covarianceBlocks : Except Err (Tensor × Tensor) := do
  let m ← s.marginalCovariances
  let m' ← s.marginalCovariances
  let c ← s.subsequentCovariances m'
  return (m, c)

/-- `marginals` (gauss_markov.py:107-117) -/
noncomputable def marginals : Except Err (Tensor × Tensor) := do
  let m ← s.marginalMeans
  let c ← s.marginalCovariances
  return (m, c)

/-- `sample(sample_shape)` (state_space_model.py:298-324) as a function of the standard normal draws, which fill a tensor of shape
`sample_shape + batch_shape + event_shape + [1]`; `sampleShape` is innermost first. -/
noncomputable def sample (sampleShape : List ℕ) (draws : List ℕ → ℝ) : Except Err Tensor := do
  let e ← s.eventShape
  let epsilons : Tensor := ⟨1 :: (e ++ s.batch ++ sampleShape), draws⟩
  let b ← s.concatOffsets
  let c ← s.concatChol
  let z ← matmul c epsilons
  let conditionalEpsilons ← plus b (index 0 0 z)
  if conditionalEpsilons.shape.prod = 0 then return conditionalEpsilons
  else do
    let a ← s.aInvBlock
    a.solve conditionalEpsilons

/-- `log_det_precision` (state_space_model.py:343-373) -/
noncomputable def logDetPrecision : Except Err Tensor := do
  let a := (s.cholP0.diagPart.map fun v => Real.log (v ^ 2)).sum1
  let b := (s.cholQ.diagPart.map fun v => Real.log (v ^ 2)).sum1.sum1
  let c ← plus a b
  let logDet := c.map (-·)
  Shapes.assertEqual logDet.tfShape s.batch.reverse
  return logDet

/-- `_log_pdf_factors` (state_space_model.py:485-513) -/
noncomputable def logPdfFactors (states : Tensor) : Except Err Tensor := do
  Shapes.logPdfStatesCheck s.mu0.tfShape s.b.tfShape states.tfShape
  let initialPdf ← mvnLogProb s.mu0 s.cholP0 (index 1 0 states)
  let Ax ← matmul s.A (expand 0 (sliceDrop 1 1 states))
  let condMeans ← plus (index 0 0 Ax) s.b
  let remaining ← mvnLogProb condMeans s.cholQ (sliceFrom 1 1 states)
  concat 0 (expand 0 initialPdf) remaining

/-- `log_pdf` (state_space_model.py:515-526) -/
noncomputable def logPdf (states : Tensor) : Except Err Tensor := do
  let f ← s.logPdfFactors states
  return f.sum1

/-- `kl_divergence` (state_space_model.py:528-593) -/
noncomputable def klDivergence (dist : TSSM) : Except Err Tensor := do
  Shapes.checkCompatible s.A.tfShape dist.A.tfShape
  let marginalCovs1 ← s.marginalCovariances
  let precision2 ← dist.precision
  let subsequentCovs1 ← s.subsequentCovariances marginalCovs1
  let t1 ← times precision2.diag marginalCovs1
  match precision2.sub with
  | none => .error .type
  | some sub2 => do
    let t2 ← times sub2 subsequentCovs1
    let trace ← plus t1.sum1.sum1.sum1 (t2.sum1.sum1.sum1.map ((2 : ℝ) * ·))
    Shapes.assertEqual trace.tfShape s.batch.reverse
    let m2 ← dist.marginalMeans
    let m1 ← s.marginalMeans
    let meanDiff ← minus m2 m1
    let c ← precision2.cholesky
    let lMeanDiff ← c.denseMult meanDiff true
    let sq ← times lMeanDiff lMeanDiff
    let mahalanobis := sq.sum1.sum1
    Shapes.assertEqual mahalanobis.tfShape s.batch.reverse
    let dim : ℝ := ((s.numTransitions + 1) * s.stateDim : ℕ)
    let u1 ← plus trace mahalanobis
    let l2 ← dist.logDetPrecision
    let u2 ← minus (u1.map (· - dim)) l2
    let l1 ← s.logDetPrecision
    let u3 ← plus u2 l1
    let kl := u3.map ((1 / 2 : ℝ) * ·)
    Shapes.assertEqual kl.tfShape s.batch.reverse
    return kl

/-- `normalizer` (state_space_model.py:595-609) -/
noncomputable def normalizer : Except Err Tensor := do
  let dim : ℝ := ((s.numTransitions + 1) * s.stateDim : ℕ)
  let cst := dim * Real.log (2 * Real.pi)
  let l ← s.logDetPrecision
  let logDet := l.map (-·)
  let p ← s.precision
  let c ← p.cholesky
  let (m, _) ← s.marginals
  let lMean ← c.denseMult m true
  let sq ← times lMean lMean
  let mahalanobis := sq.sum1.sum1
  let u ← plus (logDet.map (cst + ·)) mahalanobis
  return u.map ((1 / 2 : ℝ) * ·)

end TSSM

open Classical in
/-- `cholesky_or_zero` (state_space_model.py:634-656): `mask` marks the batch elements that are entirely zero; `tf.where` replaces them by the
identity before and by zero after the Cholesky factorisation of the whole batch. -/
noncomputable def tensorCholeskyOrZero (covariance : Tensor) : Except Err Tensor := do
  if covariance.shape.prod = 0 then .error .invalidArgument
  let d := covariance.dim 0
  let s := covariance.shape.drop 2
  let mask : List ℕ → Prop := fun b => covariance.matAt d d b = 0
  let fix := ofMats (r := d) (c := d) s fun b => if mask b then 1 else 0
  let fixed ← plus covariance fix
  let c ← choleskyT fixed
  return ofMats (r := d) (c := d) s fun b => if mask b then 0 else c.matAt d d b

/-- `state_space_model_from_covariances` (state_space_model.py:612-664) -/
noncomputable def tensorSSMFromCovariances (initialMean initialCovariance stateTransitions stateOffsets processCovariances : Tensor) :
    Except Err TSSM := do
  let c0 ← tensorCholeskyOrZero initialCovariance
  let cq ← tensorCholeskyOrZero processCovariances
  TSSM.init initialMean c0 stateTransitions stateOffsets cq

/-- `EmissionModel.project_state_to_f` (emission_model.py:112-129) -/
def tensorProjectState (H state : Tensor) : Except Err Tensor := do
  Shapes.projectStateCheck H.tfShape state.tfShape
  let f ← matmul H (expand 0 state)
  return index 0 0 f

/-- `EmissionModel.project_state_covariance_to_f` (emission_model.py:130-153) -/
def tensorProjectCovariance (H covariance : Tensor) (fullOutputCov : Bool) : Except Err Tensor := do
  Shapes.assertEqual (Shapes.takeLast 3 covariance.tfShape) [H.dim 2, H.dim 0, H.dim 0]
  if fullOutputCov then
    -- "...ij,...jk,...lk->...il"
    einsum [(['j', 'i'], H), (['k', 'j'], covariance), (['k', 'l'], H)] ['l', 'i']
  else do
    -- "...ij,...jk->...ik", then "...ij,...ij->...i"
    let HC ← einsum [(['j', 'i'], H), (['k', 'j'], covariance)] ['k', 'i']
    einsum [(['j', 'i'], H), (['j', 'i'], HC)] ['i']

/-- The data used by `BaseKalmanFilter` (kalman_filter.py:32-79) with tensors of any batch shape. -/
structure TKF where
  /-- `prior_ssm` -/
  prior : TSSM
  /-- `emission.emission_matrix` -/
  H : Tensor
  /-- `_r_inv` -/
  rInv : Tensor
  /-- `observations` -/
  obs : Tensor
  /-- `_log_det_observation_precision` -/
  logDetR : Except Err Tensor

namespace TKF
variable (f : TKF)

/-- `_k_inv_post` (kalman_filter.py:85-101) -/
noncomputable def kInvPost : Except Err (TBTD true) := do
  -- "...ji,...jk,...kl->...il"
  let hRh ← einsum [(['i', 'j'], f.H), (['k', 'j'], f.rInv), (['l', 'k'], f.H)] ['l', 'i']
  let lik ← TBTD.init true hRh none
  let prior ← f.prior.precision
  prior.add lik

/-- `_back_project_y_to_state` (kalman_filter.py:257-271) -/
def backProject (y : Tensor) : Except Err Tensor := do
  -- "...ij,...ki->...kj", then "...ij,...i->...j"
  let p ← einsum [(['j', 'i'], f.H), (['i', 'k'], f.rInv)] ['j', 'k']
  einsum [(['j', 'i'], p), (['i'], y)] ['j']

/-- `posterior_state_space_model` (kalman_filter.py:109-182) -/
noncomputable def posteriorSSM : Except Err TSSM := do
  let post ← f.kInvPost
  let (aInvPost, cholQInv) ← post.upperDiagonalLower
  match aInvPost.sub with
  | none => .error .assertion
  | some sub => do
    let obsProj ← f.backProject f.obs
    let prior ← f.prior.precision
    let means ← f.prior.marginalMeans
    let kInvMu ← prior.denseMult means
    let rhs ← plus obsProj kInvMu
    let x1 ← aInvPost.solve rhs true
    let x2 ← cholQInv.solve x1
    let mPost ← cholQInv.solve x2 true
    let identities := eye f.prior.stateDim ((f.prior.numTransitions + 1) :: f.prior.batch)
    let covs ← cholSolveT cholQInv.diag identities
    let qs ← choleskyT covs
    TSSM.init (index 1 0 mPost) (index 2 0 qs) (sub.map (-·)) (sliceFrom 1 1 mPost) (sliceFrom 2 1 qs)

/-- `log_likelihood` (kalman_filter.py:184-255), a scalar: the terms are summed over the batch at the end. -/
noncomputable def logLikelihood : Except Err ℝ := do
  let post ← f.kInvPost
  let lPost ← post.cholesky
  let numData := f.prior.numTransitions + 1
  let means ← f.prior.marginalMeans
  let marginal ← tensorProjectState f.H means
  let disp ← minus f.obs marginal
  let cst : ℝ := -(1 / 2) * Real.log (2 * Real.pi) * (f.H.dim 1 * numData : ℕ)
  -- "...op,...p,...o->...o"
  let q ← einsum [(['p', 'o'], f.rInv), (['p'], disp), (['o'], disp)] ['o']
  let term1 := q.sum1.sum1.map (-(1 / 2 : ℝ) * ·)
  let obsProj ← f.backProject disp
  let sol ← lPost.solve obsProj false
  let term2 := (sol.map (· ^ 2)).sum1.sum1.map ((1 / 2 : ℝ) * ·)
  let l1 ← f.prior.logDetPrecision
  let l2 ← lPost.absLogDet
  let l3 ← f.logDetR
  let u ← minus (l1.map ((1 / 2 : ℝ) * ·)) l2
  let term3 ← plus u (l3.map ((1 / 2 : ℝ) * ·))
  let v1 ← plus (term1.map (cst + ·)) term2
  let v ← plus v1 term3
  return v.sumAll

end TKF

/-- `KalmanFilter` (kalman_filter.py:275-353): `_r_inv` is one matrix (l.341-348), `_log_det_observation_precision` (l.103-107). The shape
checks of the constructor are those of `Verif/Model/Shapes.lean`. -/
noncomputable def tensorKalmanFilter (prior : TSSM) (H obs cholR : Tensor) : Except Err TKF := do
  Shapes.kalmanInit prior.A.tfShape H.tfShape obs.tfShape cholR.tfShape
  let rInv ← cholSolveT cholR (eye (H.dim 1) [])
  return {
    prior := prior
    H := H
    rInv := rInv
    obs := obs
    logDetR := do
      let l ← logdet rInv
      return l.map (((prior.numTransitions + 1 : ℕ) : ℝ) * ·) }

/-- `KalmanFilterWithSites` (kalman_filter.py:437-497) with sites of `output_dim = outputDim`, means `[..., num_data, output_dim]` and precisions
`[..., num_data, output_dim, output_dim]`. -/
noncomputable def tensorKalmanFilterWithSites (prior : TSSM) (H means precisions : Tensor) (outputDim : ℕ) : Except Err TKF := do
  if outputDim ≠ H.dim 1 then .error .invalidArgument
  return {
    prior := prior
    H := H
    rInv := precisions
    obs := means
    logDetR := do
      let l ← logdet precisions
      return l.sum1 }

end MF
