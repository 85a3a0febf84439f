import Verif.Model.StateSpaceModel
import Verif.Model.Emission

/-!
# Model of `markovflow/kalman_filter.py`
-/

namespace MF
open Matrix

/-- `tf.linalg.logdet` (TensorFlow): `2 * sum(log(diag(cholesky(M))))`; raises when the Cholesky
does. Contract. -/
noncomputable def tfLogdet {m : ℕ} (M : Mat m m) : Except Err ℝ := do
  let L ← tfCholesky M
  return 2 * ∑ i, Real.log (L i i)

/-- Sequential evaluation of a batched scalar op followed by `tf.reduce_sum(_, axis=-1)`. -/
noncomputable def sumLogdet {m : ℕ} : {N : ℕ} → (Fin N → Mat m m) → Except Err ℝ
  | 0, _ => .ok 0
  | _ + 1, M => do
    let x ← tfLogdet (M 0)
    let xs ← sumLogdet (Fin.tail M)
    return x + xs

/-- The data used by `BaseKalmanFilter` (kalman_filter.py:32-79): prior, emission matrix, and the
three abstract members `_r_inv`, `observations` (per time point) and
`_log_det_observation_precision`. -/
structure KF (n d m : ℕ) where
  /-- `prior_ssm` -/
  prior : SSM n d
  /-- `emission.emission_matrix` -/
  H : Fin (n + 1) → Mat m d
  /-- `_r_inv` -/
  rInv : Fin (n + 1) → Mat m m
  /-- `observations` -/
  obs : Fin (n + 1) → Vec m
  /-- `_log_det_observation_precision` -/
  logDetR : Except Err ℝ

namespace KF
variable {n d m : ℕ} (f : KF n d m)

/-- `_k_inv_post` (l.85-101) -/
noncomputable def kInvPost : Except Err (SymBTD n d) := do
  let hRh : Fin (n + 1) → Mat d d := fun t => (f.H t)ᵀ * f.rInv t * f.H t
  let prior ← f.prior.precision
  let lik ← BTD.init true hRh none
  prior.add lik

/-- `_back_project_y_to_state` (l.257-271) -/
def backProject (y : Fin (n + 1) → Vec m) : Fin (n + 1) → Vec d :=
  let backProjection : Fin (n + 1) → Mat m d := fun t =>
    Matrix.of fun k j => ∑ i, f.H t i j * f.rInv t k i
  fun t j => ∑ i, backProjection t i j * y t i

/-- `posterior_state_space_model` (l.109-182) -/
noncomputable def posteriorSSM : Except Err (SSM n d) := do
  let post ← f.kInvPost
  let (aInvPost, cholQInv) ← post.upperDiagonalLower
  -- `assert a_inv_post.block_sub_diagonal is not None` (l.150)
  match aInvPost.sub with
  | none => .error .assertion
  | some sub =>
    let obsProj := f.backProject f.obs
    let prior ← f.prior.precision
    let means ← f.prior.marginalMeans
    let kInvMu := prior.denseMult means
    let mPost := cholQInv.solve (cholQInv.solve
      (aInvPost.solve (fun t => obsProj t + kInvMu t) true)) true
    let qs ← seqFin fun t => tfCholesky (cholSolve (cholQInv.diag t) (1 : Mat d d))
    return ⟨mPost 0, qs 0, fun k => -sub k, fun k => mPost k.succ, fun k => qs k.succ⟩

/-- `log_likelihood` (l.184-255). `np.log(2π)` etc. are exact reals. -/
noncomputable def logLikelihood : Except Err ℝ := do
  let post ← f.kInvPost
  let lPost ← post.cholesky
  let means ← f.prior.marginalMeans
  let marginal := projectStateToF f.H means
  let disp : Fin (n + 1) → Vec m := fun t => f.obs t - marginal t
  let cst : ℝ := -(1 / 2) * Real.log (2 * Real.pi) * (m * (n + 1) : ℕ)
  let term1 : ℝ := -(1 / 2) * ∑ t, ∑ o, ∑ p, f.rInv t o p * disp t p * disp t o
  let obsProj := f.backProject disp
  let term2 : ℝ := (1 / 2) * ∑ t, ∑ i, (lPost.solve obsProj false t i) ^ 2
  let ld ← f.logDetR
  let term3 : ℝ := (1 / 2) * f.prior.logDetPrecision - lPost.absLogDet + (1 / 2) * ld
  return cst + term1 + term2 + term3

end KF

variable {n d m : ℕ}

/-- `KalmanFilter` (l.275-353): `_r_inv` is one matrix shared by all times (l.341-348), and
`_log_det_observation_precision` (l.103-107) multiplies its log determinant by the number of time
points. -/
noncomputable def kalmanFilter (prior : SSM n d) (H : Fin (n + 1) → Mat m d)
    (obs : Fin (n + 1) → Vec m) (cholR : Mat m m) : KF n d m where
  prior := prior
  H := H
  rInv := fun _ => cholSolve cholR 1
  obs := obs
  logDetR := do
    let l ← tfLogdet (cholSolve cholR (1 : Mat m m))
    return ((n + 1 : ℕ) : ℝ) * l

/-- `UnivariateGaussianSitesNat` (l.382-433). -/
structure UnivariateSites (N : ℕ) where
  /-- `nat1`, `[N, 1]` -/
  nat1 : Fin N → Vec 1
  /-- `nat2`, `[N, 1, 1]` -/
  nat2 : Fin N → Mat 1 1

namespace UnivariateSites
variable {N : ℕ} (s : UnivariateSites N)

/-- `means` (l.416-421) -/
noncomputable def means : Fin N → Vec 1 := fun t i => -(1 / 2) * s.nat1 t i / s.nat2 t i 0

/-- `precisions` (l.423-428) -/
noncomputable def precisions : Fin N → Mat 1 1 := fun t => (-2 : ℝ) • s.nat2 t

/-- `log_det_precisions` (l.430-433) -/
noncomputable def logDetPrecisions : Fin N → Mat 1 1 := fun t =>
  Matrix.of fun i j => Real.log (-2 * s.nat2 t i j)

end UnivariateSites

/-- `KalmanFilterWithSites` (l.437-497). `GaussianSites` is abstract: it is given by its `means` and
`precisions`. -/
noncomputable def kalmanFilterWithSites (prior : SSM n d) (H : Fin (n + 1) → Mat m d)
    (means : Fin (n + 1) → Vec m) (precisions : Fin (n + 1) → Mat m m) : KF n d m where
  prior := prior
  H := H
  rInv := precisions
  obs := means
  logDetR := sumLogdet precisions

/-- `tf.scatter_nd(indices, updates, shape)` along the first axis: duplicate indices add up
(contract). `sparse_to_dense` (l.561-565). -/
def scatterNd {α : Type*} [AddCommMonoid α] {N G : ℕ} (idx : Fin N → Fin G) (upd : Fin N → α) :
    Fin G → α :=
  fun g => ∑ j, if idx j = g then upd j else 0

/-- `KalmanFilterWithSparseSites` (l.501-626): the inherited members `_k_inv_post`,
`posterior_state_space_model`, `_back_project_y_to_state` act on the scattered precisions and
observations. `output_dim = 1` (`grid_shape` is `(num_grid_points, 1)`). `logDetR` holds the
overridden `_log_det_observation_precision` (l.541-547), on the unscattered precisions. -/
noncomputable def sparseFilter {N : ℕ} (prior : SSM n d) (H : Fin (n + 1) → Mat 1 d)
    (precisions : Fin N → Mat 1 1) (idx : Fin N → Fin (n + 1)) (observations : Fin N → Vec 1) :
    KF n d 1 where
  prior := prior
  H := H
  rInv := scatterNd idx precisions
  obs := scatterNd idx observations
  logDetR := sumLogdet precisions

/-- `KalmanFilterWithSparseSites.log_likelihood` (l.579-626). -/
noncomputable def sparseLogLikelihood {N : ℕ} (prior : SSM n d) (H : Fin (n + 1) → Mat 1 d)
    (precisions : Fin N → Mat 1 1) (idx : Fin N → Fin (n + 1)) (observations : Fin N → Vec 1) :
    Except Err ℝ := do
  let f := sparseFilter prior H precisions idx observations
  let post ← f.kInvPost
  let lPost ← post.cholesky
  let means ← f.prior.marginalMeans
  let marginal := projectStateToF f.H means
  let disp : Fin (n + 1) → Vec 1 := fun t => f.obs t - marginal t
  -- `dense_to_sparse` (l.567-577): gather_nd
  let dispData : Fin N → Vec 1 := fun j => observations j - marginal (idx j)
  let cst : ℝ := -(1 / 2) * Real.log (2 * Real.pi) * (1 * N : ℕ)
  let term1 : ℝ := -(1 / 2) * ∑ j, ∑ o, ∑ p, precisions j o p * dispData j p * dispData j o
  let obsProj := f.backProject disp
  let term2 : ℝ := (1 / 2) * ∑ t, ∑ i, (lPost.solve obsProj false t i) ^ 2
  let ld ← f.logDetR
  let term3 : ℝ := (1 / 2) * f.prior.logDetPrecision - lPost.absLogDet + (1 / 2) * ld
  return cst + term1 + term2 + term3

end MF
