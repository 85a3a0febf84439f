import Verif.Model.SparseCVI

/-!
# Model of `markovflow/models/spatio_temporal_variational.py` and of `batch_base_conditional`
(`markovflow/utils.py`)

Space points are elements of an arbitrary type `S`; an input `(x, t)` is a pair. The spatial GPflow kernel is a
function `S → S → ℝ` (contract: `kernel_space(A, B)` is the matrix of its values, `kernel_space(A)` is
`kernel_space(A, A)` and `kernel_space(A, full_cov=False)` its diagonal). The temporal kernel has one output (with
more, the product `L @ H` of l.85 has incompatible shapes). Batch shape `()`.
-/

namespace MF
open Matrix
variable {n d p M N : ℕ} {S : Type}

/-- The optional argument `q_sqrt` of `batch_base_conditional` (utils.py:159-257): rank 2, `[M, N]`, or rank 3, `[N, M, M]`. -/
inductive QSqrt (M N : ℕ) where
  /-- `None` -/
  | none
  /-- a diagonal per data point -/
  | diag (q : Mat M N)
  /-- a lower triangular matrix per data point -/
  | full (q : Fin N → Mat M M)

/-- `batch_base_conditional` (utils.py:159-257) for `Kmn` of rank two: means and variances of the `N` data points.
`adjoint(Lm)` with `lower=False` (l.236) reads the upper triangle of `Lmᵀ`: `triSolve` with `adjoint`. The
einsum `nmo,on->mn` of l.244 is `L_n *ᵥ A_n`. -/
noncomputable def batchBaseConditional (Kmn : Mat M N) (Kmm : Mat M M) (Knn : Vec N) (f : Mat M N)
    (qSqrt : QSqrt M N := .none) (white : Bool := false) : Except Err (Vec N × Vec N) := do
  let Lm ← tfCholesky Kmm
  let A₀ : Mat M N := triSolve Lm Kmn
  let fvar₀ : Vec N := fun j => Knn j - ∑ m, A₀ m j ^ 2
  let A : Mat M N := if white then A₀ else triSolve Lm A₀ true
  let fmean : Vec N := fun j => ∑ m, A m j * f m j
  let fvar : Vec N := match qSqrt with
    | .none => fvar₀
    | .diag q =>
      let LTA : Mat M N := Matrix.of fun m j => q m j * A m j
      fun j => fvar₀ j + ∑ m, LTA m j ^ 2
    | .full q =>
      let L : Fin N → Mat M M := fun j => tril (q j)
      let LTA : Mat M N := Matrix.of fun m j => ∑ o, L j m o * A o j
      fun j => fvar₀ j + ∑ m, LTA m j ^ 2
  return (fmean, fvar)

/-- The children of a `SparseSpatioTemporalKernel`: the temporal kernel, once per inducing point (spatio_temporal_variational.py:70). -/
abbrev copies (M : ℕ) (kt : Stationary 1 d) : List (Σ d, Stationary 1 d) := List.replicate M ⟨d, kt⟩

/-- The state dimension of a `SparseSpatioTemporalKernel` (`ConcatKernel.state_dim`, sde_kernel.py:577-582). -/
abbrev stDim (M : ℕ) (kt : Stationary 1 d) : ℕ := sumDim (copies M kt)

/-- The rows of the emission matrix of the underlying `IndependentMultiOutput` (l.83; sde_kernel.py:847-877): typing only. -/
def copyRows (M : ℕ) (kt : Stationary 1 d) : Fin M → Fin ((copies M kt).length * 1) :=
  Fin.cast (by simp)

/-- `kernel_space(A, B)`: contract of a GPflow kernel call (used at l.84, 104-105, 169-172). -/
def crossGram {ι κ : Type*} (ks : S → S → ℝ) (A : ι → S) (B : κ → S) : Matrix ι κ ℝ :=
  Matrix.of fun i j => ks (A i) (B j)

/-- `SparseSpatioTemporalKernel` (l.45-85): `IndependentMultiOutput` of copies of the temporal kernel (with the default
jitter zero), and `generate_emission_model`, which multiplies its emission by `chol(Kₛ(Z, Z))`. The Python constructor
succeeds also if that matrix has no Cholesky factor; then every emission raises. Here the constructor raises. -/
noncomputable def sparseSpatioTemporalKernel (ks : S → S → ℝ) (kt : Stationary 1 d) (Z : Fin M → S) :
    Except Err (Stationary M (stDim M kt)) := do
  let base ← independentMultiOutput (copies M kt) 0
  let L ← tfCholesky (crossGram ks Z Z)
  return { base with emission := fun t => L * (base.emission t).submatrix (copyRows M kt) id }

/-- `state_to_space_conditional_projection` (l.87-106) at one input `(x, t)`. -/
noncomputable def stateToSpaceProjection (ks : S → S → ℝ) (kt : Stationary 1 d) (Z : Fin M → S) (x : S) (t : ℝ) :
    Except Err (Matrix (Fin 1) (Fin (stDim M kt)) ℝ) := do
  let base ← independentMultiOutput (copies M kt) 0
  let H : Matrix (Fin M) (Fin (stDim M kt)) ℝ := (base.emission t).submatrix (copyRows M kt) id
  let L ← tfCholesky (crossGram ks Z Z)
  let C := triSolve L H true
  return Matrix.of fun _ s => ∑ m, ks x (Z m) * C m s

/-- `SpatioTemporalBase.space_time_predict_f` (l.149-183), for the posterior process `post`. -/
noncomputable def spaceTimePredictF {D : ℕ} (ks : S → S → ℝ) (Z : Fin M → S) (post : CondProcess n M D)
    (meanFunction : Option (S × ℝ → ℝ)) (X : Fin p → S × ℝ) : Except Err (Fin p → ℝ × ℝ) := do
  let u ← post.predictF fun i => (X i).2
  let cholCov ← seqFin fun i => tfCholesky (u i).2
  let (mean, var) ← batchBaseConditional (crossGram ks Z fun i => (X i).1) (crossGram ks Z Z)
    (fun i => ks (X i).1 (X i).1) (Matrix.of fun m i => (u i).1 m) (.full cholCov)
  return fun i =>
    (match meanFunction with
      | some m => mean i + m (X i)
      | none => mean i, var i)

/-- `SpatioTemporalBase.elbo` (l.209-236), given `dist_q` and `dist_p`. -/
noncomputable def spaceTimeElbo {D : ℕ} (ks : S → S → ℝ) (Z : Fin M → S) (post : CondProcess n M D)
    (meanFunction : Option (S × ℝ → ℝ)) (likelihood : ScalarLikelihood) (numData : Option ℕ)
    (distQ distP : Except Err (SSM n D)) (X : Fin p → S × ℝ) (Y : Fin p → ℝ) : Except Err ℝ := do
  let fx ← spaceTimePredictF ks Z post meanFunction X
  let ve : ℝ := ∑ i, likelihood.varExp (fx i).1 (fx i).2 (Y i)
  let q ← distQ
  let prior ← distP
  let kl ← q.klDivergence prior
  let scale : ℝ := match numData with
    | some numData => (numData : ℝ) / (p : ℝ)
    | none => 1
  return ve * scale - kl

/-- The attributes of a `SpatioTemporalSparseVariational` (l.270-357); `q` is the current value of `_dist_q`. -/
structure STSVGP (S : Type) (n M D : ℕ) where
  /-- `kernel_space` -/
  kernelSpace : S → S → ℝ
  /-- `inducing_space` -/
  inducingSpace : Fin M → S
  /-- `kernel` -/
  kernel : Stationary M D
  /-- `inducing_time` -/
  inducingTime : Fin (n + 1) → ℝ
  /-- `likelihood` -/
  likelihood : ScalarLikelihood
  /-- `mean_function` -/
  meanFunction : Option (S × ℝ → ℝ)
  /-- `num_data` -/
  numData : Option ℕ
  /-- `dist_p`, computed once by the constructor (l.310-344) -/
  distP : SSM n D
  /-- `dist_q` -/
  q : SSM n D

namespace STSVGP

/-- `__init__` (l.117-147, 310-344) -/
noncomputable def init (Z : Fin M → S) (inducingTime : Fin (n + 1) → ℝ) (ks : S → S → ℝ) (kt : Stationary 1 d)
    (likelihood : ScalarLikelihood) (meanFunction : Option (S × ℝ → ℝ)) (numData : Option ℕ) :
    Except Err (STSVGP S n M (stDim M kt)) := do
  let kernel ← sparseSpatioTemporalKernel ks kt Z
  let distP ← kernel.stateSpaceModel inducingTime
  return ⟨ks, Z, kernel, inducingTime, likelihood, meanFunction, numData, distP, distP.createTrainableCopy⟩

variable {D : ℕ} (v : STSVGP S n M D)

/-- `posterior` (l.355-357): the mean function is not passed on (it is added by `space_time_predict_f`). -/
def posterior : CondProcess n M D := ⟨v.q, v.kernel, v.inducingTime, fun _ => 0⟩

/-- `space_time_predict_f` (l.149-183) -/
noncomputable def predictF (X : Fin p → S × ℝ) : Except Err (Fin p → ℝ × ℝ) :=
  spaceTimePredictF v.kernelSpace v.inducingSpace v.posterior v.meanFunction X

/-- `elbo` (l.209-236) -/
noncomputable def elbo (X : Fin p → S × ℝ) (Y : Fin p → ℝ) : Except Err ℝ :=
  spaceTimeElbo v.kernelSpace v.inducingSpace v.posterior v.meanFunction v.likelihood v.numData (.ok v.q)
    (.ok v.distP) X Y

/-- `loss` (l.185-192) -/
noncomputable def loss (X : Fin p → S × ℝ) (Y : Fin p → ℝ) : Except Err ℝ := do
  let e ← v.elbo X Y
  return -e

/-- `predict_log_density` (l.238-246) for a GPflow `Gaussian` likelihood of variance `noise` (contract). -/
noncomputable def predictLogDensityGaussian (noise : ℝ) (X : Fin p → S × ℝ) (Y : Fin p → ℝ) :
    Except Err (Fin p → ℝ) := do
  let f ← v.predictF X
  return fun i => -(1 / 2) * (Real.log (2 * Real.pi) + Real.log ((f i).2 + noise)
    + (Y i - (f i).1) ^ 2 / ((f i).2 + noise))

end STSVGP

/-- The attributes of a `SpatioTemporalSparseCVI` (l.360-439). The last axis of the sites is `Fin D ⊕ Fin D`, as in
`Model/SparseCVI.lean`. -/
structure STCVI (S : Type) (n M d : ℕ) where
  /-- `kernel_space` -/
  kernelSpace : S → S → ℝ
  /-- `kernel_time` -/
  kernelTime : Stationary 1 d
  /-- `inducing_space` -/
  inducingSpace : Fin M → S
  /-- `inducing_time` -/
  inducingTime : Fin (n + 1) → ℝ
  /-- `likelihood` -/
  likelihood : ScalarLikelihood
  /-- `mean_function` -/
  meanFunction : Option (S × ℝ → ℝ)
  /-- `num_data` -/
  numData : Option ℕ
  /-- `learning_rate` -/
  learningRate : ℝ
  /-- `nat1` -/
  nat1 : Fin (n + 2) → Fin (stDim M kernelTime) ⊕ Fin (stDim M kernelTime) → ℝ
  /-- `nat2` -/
  nat2 : Fin (n + 2) → Matrix (Fin (stDim M kernelTime) ⊕ Fin (stDim M kernelTime))
    (Fin (stDim M kernelTime) ⊕ Fin (stDim M kernelTime)) ℝ

namespace STCVI

/-- `__init__` (l.401-439) -/
noncomputable def init (Z : Fin M → S) (inducingTime : Fin (n + 1) → ℝ) (ks : S → S → ℝ) (kt : Stationary 1 d)
    (likelihood : ScalarLikelihood) (meanFunction : Option (S × ℝ → ℝ)) (numData : Option ℕ)
    (learningRate : ℝ := 0.1) : STCVI S n M d :=
  ⟨ks, kt, Z, inducingTime, likelihood, meanFunction, numData, learningRate, 0, 0⟩

variable (c : STCVI S n M d)

/-- the state dimension of the kernel (l.412, `IndependentMultiOutput`) -/
abbrev D : ℕ := stDim M c.kernelTime

/-- `kernel` (l.249-253) -/
noncomputable def kernel : Except Err (Stationary M c.D) :=
  sparseSpatioTemporalKernel c.kernelSpace c.kernelTime c.inducingSpace

/-- `dist_p` (l.488-492) -/
noncomputable def distP : Except Err (SSM n c.D) := do
  let k ← c.kernel
  k.stateSpaceModel c.inducingTime

/-- `dist_q` (l.451-485) -/
noncomputable def distQ : Except Err (SSM n c.D) := do
  let p ← c.distP
  let prec ← p.precision
  let precDiag := prec.diag
  let precSub : Fin n → Mat c.D c.D := prec.sub.getD 0
  let summedNat1Diag : Fin (n + 1) → Vec c.D := fun m a =>
    c.nat1 m.succ (.inl a) + c.nat1 m.castSucc (.inr a)
  let summedNat2Diag : Fin (n + 1) → Mat c.D c.D := fun m => Matrix.of fun a b =>
    c.nat2 m.succ (.inl a) (.inl b) + c.nat2 m.castSucc (.inr a) (.inr b)
  let summedNat2Sub : Fin n → Mat c.D c.D := fun k => Matrix.of fun a b =>
    c.nat2 k.castSucc.succ (.inr a) (.inl b)
  let thetaDiag : Fin (n + 1) → Mat c.D c.D := fun m => (-(1 / 2) : ℝ) • precDiag m + summedNat2Diag m
  let thetaSub : Fin n → Mat c.D c.D := fun k => -precSub k + (2 : ℝ) • summedNat2Sub k
  naturalsToSSM summedNat1Diag thetaDiag thetaSub

/-- `posterior` (l.442-448) -/
noncomputable def posterior : Except Err (CondProcess n M c.D) := do
  let q ← c.distQ
  let k ← c.kernel
  return ⟨q, k, c.inducingTime, fun _ => 0⟩

/-- `space_time_predict_f` (l.149-183) -/
noncomputable def predictF (X : Fin p → S × ℝ) : Except Err (Fin p → ℝ × ℝ) := do
  let post ← c.posterior
  spaceTimePredictF c.kernelSpace c.inducingSpace post c.meanFunction X

/-- `projection_inducing_states_to_observations` (l.494-507): the einsum `ncs,nfc->nfs` is `A_n * P_n`. -/
noncomputable def projection (X : Fin p → S × ℝ) :
    Except Err (Fin p → Matrix (Fin 1) (Fin c.D ⊕ Fin c.D) ℝ) := do
  let k ← c.kernel
  let (P, _) ← conditionalStatistics approxInf (fun i => (X i).2) c.inducingTime k.trans
  let A ← seqFin fun i => stateToSpaceProjection c.kernelSpace c.kernelTime c.inducingSpace (X i).1 (X i).2
  return fun i => A i * P i

/-- `local_objective_and_gradients` (l.554-576), one datum: the gradient at the mean, then the change to expectation
parameters with the mean function subtracted. -/
noncomputable def localGrads (x : S × ℝ) (mean var y : ℝ) : ℝ × ℝ :=
  let grads : ℝ × ℝ :=
    (deriv (fun m => c.likelihood.varExp m var y) mean, deriv (fun v => c.likelihood.varExp mean v y) var)
  let mean' := match c.meanFunction with
    | some m => mean - m x
    | none => mean
  gradMeanVarToExpectation mean' grads

/-- `update_sites` (l.509-552): the new value of the object. -/
noncomputable def updateSites (X : Fin p → S × ℝ) (Y : Fin p → ℝ) : Except Err (STCVI S n M d) := do
  let fx ← c.predictF X
  let grads : Fin p → ℝ × ℝ := fun i => c.localGrads (X i) (fx i).1 (fx i).2 (Y i)
  let P ← c.projection X
  let (thetaLinear, likNat2) := backProjectNats (fun t _ => (grads t).1) (fun t _ => (grads t).2) P
  let indices : Fin p → Fin (n + 2) := fun t => searchsortedLeft c.inducingTime (X t).2
  let summedThetaLinear := partitionSum indices thetaLinear
  let summedLikNat2 := partitionSum indices likNat2
  let lr := c.learningRate
  return { c with
    nat1 := fun j => (1 - lr) • c.nat1 j + lr • summedThetaLinear j
    nat2 := fun j => (1 - lr) • c.nat2 j + lr • summedLikNat2 j }

/-- `elbo` (l.209-236) -/
noncomputable def elbo (X : Fin p → S × ℝ) (Y : Fin p → ℝ) : Except Err ℝ := do
  let post ← c.posterior
  spaceTimeElbo c.kernelSpace c.inducingSpace post c.meanFunction c.likelihood c.numData c.distQ c.distP X Y

/-- `loss` (l.185-192) -/
noncomputable def loss (X : Fin p → S × ℝ) (Y : Fin p → ℝ) : Except Err ℝ := do
  let e ← c.elbo X Y
  return -e

end STCVI
end MF
