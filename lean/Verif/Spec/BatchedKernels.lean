import Verif.Spec.Batched
import Verif.Model.BatchedPosterior

/-!
# Specification of batching for kernels, posteriors and GP regression (C63)

What it means that a kernel object on tensors is the kernel of the model without batch axes, and that the tensors returned for pairs of states hold
the objects of that model. Shapes and indices are innermost first.
-/

namespace MF.Spec
open MF.Tensor Matrix

/-- The kernel object `K` on tensors is `k`: it has the same dimensions and hyperparameters, and every method returns, for times of **any** shape
`u` with at least one axis (`batch_shape + [num_data]`), at every index `b` what `k` gives for the time and the time difference at `b`. -/
structure HoldsKernel {o d : ℕ} (K : TKernel) (k : Stationary o d) : Prop where
  outputDim : K.outputDim = o
  stateDim : K.stateDim = d
  jitter : K.jitter = k.jitter
  numKernels : K.numKernels = none
  stateMean : HoldsVec [] K.stateMean fun _ => k.stateMean
  feedback : ∃ F, K.feedback = .ok F ∧ HoldsMat [] F fun _ => k.feedback
  Pinf : ∃ P, K.Pinf = .ok P ∧ HoldsMat [] P fun _ => k.Pinf
  initialMean : ∀ batch, ∃ m, K.initialMean batch = .ok m ∧ HoldsVec batch m fun _ => k.initialMean
  stateTransitions : ∀ (u : List ℕ) (t δ : Tensor) (f g : List ℕ → ℝ), u ≠ [] → HoldsReal u t f → HoldsReal u δ g →
    ∃ A, K.stateTransitions t δ = .ok A ∧ HoldsMat u A fun b => k.stateTransitions (f b) (g b)
  transitionStatistics : ∀ (u : List ℕ) (t δ : Tensor) (f g : List ℕ → ℝ), u ≠ [] → HoldsReal u t f → HoldsReal u δ g →
    ∃ A Q, K.transitionStatistics t δ = .ok (A, Q) ∧ HoldsMat u A (fun b => k.stateTransitions (f b) (g b)) ∧
      HoldsMat u Q fun b => k.transitionNoise (f b) (g b)
  processCov : ∀ (u : List ℕ) (t δ : Tensor) (f g : List ℕ → ℝ), u ≠ [] → HoldsReal u t f → HoldsReal u δ g →
    ∃ Q, K.processCov t δ = .ok Q ∧ HoldsMat u Q fun b => k.processCov (f b) (g b)
  stateOffsets : ∀ (u : List ℕ) (t δ : Tensor) (f g : List ℕ → ℝ), u ≠ [] → HoldsReal u t f → HoldsReal u δ g →
    ∃ o, K.stateOffsets t δ = .ok o ∧ HoldsVec u o fun b => k.stateOffsets (f b) (g b)
  emission : ∀ (u : List ℕ) (t : Tensor) (f : List ℕ → ℝ), u ≠ [] → HoldsReal u t f →
    ∃ H, K.emission t = .ok H ∧ HoldsMat u H fun b => k.emission (f b)

/-- Two constructor calls agree: both build the same kernel, or both raise the same exception. -/
def SameKernel {o d : ℕ} (X : Except Err TKernel) (Y : Except Err (Stationary o d)) : Prop :=
  (∃ K k, X = .ok K ∧ Y = .ok k ∧ HoldsKernel K k) ∨ ∃ e, X = .error e ∧ Y = .error e

/-- The children of a combined kernel, one by one. -/
def HoldsKernels {o : ℕ} (Ks : List TKernel) (ks : List (Σ d, Stationary o d)) : Prop := List.Forall₂ (fun K k => HoldsKernel K k.2) Ks ks

/-- Times of shape `batch_shape + [n]`: `ts b` is the sequence of times of the batch element `b`. -/
def HoldsTimes {n : ℕ} (bs : List ℕ) (t : Tensor) (ts : List ℕ → Fin n → ℝ) : Prop := HoldsVec bs t ts

/-- A mean function of `o` outputs on tensors: at every index it returns the value at the time there; the result may have the single column that
`ZeroMeanFunction(obs_dim=1)` returns and that broadcasts against the outputs. -/
def HoldsMean {o : ℕ} (M : Tensor → Except Err Tensor) (m : ℝ → Vec o) : Prop :=
  ∀ (u : List ℕ) (t : Tensor) (f : List ℕ → ℝ), u ≠ [] → HoldsReal u t f →
    ∃ y k, M t = .ok y ∧ (k = o ∨ k = 1) ∧ y.shape = k :: u ∧
      ∀ b, InRange b u → ∀ i : Fin o, y.val ((if k = 1 then 0 else (i : ℕ)) :: b) = m (f b) i

/-- A pair of states `[x₋, x₊]` as one vector of length `2 * state_dim`. -/
def pairVec {d : ℕ} (v : Fin d ⊕ Fin d → ℝ) : Vec (d + d) := v ∘ finSumFinEquiv.symm
/-- A matrix that acts on pairs of states, with `2 * state_dim` columns. -/
def pairCols {d r : ℕ} (M : Matrix (Fin r) (Fin d ⊕ Fin d) ℝ) : Mat r (d + d) := M.submatrix id finSumFinEquiv.symm
/-- The covariance of a pair of states as one matrix of size `2 * state_dim`. -/
def pairMat {d : ℕ} (M : Matrix (Fin d ⊕ Fin d) (Fin d ⊕ Fin d) ℝ) : Mat (d + d) (d + d) :=
  M.submatrix finSumFinEquiv.symm finSumFinEquiv.symm

/-- What `pairwise_marginals` returns: at every batch index the means and covariances of the pairs of states. -/
def HoldsPairs {N d : ℕ} (bs : List ℕ) (x : Tensor × Tensor)
    (y : List ℕ → (Fin N → Fin d ⊕ Fin d → ℝ) × (Fin N → Matrix (Fin d ⊕ Fin d) (Fin d ⊕ Fin d) ℝ)) : Prop :=
  HoldsVecs bs x.1 (fun b q => pairVec ((y b).1 q)) ∧ HoldsMats bs x.2 fun b q => pairMat ((y b).2 q)

/-- What `conditional_statistics` returns: at every batch index and new time point the projection `[F, G]` and the covariance. -/
def HoldsCondStats {p d : ℕ} (bs : List ℕ) (x : Tensor × Tensor)
    (y : List ℕ → (Fin p → Matrix (Fin d) (Fin d ⊕ Fin d) ℝ) × (Fin p → Mat d d)) : Prop :=
  HoldsMats bs x.1 (fun b q => pairCols ((y b).1 q)) ∧ HoldsMats bs x.2 fun b => (y b).2

/-- Means of shape `batch_shape + [p, m]` and covariances of shape `batch_shape + [p, m, m]`. -/
def HoldsPred {p m : ℕ} (bs : List ℕ) (x : Tensor × Tensor) (y : List ℕ → Fin p → Vec m × Mat m m) : Prop :=
  HoldsVecs bs x.1 (fun b q => (y b q).1) ∧ HoldsMats bs x.2 fun b q => (y b q).2

/-- Means and variances of shape `batch_shape + [p, m]`. -/
def HoldsPredDiag {p m : ℕ} (bs : List ℕ) (x : Tensor × Tensor) (y : List ℕ → Fin p → Vec m × Vec m) : Prop :=
  HoldsVecs bs x.1 (fun b q => (y b q).1) ∧ HoldsVecs bs x.2 fun b q => (y b q).2

/-- The kernel object `K`, used with times of batch shape `bs`, acts as the kernel `k b` at the batch index `b`: every method returns, for times of
shape `bs + [n]` for any `n`, at the batch index `b` and every position what `k b` gives for the time and the time difference there. For an ordinary
kernel `k` is constant; a stack of kernels has its own kernel for each value of the last batch index. -/
structure HoldsKernelOn {o d : ℕ} (bs : List ℕ) (K : TKernel) (k : List ℕ → Stationary o d) : Prop where
  initialMean : ∃ m, K.initialMean bs = .ok m ∧ HoldsVec bs m fun b => (k b).initialMean
  initialCovariance : ∀ (t : Tensor) (f : List ℕ → Vec 1), HoldsVec bs t f →
    ∃ P, K.initialCovariance t = .ok P ∧ HoldsMat bs P fun b => (k b).initialCovariance
  transitionStatistics : ∀ (n : ℕ) (t δ : Tensor) (f g : List ℕ → Fin n → ℝ), HoldsTimes bs t f → HoldsTimes bs δ g →
    ∃ A Q, K.transitionStatistics t δ = .ok (A, Q) ∧ HoldsMats bs A (fun b i => (k b).stateTransitions (f b i) (g b i)) ∧
      HoldsMats bs Q fun b i => (k b).transitionNoise (f b i) (g b i)
  stateOffsets : ∀ (n : ℕ) (t δ : Tensor) (f g : List ℕ → Fin n → ℝ), HoldsTimes bs t f → HoldsTimes bs δ g →
    ∃ c, K.stateOffsets t δ = .ok c ∧ HoldsVecs bs c fun b i => (k b).stateOffsets (f b i) (g b i)
  emission : ∀ (n : ℕ) (t : Tensor) (f : List ℕ → Fin n → ℝ), HoldsTimes bs t f →
    ∃ H, K.emission t = .ok H ∧ HoldsMats bs H fun b i => (k b).emission (f b i)

/-- A mean function used with times of batch shape `bs`: at the batch index `b` it is `m b`. -/
def HoldsMeanOn {o : ℕ} (bs : List ℕ) (M : Tensor → Except Err Tensor) (m : List ℕ → ℝ → Vec o) : Prop :=
  ∀ (n : ℕ) (t : Tensor) (f : List ℕ → Fin n → ℝ), HoldsTimes bs t f →
    ∃ y k, M t = .ok y ∧ (k = o ∨ k = 1) ∧ y.shape = k :: n :: bs ∧
      ∀ b, InRange b bs → ∀ (q : Fin n) (i : Fin o), y.val ((if k = 1 then 0 else (i : ℕ)) :: (q : ℕ) :: b) = m b (f b q) i

/-- The states of a posterior process on tensors are, for every batch element `b`, those of the process `c b`: its own distribution, conditioning times
and kernel. -/
structure HoldsStates {n o d : ℕ} (bs : List ℕ) (C : TCondProcess) (c : List ℕ → CondProcess n o d) : Prop where
  q : HoldsSSM bs C.q fun b => (c b).q
  kernel : HoldsKernelOn bs C.kernel fun b => (c b).kernel
  times : HoldsTimes bs C.times fun b => (c b).times

/-- A posterior process on tensors, over a kernel that is not a stack, is for every batch element `b` the process `c b`: its own distribution,
conditioning times, kernel and mean function. -/
structure HoldsProcess {n o d : ℕ} (bs : List ℕ) (C : TCondProcess) (c : List ℕ → CondProcess n o d) : Prop extends HoldsStates bs C c where
  plain : C.kernel.numKernels = none
  mean : HoldsMeanOn bs C.meanFunction fun b => (c b).meanFunction

/-- A GP regression on tensors is, for every batch element `b`, the regression `g b`: its own data and mean function, and the common kernel and
observation noise. (A mean function may depend on the batch index, as the impulse and step mean functions do; the zero and the linear one do not.) -/
structure HoldsGPR {n o d : ℕ} (bs : List ℕ) (G : TGPR) (g : List ℕ → GPR n o d) : Prop where
  times : HoldsTimes bs G.times fun b => (g b).times
  observations : HoldsVecs bs G.observations fun b => (g b).observations
  kernel : ∃ k, HoldsKernel G.kernel k ∧ ∀ b, InRange b bs → (g b).kernel = k
  mean : HoldsMeanOn bs G.meanFunction fun b => (g b).meanFunction
  chol : ∃ R, HoldsMat [] G.cholObsCov (fun _ => R) ∧ ∀ b, InRange b bs → (g b).cholObsCov = R

end MF.Spec
