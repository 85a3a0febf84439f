import Verif.Spec.BatchedVariational
import Verif.Spec.BatchedSampling
import Verif.Model.BatchedStack

/-!
# Specification of stacks of kernels on tensors (C66)

The batch shape of every tensor of times, states and matrices is `batch_shape + [num_kernels]`, so indices are `r :: b` (innermost first): kernel
`r`, batch element `b`.
-/

namespace MF.Spec
open MF.Tensor
variable {n p R : ℕ}

/-- `f'` is `f`, with the kernel index in the list of batch indices. -/
def AtKernel {α : Type*} (f' : List ℕ → α) (f : List ℕ → Fin R → α) : Prop := ∀ (b : List ℕ) (r : Fin R), f' ((r : ℕ) :: b) = f b r

/-- The kernel object `K` on tensors is the stack `k`: for every batch shape `bs`, used with times of batch shape `bs + [R]`, it acts at kernel index
`r` as the (padded) child `r`. -/
def HoldsStackKernel (K : TKernel) (k : StackKernel R) : Prop :=
  K.numKernels = some R ∧ ∀ (bs : List ℕ) (k' : List ℕ → Stationary 1 k.stateDim), AtKernel k' (fun _ r => k.slice r) → HoldsKernelOn (R :: bs) K k'

/-- Two constructor calls of a stack agree. -/
def SameStack (X : Except Err TKernel) (Y : Except Err (StackKernel R)) : Prop :=
  (∃ K k, X = .ok K ∧ Y = .ok k ∧ HoldsStackKernel K k) ∨ ∃ e, X = .error e ∧ Y = .error e

/-- A state space model over a stack: one for every batch element and kernel. -/
def HoldsStackSSM {d : ℕ} (bs : List ℕ) (S : TSSM) (s : List ℕ → Fin R → SSM n d) : Prop := ∃ s', AtKernel s' s ∧ HoldsSSM (R :: bs) S s'

/-- Means of shape `batch_shape + [num_kernels, p, m]` and covariances of shape `batch_shape + [num_kernels, p, m, m]`. -/
def HoldsStackPred {m : ℕ} (bs : List ℕ) (x : Tensor × Tensor) (y : List ℕ → Fin R → Fin p → Vec m × Mat m m) : Prop :=
  ∃ y', AtKernel y' y ∧ HoldsPred (R :: bs) x y'

/-- Trajectories of states over a stack: for every sample and batch index and every kernel the states at the new and at the conditioning times. -/
def HoldsStackTrajectories {m : ℕ} (u : List ℕ) (x : Tensor × Tensor) (y : List ℕ → Fin R → (Fin p → Vec m) × (Fin n → Vec m)) : Prop :=
  ∃ y', AtKernel y' y ∧ HoldsTrajectories (R :: u) x y'

/-- A mean function used with a stack: the values have shape `batch_shape + [num_kernels, p, 1]`. -/
def HoldsStackMean (bs : List ℕ) (M : Tensor → Except Err Tensor) (m : List ℕ → Fin R → ℝ → ℝ) : Prop :=
  ∃ m', AtKernel m' (fun b r t (_ : Fin 1) => m b r t) ∧ HoldsMeanOn (R :: bs) M m'

/-- A posterior process over a stack is, for every batch element `b`, the process `c b`: its own distribution, conditioning times and mean function. -/
structure HoldsStackProcess {k : StackKernel R} (bs : List ℕ) (C : TCondProcess) (c : List ℕ → StackProcess n k) : Prop where
  q : HoldsStackSSM bs C.q fun b => (c b).q
  kernel : HoldsStackKernel C.kernel k
  times : HoldsVecs bs C.times fun b => (c b).times
  mean : HoldsStackMean bs C.meanFunction fun b => (c b).meanFunction

/-- As `Elementwise`, without identifying the exception: the batched call raises exactly when the call for some element raises. -/
def ElementwiseAny {α β : Type*} (bs : List ℕ) (R : β → (List ℕ → α) → Prop) (X : Except Err β) (Y : List ℕ → Except Err α) : Prop :=
  (∃ x y, X = .ok x ∧ R x y ∧ ∀ b, InRange b bs → Y b = .ok (y b)) ∨
    (∃ e, X = .error e) ∧ ∃ b, InRange b bs ∧ ∃ e, Y b = .error e

/-- A variational Gaussian process over a stack on tensors is, for every batch element `b`, the model `v b`. The observations have shape
`batch_shape + [num_data, num_kernels]`. -/
structure HoldsStackVGP {k : StackKernel R} (bs : List ℕ) (V : TVGP) (v : List ℕ → StackVGP n k (Vec R)) : Prop where
  times : HoldsVecs bs V.times fun b => (v b).times
  observations : HoldsVecs bs V.observations fun b => (v b).observations
  kernel : HoldsStackKernel V.kernel k
  likelihood : ∀ b, InRange b bs → (v b).likelihood = V.likelihood.toVector
  mean : HoldsStackMean bs V.meanFunction fun b => (v b).meanFunction
  q : HoldsStackSSM bs V.q fun b => (v b).q

/-- A sparse variational Gaussian process over a stack on tensors is, for every batch element `b`, the model `v b`. -/
structure HoldsStackSVGP {k : StackKernel R} (bs : List ℕ) (V : TSVGP) (v : List ℕ → StackSVGP n k (Vec R)) : Prop where
  inducing : HoldsVecs bs V.inducing fun b => (v b).inducing
  kernel : HoldsStackKernel V.kernel k
  likelihood : ∀ b, InRange b bs → (v b).likelihood = V.likelihood.toVector
  mean : HoldsStackMean bs V.meanFunction fun b => (v b).meanFunction
  numData : ∀ b, InRange b bs → (v b).numData = V.numData
  q : HoldsStackSSM bs V.q fun b => (v b).q

/-- The tensor of standard normal draws of shape `sample_shape + batch_shape + [R, N, d, 1]` holds at every leading index `b` and kernel
`r` its own noise `e b r`. -/
def HoldsStackNoise {R N d : ℕ} (u : List ℕ) (E : List ℕ → ℝ) (e : Idx u → Fin R → Fin N × Fin d → ℝ) : Prop :=
  ∀ (b : Idx u) (r : Fin R) (t : Fin N) (i : Fin d), E (0 :: (i : ℕ) :: (t : ℕ) :: (r : ℕ) :: b.1) = e b r (t, i)

end MF.Spec
