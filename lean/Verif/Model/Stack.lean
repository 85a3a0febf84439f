import Verif.Model.SVGP

/-!
# Models over an `IndependentMultiOutputStack`

`sde_kernel.py:945-1276`, and what `posterior.py`, `variational.py` and `sparse_variational.py` do when the kernel is one.
The kernel index is the last batch dimension of every time, state and matrix; TensorFlow works on the batch entries one
by one (contract), so an operation on `[num_kernels, ...]` arrays is a family `Fin R → ...`, and fails as soon as one entry
fails (`seqFin`; which of several exceptions is raised first is not modelled). The batch shape in front of the kernels is `()`.
Time points have shape `[num_kernels, num_data]`, as `_check_batch_shape_is_compatible` (l.1014-1034) requires: each kernel has its own.
-/

namespace MF
open Matrix
variable {n p R : ℕ} {β : Type}

/-- The attributes of an `IndependentMultiOutputStack` (sde_kernel.py:979-997, 1214-1223): children with `output_dim = 1`. -/
structure StackKernel (R : ℕ) where
  /-- `kernels` -/
  children : Fin R → Σ d, Stationary 1 d
  /-- `_jitter` -/
  jitter : ℝ

namespace StackKernel

/-- `__init__` (l.979-997, 1214-1223): at least one child, non-negative jitter (l.129); the checks of the output dimensions
and of the types hold by typing. -/
noncomputable def init (children : Fin R → Σ d, Stationary 1 d) (jitter : ℝ) : Except Err (StackKernel R) :=
  open Classical in
  if R = 0 then .error .assertion else if ¬ 0 ≤ jitter then .error .assertion else .ok ⟨children, jitter⟩

/-- `state_dim` (l.993, 999-1005): the largest of the children. -/
def stateDim (k : StackKernel R) : ℕ := Finset.univ.sup fun r => (k.children r).1

theorem le_stateDim (k : StackKernel R) (r : Fin R) : (k.children r).1 ≤ k.stateDim :=
  Finset.le_sup (f := fun r => (k.children r).1) (Finset.mem_univ r)

/-- Batch entry `r` of the stack: child `r`, padded by `state_dim - k.state_dim` (l.1036-1201). The equality of
dimensions `d + (state_dim - d) = state_dim` is used to give the entry its type. -/
def slice (k : StackKernel R) (r : Fin R) : Stationary 1 k.stateDim :=
  (Nat.add_sub_cancel' (k.le_stateDim r) : (k.children r).1 + (k.stateDim - (k.children r).1) = k.stateDim) ▸
    stackSlice (k.children r).2 (k.stateDim - (k.children r).1) k.jitter

/-- `build_finite_distribution` / `state_space_model` (l.153-171, 253-264): one state space model per child. -/
noncomputable def stateSpaceModel (k : StackKernel R) (ts : Fin R → Fin (n + 1) → ℝ) :
    Except Err (Fin R → SSM n k.stateDim) := seqFin fun r => (k.slice r).stateSpaceModel (ts r)

/-- `__add__` (l.1256-1265): child by child (`SDEKernel.__add__`, l.342-345). The result has the jitter of the left operand. -/
noncomputable def add (k k' : StackKernel R) : Except Err (StackKernel R) := do
  let children ← seqFin fun r => do
    let s ← SDEKernel.add (k.children r).2 (k'.children r).2
    return (⟨_, s⟩ : Σ d, Stationary 1 d)
  init children k.jitter

/-- `__mul__` (l.1267-1276): child by child (`SDEKernel.__mul__`, l.347-350). The result has the jitter of the left operand. -/
noncomputable def mul (k k' : StackKernel R) : Except Err (StackKernel R) := do
  let children ← seqFin fun r => do
    let s ← SDEKernel.mul (k.children r).2 (k'.children r).2
    return (⟨_, s⟩ : Σ d, Stationary 1 d)
  init children k.jitter

end StackKernel

/-- A `ConditionalProcess` over a stack (posterior.py:177-206). -/
structure StackProcess (n : ℕ) {R : ℕ} (k : StackKernel R) where
  /-- `gauss_markov_model`: batch shape `[num_kernels]` -/
  q : Fin R → SSM n k.stateDim
  /-- `conditioning_time_points` -/
  times : Fin R → Fin (n + 1) → ℝ
  /-- `mean_function`, applied to times of shape `[num_kernels, num_data]` with values of shape `[num_kernels, num_data, 1]`: at
  one kernel and time point -/
  meanFunction : Fin R → ℝ → ℝ

namespace StackProcess
variable {k : StackKernel R}

/-- `predict_state` (posterior.py:207-229): each batch entry on its own, with its own neighbouring times. -/
noncomputable def predictState (c : StackProcess n k) (new : Fin R → Fin p → ℝ) :
    Except Err (Fin R → Fin p → Vec k.stateDim × Mat k.stateDim k.stateDim) :=
  seqFin fun r => CondProcess.predictState ⟨c.q r, k.slice r, c.times r, fun t _ => c.meanFunction r t⟩ (new r)

/-- `predict_f` (posterior.py:231-258), `full_output_cov=False`: the `StackEmissionModel` (sde_kernel.py:1225-1254,
emission_model.py:325-378) moves the kernel index to the last axis, and so does `_correct_mean_shape` (posterior.py:790-813). -/
noncomputable def predictFDiag (c : StackProcess n k) (new : Fin R → Fin p → ℝ) :
    Except Err (Fin p → Vec R × Vec R) := do
  let s ← c.predictState new
  let H : Fin R → Fin p → Mat 1 k.stateDim := fun r q => (k.slice r).emission (new r q)
  let mean : Fin R → Fin p → Vec 1 := fun r q _ => c.meanFunction r (new r q)
  let corrected : Fin p → Vec R := fun q r => mean r q 0
  return fun q => (stackProjectStateToF H (fun r q => (s r q).1) q + corrected q,
    stackProjectStateCovarianceToFDiag H (fun r q => (s r q).2) q)

/-- `predict_f` (posterior.py:231-258), `full_output_cov=True`: a diagonal matrix (emission_model.py:374-375). -/
noncomputable def predictF (c : StackProcess n k) (new : Fin R → Fin p → ℝ) :
    Except Err (Fin p → Vec R × Mat R R) := do
  let s ← c.predictState new
  let H : Fin R → Fin p → Mat 1 k.stateDim := fun r q => (k.slice r).emission (new r q)
  let mean : Fin R → Fin p → Vec 1 := fun r q _ => c.meanFunction r (new r q)
  let corrected : Fin p → Vec R := fun q r => mean r q 0
  return fun q => (stackProjectStateToF H (fun r q => (s r q).1) q + corrected q,
    stackProjectStateCovarianceToFFull H (fun r q => (s r q).2) q)

/-- `sample_state_trajectories` (posterior.py:260-377): each batch entry on its own, with its own draws. -/
noncomputable def sampleStateTrajectories (c : StackProcess n k) (new : Fin R → Fin p → ℝ) (epsPrior : Fin R → Fin (n + p + 1) → Vec k.stateDim)
    (epsPost : Fin R → Fin (n + 1) → Vec k.stateDim) : Except Err (Fin R → (Fin p → Vec k.stateDim) × (Fin (n + 1) → Vec k.stateDim)) :=
  seqFin fun r => CondProcess.sampleStateTrajectories ⟨c.q r, k.slice r, c.times r, fun t _ => c.meanFunction r t⟩ (new r) (epsPrior r) (epsPost r)

/-- `sample_f` (posterior.py:379-410): the `StackEmissionModel` and `_correct_mean_shape` move the kernel index to the last axis. -/
noncomputable def sampleF (c : StackProcess n k) (new : Fin R → Fin p → ℝ) (epsPrior : Fin R → Fin (n + p + 1) → Vec k.stateDim)
    (epsPost : Fin R → Fin (n + 1) → Vec k.stateDim) : Except Err (Fin p → Vec R) := do
  let s ← c.sampleStateTrajectories new epsPrior epsPost
  let H : Fin R → Fin p → Mat 1 k.stateDim := fun r q => (k.slice r).emission (new r q)
  let mean : Fin R → Fin p → Vec 1 := fun r q _ => c.meanFunction r (new r q)
  let corrected : Fin p → Vec R := fun q r => mean r q 0
  return fun q => corrected q + stackProjectStateToF H (fun r => (s r).1) q

end StackProcess

/-- A likelihood whose density may couple the latent outputs at one datum (likelihoods.py:28-97 `Likelihood`, and the GPflow
interface), with observations of type `β`. -/
structure VectorLikelihood (R : ℕ) (β : Type) where
  /-- `log_prob(F, Y)` at one datum -/
  logProb : Vec R → β → ℝ
  /-- `variational_expectations(Fmu, Fvar, Y)` at one datum -/
  varExp : Vec R → Vec R → β → ℝ

/-- A GPflow scalar likelihood applied to every output (contract: the last axis is summed; called at sparse_variational.py:172). -/
def ScalarLikelihood.toVector (lik : ScalarLikelihood) : VectorLikelihood R (Vec R) where
  logProb f y := ∑ r, lik.logProb (f r) (y r)
  varExp m v y := lik.varExps m v y

/-- A `SparseVariationalGaussianProcess` (sparse_variational.py:97-147) over a stack. -/
structure StackSVGP (n : ℕ) {R : ℕ} (k : StackKernel R) (β : Type) where
  /-- `likelihood` -/
  likelihood : VectorLikelihood R β
  /-- `inducing_inputs` -/
  inducing : Fin R → Fin (n + 1) → ℝ
  /-- `mean_function` -/
  meanFunction : Fin R → ℝ → ℝ
  /-- `num_data` -/
  numData : Option ℕ
  /-- `dist_q` -/
  q : Fin R → SSM n k.stateDim

namespace StackSVGP
variable {k : StackKernel R}

/-- `__init__` (sparse_variational.py:97-147) -/
noncomputable def init (k : StackKernel R) (likelihood : VectorLikelihood R β) (inducing : Fin R → Fin (n + 1) → ℝ)
    (meanFunction : Option (Fin R → ℝ → ℝ)) (numData : Option ℕ) (initialDistribution : Option (Fin R → SSM n k.stateDim)) :
    Except Err (StackSVGP n k β) := do
  let meanFunction := meanFunction.getD fun _ _ => 0
  let initial ← match initialDistribution with
    | none => k.stateSpaceModel inducing
    | some q => pure q
  return ⟨likelihood, inducing, meanFunction, numData, fun r => (initial r).createTrainableCopy⟩

variable (v : StackSVGP n k β)

/-- `dist_p` (sparse_variational.py:225-230) -/
noncomputable def distP : Except Err (Fin R → SSM n k.stateDim) := k.stateSpaceModel v.inducing

/-- `posterior` (sparse_variational.py:239-248) -/
def posterior : StackProcess n k := ⟨v.q, v.inducing, v.meanFunction⟩

/-- `elbo` (sparse_variational.py:149-192) on `X` of shape `[num_kernels, num_data]`; the KL divergences of the batch entries are
summed (l.180), and the minibatch size is the last dimension of `X` (l.184). -/
noncomputable def elbo (X : Fin R → Fin p → ℝ) (Y : Fin p → β) : Except Err ℝ := do
  let fx ← v.posterior.predictFDiag X
  let ve : ℝ := ∑ i, v.likelihood.varExp (fx i).1 (fx i).2 (Y i)
  let prior ← v.distP
  let kls ← seqFin fun r => (v.q r).klDivergence (prior r)
  let kl : ℝ := ∑ r, kls r
  let scale : ℝ := match v.numData with
    | some numData => (numData : ℝ) / (p : ℝ)
    | none => 1
  return ve * scale - kl

/-- `loss` (sparse_variational.py:250-260) -/
noncomputable def loss (X : Fin R → Fin p → ℝ) (Y : Fin p → β) : Except Err ℝ := do
  let e ← v.elbo X Y
  return -e

end StackSVGP

/-- A `VariationalGaussianProcess` (variational.py:80-127) over a stack. -/
structure StackVGP (n : ℕ) {R : ℕ} (k : StackKernel R) (β : Type) where
  /-- `time_points` -/
  times : Fin R → Fin (n + 1) → ℝ
  /-- `observations` -/
  observations : Fin (n + 1) → β
  /-- `likelihood` -/
  likelihood : VectorLikelihood R β
  /-- `mean_function` -/
  meanFunction : Fin R → ℝ → ℝ
  /-- `dist_q` -/
  q : Fin R → SSM n k.stateDim

namespace StackVGP
variable {k : StackKernel R}

/-- `__init__` (variational.py:80-127) -/
noncomputable def init (times : Fin R → Fin (n + 1) → ℝ) (observations : Fin (n + 1) → β) (k : StackKernel R) (likelihood : VectorLikelihood R β)
    (meanFunction : Option (Fin R → ℝ → ℝ)) (initialDistribution : Option (Fin R → SSM n k.stateDim)) : Except Err (StackVGP n k β) := do
  let meanFunction := meanFunction.getD fun _ _ => 0
  let initial ← match initialDistribution with
    | none => k.stateSpaceModel times
    | some q => pure q
  return ⟨times, observations, likelihood, meanFunction, fun r => (initial r).createTrainableCopy⟩

variable (v : StackVGP n k β)

/-- `dist_p` (variational.py:193-198) -/
noncomputable def distP : Except Err (Fin R → SSM n k.stateDim) := k.stateSpaceModel v.times

/-- `posterior` (variational.py:207-216) -/
def posterior : StackProcess n k := ⟨v.q, v.times, v.meanFunction⟩

/-- `elbo` (variational.py:129-152) -/
noncomputable def elbo : Except Err ℝ := do
  let fx ← v.posterior.predictFDiag v.times
  let ve : ℝ := ∑ i, v.likelihood.varExp (fx i).1 (fx i).2 (v.observations i)
  let prior ← v.distP
  let kls ← seqFin fun r => (v.q r).klDivergence (prior r)
  let kl : ℝ := ∑ r, kls r
  return ve - kl

/-- `loss` (variational.py:218-222) -/
noncomputable def loss : Except Err ℝ := do
  let e ← v.elbo
  return -e

end StackVGP
end MF
