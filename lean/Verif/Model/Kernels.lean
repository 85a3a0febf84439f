import Verif.Model.Utils
import Verif.Model.StateSpaceModel
import Verif.Model.Emission
import Mathlib.Analysis.SpecialFunctions.Trigonometric.Basic
import Mathlib.Analysis.SpecialFunctions.Sqrt
import Mathlib.Analysis.Normed.Algebra.MatrixExponential

/-!
# Model of `markovflow/kernels/` (`sde_kernel.py`, `matern.py`, `periodic.py`, `constant.py`,
`latent_exp_generated.py`)

A stationary kernel object is modelled by the values its methods return at one transition (the Python
methods are vectorised over transitions; every stationary kernel treats the entries independently).
`PiecewiseKernel` is in `Model/Piecewise.lean`. Hyperparameters are real numbers: gpflow
`Parameter(value, transform=positive())` holds the given value (contract).
-/

namespace MF
open Matrix

/-- The methods of a `StationaryKernel` object (sde_kernel.py:43-496) with `output_dim = o` and `state_dim = d`. -/
structure Stationary (o d : ℕ) where
  /-- `state_transitions(transition_time, time_delta)` -/
  stateTransitions : ℝ → ℝ → Mat d d
  /-- `feedback_matrix` -/
  feedback : Mat d d
  /-- `steady_state_covariance` -/
  Pinf : Mat d d
  /-- `state_mean` -/
  stateMean : Vec d
  /-- `initial_mean(())` -/
  initialMean : Vec d
  /-- `_jitter` -/
  jitter : ℝ
  /-- `generate_emission_model(time_point).emission_matrix` -/
  emission : ℝ → Mat o d
  /-- `transition_statistics(transition_time, time_delta)[1]` -/
  transitionNoise : ℝ → ℝ → Mat d d
  /-- `process_covariances(transition_time, time_delta)` -/
  processCov : ℝ → ℝ → Mat d d
  /-- `state_offsets(transition_time, time_delta)` -/
  stateOffsets : ℝ → ℝ → Vec d

/-- `SDEKernel.generate_emission_model` (sde_kernel.py:173-211): a column of ones, then zeros. -/
def sdeEmission (o d : ℕ) : Mat o d := Matrix.of fun _ j => if (j : ℕ) = 0 then 1 else 0

/-- `jitter_matrix` (sde_kernel.py:332-340) -/
def jitterMatrix (d : ℕ) (jitter : ℝ) : Mat d d := Matrix.of fun i j => (1 : Mat d d) i j * jitter

/-- `StationaryKernel.transition_statistics` (sde_kernel.py:421-446), second component. -/
def statTransitionNoise {d : ℕ} (A : ℝ → ℝ → Mat d d) (P : Mat d d) (jitter : ℝ) (t δ : ℝ) :
    Mat d d :=
  let aPinf := A t δ * P
  let aPinfAT := aPinf * (A t δ)ᵀ
  (P - aPinfAT) + jitterMatrix d jitter

/-- `StationaryKernel.state_offsets` (sde_kernel.py:460-475) -/
def statOffsets {d : ℕ} (A : ℝ → ℝ → Mat d d) (m : Vec d) (t δ : ℝ) : Vec d :=
  (-(A t δ - 1)) *ᵥ m

/-- A stationary kernel with all methods inherited from `StationaryKernel` (sde_kernel.py:353-496):
`initial_mean` is `_state_mean` (l.380-391), `process_covariances` is the second output of
`transition_statistics` (l.312-330). -/
def Stationary.base {o d : ℕ} (A : ℝ → ℝ → Mat d d) (F P : Mat d d) (jitter : ℝ) (m : Vec d)
    (H : ℝ → Mat o d) : Stationary o d where
  stateTransitions := A
  feedback := F
  Pinf := P
  stateMean := m
  initialMean := m
  jitter := jitter
  emission := H
  transitionNoise := statTransitionNoise A P jitter
  processCov := statTransitionNoise A P jitter
  stateOffsets := statOffsets A m

namespace Stationary
variable {o d : ℕ}

/-- `set_state_mean` (sde_kernel.py:393-400) on a kernel that inherits `initial_mean` and
`state_offsets`. -/
def setStateMean (K : Stationary o d) (m : Vec d) : Stationary o d :=
  { K with stateMean := m, initialMean := m, stateOffsets := statOffsets K.stateTransitions m }

/-- `StationaryKernel.initial_covariance` (sde_kernel.py:402-419) -/
def initialCovariance (K : Stationary o d) : Mat d d := K.Pinf + jitterMatrix d K.jitter

/-- `SDEKernel.state_space_model` (sde_kernel.py:153-171, 253-264). The emission is not part of it. -/
noncomputable def stateSpaceModel {n : ℕ} (K : Stationary o d) (ts : Fin (n + 1) → ℝ) :
    Except Err (SSM n d) := do
  let δ ← toDeltaTime ts
  let As : Fin n → Mat d d := fun k => K.stateTransitions (ts k.castSucc) (δ k)
  let Qs : Fin n → Mat d d := fun k => K.transitionNoise (ts k.castSucc) (δ k)
  let δ' ← toDeltaTime ts
  ssmFromCovariances K.initialMean K.initialCovariance As
    (fun k => K.stateOffsets (ts k.castSucc) (δ' k)) Qs

end Stationary

/-- Evaluation of the checks in a kernel constructor: `assert jitter >= 0` (sde_kernel.py:129), then
the positivity checks (`ValueError`). -/
noncomputable def kernelInit {o d : ℕ} (jitter : ℝ) (positives : List ℝ) (K : Stationary o d) :
    Except Err (Stationary o d) :=
  open Classical in
  if ¬ 0 ≤ jitter then .error .assertion
  else if ∃ p ∈ positives, p ≤ 0 then .error .value
  else .ok K

/-- `Matern12` (matern.py:27-126) -/
noncomputable def matern12 (o : ℕ) (lengthscale variance jitter : ℝ) :
    Except Err (Stationary o 1) :=
  kernelInit jitter [lengthscale, variance] <|
    .base (fun _ δ => !![Real.exp (-δ / lengthscale)]) !![-1 / lengthscale] !![variance] jitter 0
      (fun _ => sdeEmission o 1)

/-- `OrnsteinUhlenbeck` (matern.py:130-233) -/
noncomputable def ornsteinUhlenbeck (o : ℕ) (decay diffusion jitter : ℝ) :
    Except Err (Stationary o 1) :=
  kernelInit jitter [decay, diffusion] <|
    .base (fun _ δ => !![Real.exp (-δ * decay)]) !![-decay] !![0.5 * diffusion / decay] jitter 0
      (fun _ => sdeEmission o 1)

/-- `Matern32.feedback_matrix` (matern.py:326-341) -/
def feedback32 (lam : ℝ) : Mat 2 2 := !![0, 1; -lam ^ 2, -2 * lam]

/-- `Matern32` (matern.py:237-372) -/
noncomputable def matern32 (o : ℕ) (lengthscale variance jitter : ℝ) :
    Except Err (Stationary o 2) :=
  let lam := Real.sqrt 3 / lengthscale
  kernelInit jitter [lengthscale, variance] <|
    .base
      (fun _ δ =>
        let fLambdaIt : Mat 2 2 := δ • (feedback32 lam + lam • (1 : Mat 2 2))
        Real.exp (-lam * δ) • (1 + fLambdaIt))
      (feedback32 lam)
      (variance • !![1, 0; 0, lam ^ 2]) jitter 0 (fun _ => sdeEmission o 2)

/-- `Matern52.feedback_matrix` (matern.py:462-483) -/
def feedback52 (lam : ℝ) : Mat 3 3 := !![0, 1, 0; 0, 0, 1; -lam ^ 3, -3 * lam ^ 2, -3 * lam]

/-- `Matern52` (matern.py:376-517) -/
noncomputable def matern52 (o : ℕ) (lengthscale variance jitter : ℝ) :
    Except Err (Stationary o 3) :=
  let lam := Real.sqrt 5 / lengthscale
  let lam23 := lam ^ 2 / 3
  kernelInit jitter [lengthscale, variance] <|
    .base
      (fun _ δ =>
        let fLambdaIt : Mat 3 3 := δ • (feedback52 lam + lam • (1 : Mat 3 3))
        Real.exp (-lam * δ) • (1 + fLambdaIt + (1 / 2 : ℝ) • (fLambdaIt * fLambdaIt)))
      (feedback52 lam)
      (variance • !![1, 0, -lam23; 0, lam23, 0; -lam23, 0, lam ^ 4]) jitter 0
      (fun _ => sdeEmission o 3)

/-- `HarmonicOscillator` (periodic.py:27-203): overrides `process_covariances` (l.135-154) but not
`transition_statistics`. -/
noncomputable def harmonicOscillator (o : ℕ) (variance period jitter : ℝ) :
    Except Err (Stationary o 2) :=
  let lam := 2 * Real.pi / period
  kernelInit jitter [variance, period] <|
    { Stationary.base
        (fun _ δ => !![Real.cos (δ * lam), -Real.sin (δ * lam); Real.sin (δ * lam), Real.cos (δ * lam)])
        !![0, -lam; lam, 0] (variance • (1 : Mat 2 2)) jitter 0 (fun _ => sdeEmission o 2) with
      processCov := fun _ _ => jitterMatrix 2 jitter }

/-- `Constant` (constant.py:28-153): overrides `process_covariances` and `transition_statistics`. -/
noncomputable def constant (o : ℕ) (variance jitter : ℝ) : Except Err (Stationary o 1) :=
  kernelInit jitter [variance] <|
    { Stationary.base (fun _ _ => !![1]) 0 !![1 * variance] jitter 0 (fun _ => sdeEmission o 1) with
      processCov := fun _ _ => 0 + jitterMatrix 1 jitter
      transitionNoise := fun _ _ => 0 + jitterMatrix 1 jitter }

/-- `LatentExponentiallyGenerated.feedback_matrix` (latent_exp_generated.py:101-115) -/
noncomputable def legFeedback {d : ℕ} (N R : Mat d d) : Mat d d :=
  (1 / 2 : ℝ) • (-(N * Nᵀ + R - Rᵀ))

/-- `LatentExponentiallyGenerated` (latent_exp_generated.py:29-142): `output_dim = state_dim`, the
emission matrix is the inherited one; `process_covariances` is overridden without jitter.
`tf.linalg.expm` is the matrix exponential (contract). -/
noncomputable def leg {d : ℕ} (N R : Mat d d) (jitter : ℝ) : Except Err (Stationary d d) :=
  let A : ℝ → ℝ → Mat d d := fun _ δ => NormedSpace.exp (δ • legFeedback N R)
  kernelInit jitter [] <|
    { Stationary.base A (legFeedback N R) 1 jitter 0 (fun _ => sdeEmission d d) with
      processCov := fun t δ => 1 - A t δ * (A t δ)ᵀ }

/-! ### Combinations -/

/-- `ConcatKernel` (sde_kernel.py:540-656): block diagonal state. Its own `_state_mean` is zero
(l.575 passes none), `initial_mean` concatenates those of the children (l.612-629); the children's
jitter is not used. -/
def concatKernel {o o' : ℕ} (ks : List (Σ d, Stationary o d)) (jitter : ℝ)
    (H : ℝ → Mat o' (sumDim ks)) : Stationary o' (sumDim ks) :=
  { Stationary.base
      (fun t δ => blockDiag (fun _ k => k.stateTransitions t δ) ks)
      (blockDiag (fun _ k => k.feedback) ks)
      (blockDiag (fun _ k => k.Pinf) ks) jitter 0 H with
    initialMean := concatVec (fun _ k => k.initialMean) ks }

/-- The checks of the combining constructors: `assert self._kernels`, equal output dimensions (sde_kernel.py:566-575, 743-751, 987-996; by
typing), non-negative jitter. -/
noncomputable def combineInit {o o' d : ℕ} (ks : List (Σ d, Stationary o d)) (jitter : ℝ)
    (K : Stationary o' d) : Except Err (Stationary o' d) :=
  open Classical in
  if ks = [] then .error .assertion else if ¬ 0 ≤ jitter then .error .assertion else .ok K

/-- `Sum` (sde_kernel.py:660-687) -/
noncomputable def sumKernel {o : ℕ} (ks : List (Σ d, Stationary o d)) (jitter : ℝ) :
    Except Err (Stationary o (sumDim ks)) :=
  combineInit ks jitter <| concatKernel ks jitter fun t => concatCols (fun _ k => k.emission t) ks

/-- `IndependentMultiOutput` (sde_kernel.py:826-877): every child's emission rows are padded with
zeros over the other children's states (`pre_pad`, `post_pad`), and the rows are concatenated. -/
noncomputable def independentMultiOutput {o : ℕ} (ks : List (Σ d, Stationary o d)) (jitter : ℝ) :
    Except Err (Stationary (ks.length * o) (sumDim ks)) :=
  combineInit ks jitter <|
    concatKernel ks jitter fun t => padConcatRows o (fun _ k => k.emission t) ks

/-- `FactorAnalysisKernel` (sde_kernel.py:881-941): `W = A(t) @ B` composed with the emission of the
independent components. `weight` is `_Afn` at one time point, `B` the loading matrix. -/
noncomputable def factorAnalysis {o o' : ℕ} (ks : List (Σ d, Stationary o d))
    (weight : ℝ → Mat o' (ks.length * o)) (B : Mat (ks.length * o) (ks.length * o)) (jitter : ℝ) :
    Except Err (Stationary o' (sumDim ks)) :=
  combineInit ks jitter <|
    concatKernel ks jitter fun t =>
      composedEmission (N := 1) (fun _ => weight t * B)
        (fun _ => padConcatRows o (fun _ k => k.emission t) ks) 0

/-- `Product` (sde_kernel.py:691-822) for `output_dim = 1` (for larger output dimensions and more than
one child the shape assertion of `generate_emission_model`, l.820-821, fails). -/
noncomputable def productKernel (ks : List (Σ d, Stationary 1 d)) (jitter : ℝ) :
    Except Err (Stationary 1 (prodDim ks)) :=
  combineInit ks jitter <|
    .base
      (fun t δ => kron (fun _ k => k.stateTransitions t δ) ks)
      (kron (fun _ k => k.feedback) ks)
      (kron (fun _ k => k.Pinf) ks) jitter 0 (fun t => kronRow (fun _ k => k.emission t) ks)

/-- `SDEKernel.__add__` (sde_kernel.py:342-345) -/
noncomputable def SDEKernel.add {o d₁ d₂ : ℕ} (k₁ : Stationary o d₁) (k₂ : Stationary o d₂) :
    Except Err (Stationary o (sumDim [⟨d₁, k₁⟩, ⟨d₂, k₂⟩])) := sumKernel [⟨d₁, k₁⟩, ⟨d₂, k₂⟩] 0

/-- `SDEKernel.__mul__` (sde_kernel.py:347-350) -/
noncomputable def SDEKernel.mul {d₁ d₂ : ℕ} (k₁ : Stationary 1 d₁) (k₂ : Stationary 1 d₂) :
    Except Err (Stationary 1 (prodDim [⟨d₁, k₁⟩, ⟨d₂, k₂⟩])) := productKernel [⟨d₁, k₁⟩, ⟨d₂, k₂⟩] 0

/-- One leading-dimension slice of an `IndependentMultiOutputStack` (sde_kernel.py:945-1276): the child
`k`, padded by `extra = state_dim - k.state_dim` dimensions. Transitions are padded with zeros, the
steady state covariance with the identity (default `fill_zeros=False`, l.1159-1176), offsets and
emissions with zeros; `initial_mean` is the stack's own zero `_state_mean` (l.1080-1098, 380-391);
noise and initial covariance are inherited from `StationaryKernel`. -/
def stackSlice {d : ℕ} (k : Stationary 1 d) (extra : ℕ) (jitter : ℝ) : Stationary 1 (d + extra) :=
  { Stationary.base
      (fun t δ => augmentSquareMatrix (k.stateTransitions t δ) extra true)
      (augmentSquareMatrix k.feedback extra)
      (augmentSquareMatrix k.Pinf extra) jitter 0
      (fun t => augmentMatrix (k.emission t) extra) with
    stateOffsets := fun t δ => augmentVec (k.stateOffsets t δ) extra }

end MF
