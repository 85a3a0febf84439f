import Verif.Model.Conditionals
import Mathlib.Data.Fin.Tuple.Sort
import Mathlib.Data.Fin.Tuple.Basic

/-!
# Model of `markovflow/posterior.py`: `ConditionalProcess` and `AnalyticPosteriorProcess`

A `ConditionalProcess` is given by its distribution at the conditioning times (`q : SSM n d`), the
kernel, the conditioning times and the mean function.  Batch shape `()`; the kernel is not a
`StackKernel` (so `_correct_mean_shape`, l.790-813, returns the mean unchanged).
-/

namespace MF
open Matrix
variable {n d o p : ℕ}

/-- The attributes of a `ConditionalProcess` (posterior.py:177-206). -/
structure CondProcess (n o d : ℕ) where
  /-- `gauss_markov_model` -/
  q : SSM n d
  /-- `kernel` -/
  kernel : Stationary o d
  /-- `conditioning_time_points` -/
  times : Fin (n + 1) → ℝ
  /-- `mean_function`, at one time point -/
  meanFunction : ℝ → Vec o

namespace CondProcess

/-- `predict_state` (posterior.py:207-229) -/
noncomputable def predictState (c : CondProcess n o d) (new : Fin p → ℝ) :
    Except Err (Fin p → Vec d × Mat d d) := do
  let (pwMu, pwCov) ← pairwiseMarginals c.q c.kernel.initialMean c.kernel.initialCovariance
  conditionalPredict approxInf new c.times c.kernel.trans pwMu (some pwCov)

/-- `predict_f` (posterior.py:231-258) with `full_output_cov=True`. -/
noncomputable def predictF (c : CondProcess n o d) (new : Fin p → ℝ) :
    Except Err (Fin p → Vec o × Mat o o) := do
  let s ← c.predictState new
  let H : Fin p → Mat o d := fun q => c.kernel.emission (new q)
  return fun q => (projectStateToF H (fun q => (s q).1) q + c.meanFunction (new q),
    projectStateCovarianceToFFull H (fun q => (s q).2) q)

/-- `predict_f` (posterior.py:231-258) with `full_output_cov=False`. -/
noncomputable def predictFDiag (c : CondProcess n o d) (new : Fin p → ℝ) :
    Except Err (Fin p → Vec o × Vec o) := do
  let s ← c.predictState new
  let H : Fin p → Mat o d := fun q => c.kernel.emission (new q)
  return fun q => (projectStateToF H (fun q => (s q).1) q + c.meanFunction (new q),
    projectStateCovarianceToFDiag H (fun q => (s q).2) q)

/-- `sample_state_trajectories` (posterior.py:260-377), one sample, as a function of the standard
normal draws used by the two calls to `StateSpaceModel.sample`: `epsPrior` for the prior at the joint
time points, `epsPost` for the posterior at the conditioning points. Returns the samples at the new
and at the conditioning time points. `tf.argsort` is `Tuple.sort` (contract; stable). -/
noncomputable def sampleStateTrajectories (c : CondProcess n o d) (new : Fin p → ℝ)
    (epsPrior : Fin (n + p + 1) → Vec d) (epsPost : Fin (n + 1) → Vec d) :
    Except Err ((Fin p → Vec d) × (Fin (n + 1) → Vec d)) := do
  let jointTimes : Fin (n + p + 1) → ℝ := fun i =>
    Fin.append c.times new (i.cast (by omega))
  let sortInd : Fin (n + p + 1) → Fin (n + p + 1) := Tuple.sort jointTimes
  let sortedTimes := jointTimes ∘ sortInd
  let prior ← c.kernel.stateSpaceModel sortedTimes
  let sortedSamples ← prior.sample epsPrior
  let unsortInd : Fin (n + p + 1) → Fin (n + p + 1) := Tuple.sort sortInd
  let jointSamples := sortedSamples ∘ unsortInd
  let priorConditioning : Fin (n + 1) → Vec d := fun k =>
    jointSamples ((Fin.castAdd p k).cast (by omega))
  let priorNew : Fin p → Vec d := fun q => jointSamples ((Fin.natAdd (n + 1) q).cast (by omega))
  let posteriorConditioning ← c.q.sample epsPost
  let delta : Fin (n + 1) → Vec d := fun k => priorConditioning k - posteriorConditioning k
  let deltaAugmented : Fin (n + 3) → Vec d :=
    Fin.cons 0 (Fin.snoc (α := fun _ => Vec d) delta 0)
  let indices : Fin p → Fin (n + 2) := fun q => searchsortedLeft c.times (new q)
  let v : Fin p → Fin d ⊕ Fin d → ℝ := fun q =>
    Sum.elim (deltaAugmented (indices q).castSucc) (deltaAugmented (indices q).succ)
  let (P, _) ← conditionalStatistics approxInf new c.times c.kernel.trans
  return (fun q => priorNew q - P q *ᵥ v q, posteriorConditioning)

/-- `sample_f` (posterior.py:379-410; `sample_state`, l.46-70, keeps the samples at the new time
points). -/
noncomputable def sampleF (c : CondProcess n o d) (new : Fin p → ℝ)
    (epsPrior : Fin (n + p + 1) → Vec d) (epsPost : Fin (n + 1) → Vec d) :
    Except Err (Fin p → Vec o) := do
  let (stateSamples, _) ← c.sampleStateTrajectories new epsPrior epsPost
  let H : Fin p → Mat o d := fun q => c.kernel.emission (new q)
  let centered := projectStateToF H stateSamples
  return fun q => c.meanFunction (new q) + centered q

end CondProcess

/-- `AnalyticPosteriorProcess.predict_y` (posterior.py:445-467) for a GPflow `Gaussian` likelihood with
variance `noise` (contract: `predict_mean_and_var(Fmu, Fvar) = (Fmu, Fvar + variance)`),
`full_output_cov=False`. -/
noncomputable def CondProcess.predictYGaussian (c : CondProcess n o d) (noise : ℝ) (new : Fin p → ℝ) :
    Except Err (Fin p → Vec o × Vec o) := do
  let f ← c.predictFDiag new
  return fun q => ((f q).1, fun i => (f q).2 i + noise)

end MF
