import Verif.Model.SVGP

/-!
# Model of `markovflow/models/iwvi.py` and of `ImportanceWeightedPosteriorProcess` (`markovflow/posterior.py:470-758`)

Batch shape `()`, scalar GPflow likelihood. Samples are functions of the standard normal draws, as in
`CondProcess.sampleStateTrajectories`; `tf.random.categorical` draws are indices (contract: index `k` has probability
`softmax(log_weights)_k`). `tf.stop_gradient` is the identity on values. Not modelled: the gradients of
`dregs_objective`.
-/

namespace MF
open Matrix
variable {n d o p p' K r : ℕ}

/-- `tf.math.reduce_logsumexp` (contract) -/
noncomputable def reduceLogsumexp (a : Fin K → ℝ) : ℝ := Real.log (∑ k, Real.exp (a k))

/-- `tf.nn.softmax` (contract) -/
noncomputable def softmax (a : Fin K → ℝ) : Fin K → ℝ := fun k => Real.exp (a k) / ∑ j, Real.exp (a j)

/-- The attributes of an `ImportanceWeightedVI` (iwvi.py:80-107): those of the parent class and the number of samples
kept by its posterior process. -/
structure IWVI (n o d : ℕ) where
  /-- kernel, likelihood, inducing inputs, mean function and `dist_q` -/
  base : SVGP n o d
  /-- `num_importance_samples` -/
  numSamples : ℕ

/-- The standard normal draws of one call of `sample_state_trajectories` (posterior.py:260-377) with `p` new time points. -/
abbrev Draws (n p d : ℕ) := (Fin (n + p + 1) → Vec d) × (Fin (n + 1) → Vec d)

namespace IWVI

/-- `__init__` (iwvi.py:80-107). The call of the parent's constructor (l.99) passes `initial_distribution` in the position
of `num_data`, which is not used by this class: `dist_q` starts at the prior whatever is given. -/
noncomputable def init (kernel : Stationary o d) (inducing : Fin (n + 1) → ℝ) (likelihood : ScalarLikelihood)
    (numSamples : ℕ) (_initialDistribution : Option (SSM n d)) (meanFunction : Option (ℝ → Vec o)) :
    Except Err (IWVI n o d) := do
  let base ← SVGP.init kernel likelihood inducing meanFunction none none
  return ⟨base, numSamples⟩

variable (v : IWVI n o d)

/-- `posterior.proposal_process` (posterior.py:498-500) -/
def proposal : CondProcess n o d := v.base.posterior

/-- `log_importance_weights` (posterior.py:522-580) of one sample; `_log_qu_density` (l.504-520). -/
noncomputable def logImportanceWeight (samplesS : Fin p → Vec d) (samplesU : Fin (n + 1) → Vec d) (X : Fin p → ℝ)
    (Y : Fin p → Vec o) (stopGradient : Bool := false) : Except Err ℝ := do
  let distP ← v.proposal.kernel.stateSpaceModel v.proposal.times
  let logPu := distP.logPdf samplesU
  let distQ := if stopGradient then v.proposal.q.createNonTrainableCopy else v.proposal.q
  let logQu := distQ.logPdf samplesU
  let samplesF := projectStateToF (fun i => v.proposal.kernel.emission (X i)) samplesS
  let samplesF := fun i => samplesF i + v.proposal.meanFunction (X i)
  let logLik := ∑ i, ∑ a, v.base.likelihood.logProb (samplesF i a) (Y i a)
  return logLik + (logPu - logQu)

/-- `elbo` (iwvi.py:109-141), as a function of the draws. -/
noncomputable def elbo (X : Fin p → ℝ) (Y : Fin p → Vec o) (draws : Fin v.numSamples → Draws n p d) : Except Err ℝ := do
  let logNumSamples := Real.log (v.numSamples : ℝ)
  let samples ← seqFin fun k => v.proposal.sampleStateTrajectories X (draws k).1 (draws k).2
  let logWeights ← seqFin fun k => v.logImportanceWeight (samples k).1 (samples k).2 X Y
  return reduceLogsumexp logWeights - logNumSamples

/-- `dregs_objective` (iwvi.py:143-173): its value. -/
noncomputable def dregsObjective (X : Fin p → ℝ) (Y : Fin p → Vec o) (draws : Fin v.numSamples → Draws n p d) :
    Except Err ℝ := do
  let samples ← seqFin fun k => v.proposal.sampleStateTrajectories X (draws k).1 (draws k).2
  let logWeights ← seqFin fun k => v.logImportanceWeight (samples k).1 (samples k).2 X Y true
  let normalizedWeights := softmax logWeights
  return ∑ k, normalizedWeights k ^ 2 * logWeights k

/-- `_iwvi_samples_and_weights` (posterior.py:582-621), one sample: states at the new time points, log weight, states at the
conditioning time points. -/
noncomputable def samplesAndWeights (new : Fin p' → ℝ) (X : Fin p → ℝ) (Y : Fin p → Vec o) (draws : Draws n (p + p') d) :
    Except Err ((Fin p' → Vec d) × ℝ × (Fin (n + 1) → Vec d)) := do
  let allTimePoints : Fin (p + p') → ℝ := Fin.append X new
  let (samplesS, samplesU) ← v.proposal.sampleStateTrajectories allTimePoints draws.1 draws.2
  let samplesNew : Fin p' → Vec d := fun j => samplesS (Fin.natAdd p j)
  let samplesData : Fin p → Vec d := fun i => samplesS (Fin.castAdd p' i)
  let logWeight ← v.logImportanceWeight samplesData samplesU X Y
  return (samplesNew, logWeight, samplesU)

/-- The projected samples and their log weights, used by `sample_f` (posterior.py:676-706) and `expected_value`. -/
noncomputable def weightedF (new : Fin p' → ℝ) (X : Fin p → ℝ) (Y : Fin p → Vec o)
    (draws : Fin v.numSamples → Draws n (p + p') d) :
    Except Err ((Fin v.numSamples → Fin p' → Vec o) × (Fin v.numSamples → ℝ)) := do
  let sw ← seqFin fun k => v.samplesAndWeights new X Y (draws k)
  let H : Fin p' → Mat o d := fun j => v.proposal.kernel.emission (new j)
  return (fun k j => projectStateToF H (sw k).1 j + v.proposal.meanFunction (new j), fun k => (sw k).2.1)

/-- `sample_f` (posterior.py:676-706; `sample_state_trajectories`, l.623-674), one trajectory: `index` is the outcome of
`tf.random.categorical(log_weights, 1)`. -/
noncomputable def sampleF (new : Fin p' → ℝ) (X : Fin p → ℝ) (Y : Fin p → Vec o)
    (draws : Fin v.numSamples → Draws n (p + p') d) (index : Fin v.numSamples) : Except Err (Fin p' → Vec o) := do
  let (fs, _) ← v.weightedF new X Y draws
  return fs index

/-- `expected_value` (posterior.py:708-758); `func` acts on the last dimension. -/
noncomputable def expectedValue (new : Fin p' → ℝ) (X : Fin p → ℝ) (Y : Fin p → Vec o) (func : Vec o → Vec r)
    (draws : Fin v.numSamples → Draws n (p + p') d) : Except Err (Fin p' → Vec r) := do
  let (fs, logWeights) ← v.weightedF new X Y draws
  let weights := softmax logWeights
  return fun j => ∑ k, weights k • func (fs k j)

end IWVI
end MF
