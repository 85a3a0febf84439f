import Verif.Spec.BatchedKernels
import Verif.Model.BatchedMean

/-! # Specification of the impulse and step mean functions on tensors (C67) -/

namespace MF.Spec

/-- `state_transitions(transition_times, time_deltas)` does not depend on the transition times. -/
def IgnoresTimes (K : TKernel) : Prop := ∀ t t' δ, K.stateTransitions t δ = K.stateTransitions t' δ

end MF.Spec
