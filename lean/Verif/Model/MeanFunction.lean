import Verif.Model.Kernels
import Verif.Model.Transformations

/-!
# Model of `markovflow/mean_function.py`

`n + 1` actions (TensorFlow cannot build the zero-action case: `action_times[..., :1]` is then empty
and `gather` fails). The kernel is a stationary kernel. Simplification: `ImpulseMeanFunction.__call__`
passes `time_points[..., :-1]` (one too few) as the transition times (l.255); the model passes the
query time itself. Stationary kernels ignore that argument (`C26_transitions_group`).
-/

namespace MF
open Matrix

variable {o d n N : ℕ}

/-- `ZeroMeanFunction.__call__` (mean_function.py:78-87) -/
def zeroMean (o : ℕ) (_s : Fin N → ℝ) : Fin N → Vec o := fun _ _ => 0

/-- `LinearMeanFunction.__call__` (mean_function.py:105-114): `coefficient * t`, broadcast. -/
def linearMean (coefficient : ℝ) (o : ℕ) (s : Fin N → ℝ) : Fin N → Vec o :=
  fun i _ => coefficient * s i

/-- The common part of `ImpulseMeanFunction._a_k` (l.196-223) and `StepMeanFunction._b_k`
(l.347-375): solve the lower block bidiagonal system with identities on the diagonal and
`-exp(F (t_{k+1} - t_k))` below it, and prepend a zero. -/
noncomputable def actionSolve (K : Stationary o d) (ts : Fin (n + 1) → ℝ) (rhs : Fin (n + 1) → Vec d) :
    Except Err (Fin (n + 2) → Vec d) := do
  let As : Option (Fin n → Mat d d) ←
    if n + 1 = 1 then pure none
    else do
      let delta ← toDeltaTime ts
      pure (some fun k => -K.stateTransitions (ts k.castSucc) (delta k))
  let M ← BTD.init false (fun _ => 1) As
  return Fin.cons 0 (M.solve rhs)

/-- `ImpulseMeanFunction` (l.118-258): `_action_times` (l.187-188), `_a_k` (l.196-223) and `__call__`
(l.225-258). -/
noncomputable def impulseMean (K : Stationary o d) (ts : Fin (n + 1) → ℝ) (u : Fin (n + 1) → Vec d)
    (s : Fin N → ℝ) : Except Err (Fin N → Vec o) := do
  let actionTimes : Fin (n + 2) → ℝ := Fin.cons (ts 0 - 1e-6) ts
  let indices : Fin N → Fin (n + 2) := fun i => searchsortedLeft ts (s i)
  let deltaTimes : Fin N → ℝ := fun i => s i - actionTimes (indices i)
  let a ← actionSolve K ts u
  let stateMean : Fin N → Vec d := fun i =>
    K.stateTransitions (s i) (deltaTimes i) *ᵥ a (indices i)
  return projectStateToF (fun i => K.emission (s i)) stateMean

/-- `StepMeanFunction._a_k` (l.335-345) -/
noncomputable def stepA (K : Stationary o d) (u : Fin (n + 1) → Vec d) :
    Except Err (Fin (n + 2) → Vec d) := do
  let solved ← seqFin fun k => tfSolve K.feedback (replicateCol (Fin 1) (u k))
  let fInvPerturb : Fin (n + 1) → Vec d := fun k => (solved k).col 0
  return Fin.cons 0 fun k => -fInvPerturb k

/-- `StepMeanFunction` (l.262-412): `_action_times` (l.329), `_b_k` (l.347-375) and `__call__`
(l.377-412). -/
noncomputable def stepMean (K : Stationary o d) (ts : Fin (n + 1) → ℝ) (u : Fin (n + 1) → Vec d)
    (s : Fin N → ℝ) : Except Err (Fin N → Vec o) := do
  let actionTimes : Fin (n + 2) → ℝ := Fin.cons (ts 0) ts
  let indices : Fin N → Fin (n + 2) := fun i => searchsortedLeft ts (s i)
  let deltaTimes : Fin N → ℝ := fun i => s i - actionTimes (indices i)
  let a ← stepA K u
  let aDiff : Fin (n + 1) → Vec d := fun k => a k.castSucc - a k.succ
  let b ← actionSolve K ts aDiff
  let stateMean : Fin N → Vec d := fun i =>
    a (indices i) + K.stateTransitions (s i) (deltaTimes i) *ᵥ b (indices i)
  return projectStateToF (fun i => K.emission (s i)) stateMean

end MF
