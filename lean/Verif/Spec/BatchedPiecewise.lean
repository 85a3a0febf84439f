import Verif.Model.BatchedPiecewise
import Verif.Spec.BatchedKernels

/-!
# A piecewise kernel on tensors holds the piecewise kernel of the mathematical model
-/

namespace MF.Spec
open Tensor

/-- `x` has shape `batch_shape + [n]` and every batch element is the list `l`, of length `n`. -/
def HoldsReals (bs : List ℕ) (x : Tensor) (l : List ℝ) : Prop := HoldsVec (d := l.length) bs x fun _ => l.get

/-- `x` has shape `[n]` and is the list of indices `l`, of length `n`. -/
def HoldsInts (x : ZTensor) (l : List ℤ) : Prop := x.shape = [l.length] ∧ ∀ t : Fin l.length, x.val [(t : ℕ)] = l.get t

/-- `x` has shape `[n, d]`, without batch axes, and is the list of vectors `l`, of length `n`. -/
def HoldsVectors {d : ℕ} (x : Tensor) (l : List (Vec d)) : Prop := HoldsVecs (n := l.length) [] x fun _ => l.get

/-- `x` has shape `[n, r, c]`, without batch axes, and is the list of matrices `l`, of length `n`. -/
def HoldsMatrices {r c : ℕ} (x : Tensor) (l : List (Mat r c)) : Prop := HoldsMats (n := l.length) [] x fun _ => l.get

/-- Two calls agree: both return, and the results are related by `R`, or both raise the same exception. -/
def Agree {α β : Type*} (R : β → α → Prop) (X : Except Err β) (Y : Except Err α) : Prop :=
  (∃ x y, X = .ok x ∧ Y = .ok y ∧ R x y) ∨ ∃ e, X = .error e ∧ Y = .error e

/-- A piecewise kernel on tensors holds the piecewise kernel `k`: the same kernels, change points and jitter. -/
structure HoldsPiecewise {o d : ℕ} (K : TPiecewise) (k : Piecewise o d) : Prop where
  kernels : List.Forall₂ HoldsKernel K.kernels k.kernels
  nonempty : k.kernels ≠ []
  changePoints : HoldsReals [] K.changePoints k.changePoints
  stateDim : K.stateDim = d
  jitter : K.jitter = k.jitter

end MF.Spec
