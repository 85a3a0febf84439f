import Verif.Spec.BatchedKernels
import Verif.Model.BatchedVariational

/-!
# Specification of batching for the parameter transformations and the variational models (C64)
-/

namespace MF.Spec
open MF.Tensor
variable {n o d : ℕ}

/-- The three tensors of natural or expectation parameters: one triple per batch index. -/
def HoldsTriple (bs : List ℕ) (x : Tensor × Tensor × Tensor)
    (y : List ℕ → (Fin (n + 1) → Vec d) × (Fin (n + 1) → Mat d d) × (Fin n → Mat d d)) : Prop :=
  HoldsVecs bs x.1 (fun b => (y b).1) ∧ HoldsMats bs x.2.1 (fun b => (y b).2.1) ∧ HoldsMats bs x.2.2 fun b => (y b).2.2

/-- A variational Gaussian process on tensors is, for every batch element `b`, the model `v b`: its own data, mean function and variational
distribution, and the common kernel and likelihood. -/
structure HoldsVGP (bs : List ℕ) (V : TVGP) (v : List ℕ → VGP n o d) : Prop where
  times : HoldsTimes bs V.times fun b => (v b).times
  observations : HoldsVecs bs V.observations fun b => (v b).observations
  kernel : ∃ k, HoldsKernel V.kernel k ∧ ∀ b, InRange b bs → (v b).kernel = k
  likelihood : ∀ b, InRange b bs → (v b).likelihood = V.likelihood
  mean : HoldsMeanOn bs V.meanFunction fun b => (v b).meanFunction
  q : HoldsSSM bs V.q fun b => (v b).q

/-- A sparse variational Gaussian process on tensors is, for every batch element `b`, the model `v b`: its own inducing inputs, mean function and
variational distribution, and the common kernel, likelihood and number of data. -/
structure HoldsSVGP (bs : List ℕ) (V : TSVGP) (v : List ℕ → SVGP n o d) : Prop where
  inducing : HoldsTimes bs V.inducing fun b => (v b).inducing
  kernel : ∃ k, HoldsKernel V.kernel k ∧ ∀ b, InRange b bs → (v b).kernel = k
  likelihood : ∀ b, InRange b bs → (v b).likelihood = V.likelihood
  mean : HoldsMeanOn bs V.meanFunction fun b => (v b).meanFunction
  numData : ∀ b, InRange b bs → (v b).numData = V.numData
  q : HoldsSSM bs V.q fun b => (v b).q

end MF.Spec
