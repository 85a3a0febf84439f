import Verif.Model.PEP
import Verif.Model.SparseCVI

/-!
# Model of `markovflow/models/sparse_pep.py`

`SparsePowerExpectationPropagation`, batch shape `()`, one output (asserted by `back_project_nats`). As in
`Model/SparseCVI` the axis of size `2 * state_dim` is `Fin d ⊕ Fin d`.
Not modelled, because they raise whenever they are called (they use attributes the class does not have):
`mask_indices` (l.142-152, `_time_points`, `_observations`), `local_objective` (l.164-166, `_likelihood`) and
`loss` (l.497-504, `elbo`).
-/

namespace MF
open Matrix
variable {n d p : ℕ}

/-- The attributes of a `SparsePowerExpectationPropagation` (sparse_pep.py:92-132). -/
structure SparsePEP (n d : ℕ) where
  /-- `kernel` -/
  kernel : Stationary 1 d
  /-- `inducing_inputs` -/
  inducing : Fin (n + 1) → ℝ
  /-- `likelihood` -/
  likelihood : PEPLikelihood
  /-- `_mean_function`, at one time point -/
  meanFunction : ℝ → Vec 1
  /-- `learning_rate` -/
  learningRate : ℝ
  /-- `alpha` -/
  alpha : ℝ
  /-- `nat1` -/
  nat1 : Fin (n + 2) → Fin d ⊕ Fin d → ℝ
  /-- `nat2` -/
  nat2 : Fin (n + 2) → Matrix (Fin d ⊕ Fin d) (Fin d ⊕ Fin d) ℝ
  /-- `log_norm` -/
  logNorm : Fin (n + 2) → ℝ

namespace SparsePEP

/-- `__init__` (sparse_pep.py:92-132) -/
noncomputable def init (kernel : Stationary 1 d) (inducing : Fin (n + 1) → ℝ) (likelihood : PEPLikelihood)
    (meanFunction : Option (ℝ → Vec 1)) (learningRate : ℝ := 1) (alpha : ℝ := 1) : SparsePEP n d :=
  ⟨kernel, inducing, likelihood, meanFunction.getD fun _ => 0, learningRate, alpha, 0, fun _ => (-1e-10 : ℝ) • 1, 0⟩

variable (c : SparsePEP n d)

/-- `dist_p` (sparse_pep.py:506-511) -/
noncomputable def distP : Except Err (SSM n d) := c.kernel.stateSpaceModel c.inducing

/-- `compute_posterior_ssm` (sparse_pep.py:197-231) -/
noncomputable def computePosteriorSSM (nat1 : Fin (n + 2) → Fin d ⊕ Fin d → ℝ)
    (nat2 : Fin (n + 2) → Matrix (Fin d ⊕ Fin d) (Fin d ⊕ Fin d) ℝ) : Except Err (SSM n d) := do
  let p ← c.distP
  let prec ← p.precision
  let precDiag := prec.diag
  let precSub : Fin n → Mat d d := prec.sub.getD 0
  let summedNat1Diag : Fin (n + 1) → Vec d := fun m a => nat1 m.succ (.inl a) + nat1 m.castSucc (.inr a)
  let summedNat2Diag : Fin (n + 1) → Mat d d := fun m => Matrix.of fun a b =>
    nat2 m.succ (.inl a) (.inl b) + nat2 m.castSucc (.inr a) (.inr b)
  let summedNat2Sub : Fin n → Mat d d := fun k => Matrix.of fun a b => nat2 k.castSucc.succ (.inr a) (.inl b)
  let thetaDiag : Fin (n + 1) → Mat d d := fun m => (-(1 / 2) : ℝ) • precDiag m + summedNat2Diag m
  let thetaSub : Fin n → Mat d d := fun k => -precSub k + (2 : ℝ) • summedNat2Sub k
  naturalsToSSM summedNat1Diag thetaDiag thetaSub

/-- `dist_q` (sparse_pep.py:233-238) -/
noncomputable def distQ : Except Err (SSM n d) := c.computePosteriorSSM c.nat1 c.nat2

/-- `posterior` (sparse_pep.py:134-140): the mean function is not passed on. -/
noncomputable def posterior : Except Err (CondProcess n 1 d) := do
  let q ← c.distQ
  return ⟨q, c.kernel, c.inducing, fun _ => 0⟩

/-- `back_project_nats` (sparse_pep.py:154-162) -/
noncomputable def backProject (nat1 nat2 : Fin p → Vec 1) (X : Fin p → ℝ) :
    Except Err ((Fin p → Fin d ⊕ Fin d → ℝ) × (Fin p → Matrix (Fin d ⊕ Fin d) (Fin d ⊕ Fin d) ℝ)) := do
  let H : Fin p → Mat 1 d := fun t => c.kernel.emission (X t)
  let (P, _) ← conditionalStatistics approxInf X c.inducing c.kernel.trans
  let HP : Fin p → Matrix (Fin 1) (Fin d ⊕ Fin d) ℝ := fun t => H t * P t
  return backProjectNats nat1 nat2 HP

/-- `local_objective_gradients` (sparse_pep.py:168-174); `alpha` defaults to `1.0` and not to `self.alpha`. -/
noncomputable def localObjectiveGradients (Fmu Fvar Y : Fin p → Vec 1) (alpha : ℝ := 1) :
    (Fin p → ℝ) × (Fin p → Fin 1 → ℝ × ℝ) :=
  (fun t => c.likelihood.logExpectedDensity (Fmu t 0) (Fvar t 0) (Y t 0) alpha,
   fun t a => gradientCorrection (Fmu t a) (Fvar t a) (c.likelihood.grads (Fmu t a) (Fvar t a) (Y t a) alpha))

/-- `compute_num_data_per_interval` (sparse_pep.py:450-462) -/
noncomputable def numDataPerInterval (X : Fin p → ℝ) : Fin (n + 2) → ℝ :=
  partitionSum (fun t => searchsortedLeft c.inducing (X t)) fun _ => 1

/-- `fraction_sites` (sparse_pep.py:176-195); `reciprocal_no_nan(0)` is `0`, as Lean's `0⁻¹`. -/
noncomputable def fractionSites (X : Fin p → ℝ) : Fin (n + 2) → ℝ :=
  fun j => (partitionSum (fun t => searchsortedLeft c.inducing (X t)) (fun _ => (1 : ℝ)) j)⁻¹

/-- `compute_fraction` (sparse_pep.py:464-471) -/
noncomputable def computeFraction (X : Fin p → ℝ) : Fin p → ℝ :=
  fun t => c.fractionSites X (searchsortedLeft c.inducing (X t))

/-- `compute_marginals` (sparse_pep.py:240-249) -/
noncomputable def computeMarginals : Except Err ((Fin (n + 2) → Fin d ⊕ Fin d → ℝ) ×
    (Fin (n + 2) → Matrix (Fin d ⊕ Fin d) (Fin d ⊕ Fin d) ℝ)) := do
  let q ← c.distQ
  pairwiseMarginals q c.kernel.initialMean c.kernel.initialCovariance

/-- `remove_cavity_from_marginals` (sparse_pep.py:251-293). The `2d × 2d` matrices are reindexed to `Fin (d + d)`
for the Cholesky decomposition (`tf.concat` order). -/
noncomputable def removeCavityFromMarginals (X : Fin p → ℝ)
    (marginals : (Fin (n + 2) → Fin d ⊕ Fin d → ℝ) × (Fin (n + 2) → Matrix (Fin d ⊕ Fin d) (Fin d ⊕ Fin d) ℝ)) :
    Except Err (Fin p → Vec d × Mat d d) := do
  let pwMeans : Fin (n + 2) → Vec (d + d) := fun j => marginals.1 j ∘ finSumFinEquiv.symm
  let pwCovs : Fin (n + 2) → Mat (d + d) (d + d) := fun j =>
    (marginals.2 j).submatrix finSumFinEquiv.symm finSumFinEquiv.symm
  let pwChol ← seqFin fun j => tfCholesky (pwCovs j)
  let pwNat2 : Fin (n + 2) → Mat (d + d) (d + d) := fun j => (-(1 / 2) : ℝ) • cholSolve (pwChol j) 1
  let pwNat1 : Fin (n + 2) → Vec (d + d) := fun j => (cholSolve (pwChol j) (replicateCol Unit (pwMeans j))).col ()
  let indices : Fin p → Fin (n + 2) := fun t => searchsortedLeft c.inducing (X t)
  let fractions : Fin p → ℝ := fun t => c.fractionSites X (indices t)
  let fracNat1 : Fin p → Vec (d + d) := fun t => fractions t • (c.nat1 (indices t) ∘ finSumFinEquiv.symm)
  let fracNat2 : Fin p → Mat (d + d) (d + d) := fun t =>
    fractions t • (c.nat2 (indices t)).submatrix finSumFinEquiv.symm finSumFinEquiv.symm
  let cavNat2 : Fin p → Mat (d + d) (d + d) := fun t => pwNat2 (indices t) - c.alpha • fracNat2 t
  let cavNat1 : Fin p → Vec (d + d) := fun t => pwNat1 (indices t) - c.alpha • fracNat1 t
  let cavChol ← seqFin fun t => tfCholesky (-cavNat2 t)
  let cavMeans : Fin p → Vec (d + d) := fun t =>
    (1 / 2 : ℝ) • (cholSolve (cavChol t) (replicateCol Unit (cavNat1 t))).col ()
  let cavCovs : Fin p → Mat (d + d) (d + d) := fun t => (1 / 2 : ℝ) • cholSolve (cavChol t) 1
  let (P, T, _) ← conditionalStatisticsAux approxInf X c.inducing c.kernel.trans
  return fun t => baseConditionalPredict (P t) (T t) (cavMeans t ∘ finSumFinEquiv)
    (some ((cavCovs t).submatrix finSumFinEquiv finSumFinEquiv))

/-- `compute_cavity_state` (sparse_pep.py:295-302) -/
noncomputable def computeCavityState (X : Fin p → ℝ) : Except Err (Fin p → Vec d × Mat d d) := do
  let marginals ← c.computeMarginals
  c.removeCavityFromMarginals X marginals

/-- `compute_cavity` (sparse_pep.py:304-314) -/
noncomputable def computeCavity (X : Fin p → ℝ) : Except Err ((Fin p → Vec 1) × (Fin p → Vec 1)) := do
  let sx ← c.computeCavityState X
  let H : Fin p → Mat 1 d := fun t => c.kernel.emission (X t)
  return (projectStateToF H fun t => (sx t).1, projectStateCovarianceToFDiag H fun t => (sx t).2)

/-- `compute_new_sites` (sparse_pep.py:316-380); the term `0 * fractions` (l.354, l.362) is left out. -/
noncomputable def computeNewSites (X : Fin p → ℝ) (Y : Fin p → Vec 1) :
    Except Err ((Fin (n + 2) → Fin d ⊕ Fin d → ℝ) ×
      (Fin (n + 2) → Matrix (Fin d ⊕ Fin d) (Fin d ⊕ Fin d) ℝ)) := do
  let H : Fin p → Mat 1 d := fun t => c.kernel.emission (X t)
  let marginals ← c.computeMarginals
  let sx ← c.removeCavityFromMarginals X marginals
  let fxMus := projectStateToF H fun t => (sx t).1
  let fxCovs := projectStateCovarianceToFDiag H fun t => (sx t).2
  let (_, grads) := c.localObjectiveGradients fxMus fxCovs Y
  let (thetaLinear, likNat2) ← c.backProject (fun t a => (grads t a).1) (fun t a => (grads t a).2) X
  let indices : Fin p → Fin (n + 2) := fun t => searchsortedLeft c.inducing (X t)
  let summedThetaLinear := partitionSum indices thetaLinear
  let summedLikNat2 := partitionSum indices likNat2
  let a := c.alpha
  let lr := c.learningRate
  let pepNat1 : Fin (n + 2) → Fin d ⊕ Fin d → ℝ := fun j => (1 - a) • c.nat1 j + a • summedThetaLinear j
  let pepNat2 : Fin (n + 2) → Matrix (Fin d ⊕ Fin d) (Fin d ⊕ Fin d) ℝ := fun j =>
    (1 - a) • c.nat2 j + a • summedLikNat2 j
  return (fun j => (1 - lr) • c.nat1 j + lr • pepNat1 j, fun j => (1 - lr) • c.nat2 j + lr • pepNat2 j)

/-- `compute_log_norm` (sparse_pep.py:382-448) -/
noncomputable def computeLogNorm (X : Fin p → ℝ) (Y : Fin p → Vec 1) : Except Err (Fin (n + 2) → ℝ) := do
  let H : Fin p → Mat 1 d := fun t => c.kernel.emission (X t)
  let marginals ← c.computeMarginals
  let sx ← c.removeCavityFromMarginals X marginals
  let fxMus := projectStateToF H fun t => (sx t).1
  let fxCovs := projectStateCovarianceToFDiag H fun t => (sx t).2
  let (obj, _) := c.localObjectiveGradients fxMus fxCovs Y c.alpha
  let q ← c.distQ
  let logNormMarg ← q.normalizer
  let fractionOneNeighbour : Fin (n + 2) → ℝ := fun j => (c.numDataPerInterval X j)⁻¹
  let diag : Fin (n + 2) → Fin (n + 2) → ℝ := fun m j => if m = j then fractionOneNeighbour m * c.alpha else 0
  let nat1 : Fin (n + 2) → Fin (n + 2) → Fin d ⊕ Fin d → ℝ := fun m j => (1 - diag m j) • c.nat1 j
  let nat2 : Fin (n + 2) → Fin (n + 2) → Matrix (Fin d ⊕ Fin d) (Fin d ⊕ Fin d) ℝ := fun m j =>
    (1 - diag m j) • c.nat2 j
  let logNormCav ← seqFin fun m : Fin (n + 2) => do
    let s ← c.computePosteriorSSM (nat1 m) (nat2 m)
    s.normalizer
  let indices : Fin p → Fin (n + 2) := fun t => searchsortedLeft c.inducing (X t)
  let logNorm : Fin p → ℝ := fun t => obj t + (logNormCav (indices t) - logNormMarg)
  let summedLogZ := partitionSum indices logNorm
  return fun j => summedLogZ j / c.alpha

/-- `update_sites` (sparse_pep.py:473-487): the new value of the object; the normalizers are computed after the new
sites are assigned. -/
noncomputable def updateSites (X : Fin p → ℝ) (Y : Fin p → Vec 1) : Except Err (SparsePEP n d) := do
  let new ← c.computeNewSites X Y
  let c₁ : SparsePEP n d := { c with nat1 := new.1, nat2 := new.2 }
  let logNorm ← c₁.computeLogNorm X Y
  let a := c.alpha
  let lr := c.learningRate
  let pepLogNorm : Fin (n + 2) → ℝ := fun j => c.logNorm j * (1 - a) + logNorm j * a
  return { c₁ with logNorm := fun j => c.logNorm j * (1 - lr) + pepLogNorm j * lr }

/-- `energy` (sparse_pep.py:489-495) -/
noncomputable def energy (X : Fin p → ℝ) (Y : Fin p → Vec 1) : Except Err ℝ := do
  let logNorm ← c.computeLogNorm X Y
  let q ← c.distQ
  let zq ← q.normalizer
  let pr ← c.distP
  let zp ← pr.normalizer
  return zq - zp + ∑ j, logNorm j

/-- `classic_elbo` (sparse_pep.py:520-542) -/
noncomputable def classicElbo (X : Fin p → ℝ) (Y : Fin p → Vec 1) : Except Err ℝ := do
  let post ← c.posterior
  let fx ← post.predictFDiag X
  let ve : ℝ := ∑ i, c.likelihood.base.varExps (fx i).1 (fx i).2 (Y i)
  let q ← c.distQ
  let prior ← c.distP
  let kl ← q.klDivergence prior
  return ve - kl

/-- Successive calls of `update_sites` (sparse_pep.py:473-487) with the same data. -/
noncomputable def updates (X : Fin p → ℝ) (Y : Fin p → Vec 1) : ℕ → SparsePEP n d → Except Err (SparsePEP n d)
  | 0, c => pure c
  | k + 1, c => do
    let c' ← c.updateSites X Y
    updates X Y k c'

end SparsePEP
end MF
