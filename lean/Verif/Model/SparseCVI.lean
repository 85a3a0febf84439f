import Verif.Model.CVI
import Verif.Model.SVGP

/-!
# Model of `markovflow/models/sparse_variational_cvi.py`

`SparseCVIGaussianProcess`, batch shape `()`, one output (asserted by `back_project_nats`).
`tf.GradientTape` gradients are derivatives (contract, `localGradients`). The last axis of the sites, of
size `2 * state_dim`, is `Fin d ⊕ Fin d`: the slices `[..., :sd]`, `[..., sd:]` are `inl`, `inr`.
-/

namespace MF
open Matrix
variable {n d p : ℕ}

/-- `tf.stack([tf.reduce_sum(l, axis=0) for l in tf.dynamic_partition(data, indices, num_partitions)])`
(sparse_variational_cvi.py:199-215; contract of `dynamic_partition`: the rows with index `g`, in order). -/
def partitionSum {α : Type*} [AddCommMonoid α] {G : ℕ} (indices : Fin p → Fin G) (data : Fin p → α) : Fin G → α :=
  fun g => (((List.finRange p).filter fun i => indices i = g).map data).sum

/-- The attributes of a `SparseCVIGaussianProcess` (l.97-137). -/
structure SparseCVI (n d : ℕ) where
  /-- `kernel` -/
  kernel : Stationary 1 d
  /-- `inducing_inputs` -/
  inducing : Fin (n + 1) → ℝ
  /-- `likelihood` -/
  likelihood : ScalarLikelihood
  /-- `mean_function`, at one time point -/
  meanFunction : ℝ → Vec 1
  /-- `learning_rate` -/
  learningRate : ℝ
  /-- `nat1` -/
  nat1 : Fin (n + 2) → Fin d ⊕ Fin d → ℝ
  /-- `nat2` -/
  nat2 : Fin (n + 2) → Matrix (Fin d ⊕ Fin d) (Fin d ⊕ Fin d) ℝ

namespace SparseCVI

/-- `__init__` (l.97-137) -/
noncomputable def init (kernel : Stationary 1 d) (inducing : Fin (n + 1) → ℝ) (likelihood : ScalarLikelihood)
    (meanFunction : Option (ℝ → Vec 1)) (learningRate : ℝ := 0.1) : SparseCVI n d :=
  ⟨kernel, inducing, likelihood, meanFunction.getD fun _ => 0, learningRate, 0, 0⟩

variable (c : SparseCVI n d)

/-- `dist_p` (l.301-306) -/
noncomputable def distP : Except Err (SSM n d) := c.kernel.stateSpaceModel c.inducing

/-- `dist_q` (l.139-174) -/
noncomputable def distQ : Except Err (SSM n d) := do
  let p ← c.distP
  let prec ← p.precision
  let precDiag := prec.diag
  let precSub : Fin n → Mat d d := prec.sub.getD 0
  let summedNat1Diag : Fin (n + 1) → Vec d := fun m a =>
    c.nat1 m.succ (.inl a) + c.nat1 m.castSucc (.inr a)
  let summedNat2Diag : Fin (n + 1) → Mat d d := fun m => Matrix.of fun a b =>
    c.nat2 m.succ (.inl a) (.inl b) + c.nat2 m.castSucc (.inr a) (.inr b)
  let summedNat2Sub : Fin n → Mat d d := fun k => Matrix.of fun a b =>
    c.nat2 k.castSucc.succ (.inr a) (.inl b)
  let thetaDiag : Fin (n + 1) → Mat d d := fun m => (-(1 / 2) : ℝ) • precDiag m + summedNat2Diag m
  let thetaSub : Fin n → Mat d d := fun k => -precSub k + (2 : ℝ) • summedNat2Sub k
  naturalsToSSM summedNat1Diag thetaDiag thetaSub

/-- `posterior` (l.232-239): the mean function is not passed on. -/
noncomputable def posterior : Except Err (CondProcess n 1 d) := do
  let q ← c.distQ
  return ⟨q, c.kernel, c.inducing, fun _ => 0⟩

/-- `update_sites` (l.176-221): the new value of the object. -/
noncomputable def updateSites (X : Fin p → ℝ) (Y : Fin p → Vec 1) : Except Err (SparseCVI n d) := do
  let post ← c.posterior
  let fx ← post.predictFDiag X
  let grads : Fin p → Fin 1 → ℝ × ℝ := fun t a =>
    localGradients c.likelihood ((fx t).1 a) ((fx t).2 a) (Y t a)
  let H : Fin p → Mat 1 d := fun t => c.kernel.emission (X t)
  let (P, _) ← conditionalStatistics approxInf X c.inducing c.kernel.trans
  let HP : Fin p → Matrix (Fin 1) (Fin d ⊕ Fin d) ℝ := fun t => H t * P t
  let (thetaLinear, likNat2) := backProjectNats (fun t a => (grads t a).1) (fun t a => (grads t a).2) HP
  let indices : Fin p → Fin (n + 2) := fun t => searchsortedLeft c.inducing (X t)
  let summedThetaLinear := partitionSum indices thetaLinear
  let summedLikNat2 := partitionSum indices likNat2
  let lr := c.learningRate
  let newNat1 : Fin (n + 2) → Fin d ⊕ Fin d → ℝ := fun j => (1 - lr) • c.nat1 j + lr • summedThetaLinear j
  let newNat2 : Fin (n + 2) → Matrix (Fin d ⊕ Fin d) (Fin d ⊕ Fin d) ℝ := fun j =>
    (1 - lr) • c.nat2 j + lr • summedLikNat2 j
  return { c with nat1 := newNat1, nat2 := newNat2 }

/-- `classic_elbo` (l.270-292) -/
noncomputable def classicElbo (X : Fin p → ℝ) (Y : Fin p → Vec 1) : Except Err ℝ := do
  let post ← c.posterior
  let fx ← post.predictFDiag X
  let ve : ℝ := ∑ i, c.likelihood.varExps (fx i).1 (fx i).2 (Y i)
  let q ← c.distQ
  let prior ← c.distP
  let kl ← q.klDivergence prior
  return ve - kl

/-- `loss` (l.223-230) -/
noncomputable def loss (X : Fin p → ℝ) (Y : Fin p → Vec 1) : Except Err ℝ := do
  let e ← c.classicElbo X Y
  return -e

end SparseCVI
end MF
