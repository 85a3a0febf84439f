import Verif.Model.Kernels

/-!
# Model of `markovflow/conditionals.py`

Batch shape `()`; `n + 1` training (conditioning) time points, `p` new time points. A pair of states
`[x₋, x₊]` (a vector of length `2 * state_dim`) is indexed by `Fin d ⊕ Fin d`.

The constant `APPROX_INF` (base.py:46, `1e10`) is the parameter `inf`; `approxInf` is its value.
-/

namespace MF
open Matrix

/-- `APPROX_INF` (base.py:46) -/
def approxInf : ℝ := 10000000000

/-- The only method of the kernel that `conditionals.py` uses: `transition_statistics` at one
transition, as a pair (transition matrix, process covariance) (sde_kernel.py:267-282). -/
abbrev TransFn (d : ℕ) := ℝ → ℝ → Mat d d × Mat d d

/-- `transition_statistics` of a stationary kernel (sde_kernel.py:421-446). -/
def Stationary.trans {o d : ℕ} (K : Stationary o d) : TransFn d :=
  fun t δ => (K.stateTransitions t δ, K.transitionNoise t δ)

/-- Outputs `D, E, T` (or `D, E, T⁻¹`) of `_conditional_statistics_from_transitions` (conditionals.py:122-203). -/
structure CondStats (d : ℕ) where
  D : Mat d d
  E : Mat d d
  T : Mat d d

/-- `_conditional_statistics_from_transitions` (conditionals.py:122-203), at one time point, with
`return_precision=False`. The argument order is that of the Python function. -/
noncomputable def condStatsFromTransitions {d : ℕ} (A_mt Q_mt A_tp Q_tp : Mat d d) :
    Except Err (CondStats d) := do
  let A_tp_Q_mt := A_tp * Q_mt
  let S := Q_tp + A_tp * A_tp_Q_mtᵀ
  let L ← tfCholesky S
  let V := triSolve L (A_tp * Q_mt)
  let E := (triSolve L V true)ᵀ
  let D := A_mt - E * A_tp * A_mt
  return { D := D, E := E, T := Q_mt - Vᵀ * V }

/-- `_conditional_statistics_from_transitions` (conditionals.py:122-203) with
`return_precision=True`: the third output is the conditional precision. -/
noncomputable def condPrecisionFromTransitions {d : ℕ} (A_mt Q_mt A_tp Q_tp : Mat d d) :
    Except Err (CondStats d) := do
  let A_tp_Q_mt := A_tp * Q_mt
  let S := Q_tp + A_tp * A_tp_Q_mtᵀ
  let L ← tfCholesky S
  let V := triSolve L (A_tp * Q_mt)
  let E := (triSolve L V true)ᵀ
  let D := A_mt - E * A_tp * A_mt
  let Lmt ← tfCholesky Q_mt
  let Ltp ← tfCholesky Q_tp
  let Q_mt_inv := cholSolve Lmt (1 : Mat d d)
  let W := triSolve Ltp A_tp
  return { D := D, E := E, T := Q_mt_inv + Wᵀ * W }

/-- `time_points_augmented` (conditionals.py:238-239): `[-inf, training_time_points, inf]`. -/
def augmentedTimes {n : ℕ} (inf : ℝ) (ts : Fin (n + 1) → ℝ) : Fin (n + 3) → ℝ :=
  Fin.cons (-inf) (Fin.snoc (α := fun _ => ℝ) ts inf)

variable {n d p : ℕ}

/-- `_conditional_statistics` (conditionals.py:206-254): projections `P = [F, G]`, covariances `T` and
insertion indices. The Cholesky factorisation is one batched op over the new time points. -/
noncomputable def conditionalStatisticsAux (inf : ℝ) (new : Fin p → ℝ) (training : Fin (n + 1) → ℝ)
    (kernel : TransFn d) :
    Except Err ((Fin p → Matrix (Fin d) (Fin d ⊕ Fin d) ℝ) × (Fin p → Mat d d) ×
      (Fin p → Fin (n + 2))) := do
  let indices : Fin p → Fin (n + 2) := fun q => searchsortedLeft training (new q)
  let augmented := augmentedTimes inf training
  let inducing_plus : Fin p → ℝ := fun q => augmented (indices q).succ
  let inducing_minus : Fin p → ℝ := fun q => augmented (indices q).castSucc
  let dX_mt : Fin p → ℝ := fun q => new q - inducing_minus q
  let dX_tp : Fin p → ℝ := fun q => inducing_plus q - new q
  let mt : Fin p → Mat d d × Mat d d := fun q => kernel (inducing_minus q) (dX_mt q)
  let tp : Fin p → Mat d d × Mat d d := fun q => kernel (new q) (dX_tp q)
  let FGT ← seqFin fun q => condStatsFromTransitions (mt q).1 (mt q).2 (tp q).1 (tp q).2
  return (fun q => fromCols (FGT q).D (FGT q).E, fun q => (FGT q).T, indices)

/-- `conditional_statistics` (conditionals.py:86-118) -/
noncomputable def conditionalStatistics (inf : ℝ) (new : Fin p → ℝ) (training : Fin (n + 1) → ℝ)
    (kernel : TransFn d) :
    Except Err ((Fin p → Matrix (Fin d) (Fin d ⊕ Fin d) ℝ) × (Fin p → Mat d d)) := do
  let r ← conditionalStatisticsAux inf new training kernel
  return (r.1, r.2.1)

/-- `base_conditional_predict` (conditionals.py:379-420) at one time point. -/
def baseConditionalPredict (P : Matrix (Fin d) (Fin d ⊕ Fin d) ℝ) (T : Mat d d)
    (adjacent : Fin d ⊕ Fin d → ℝ) (pairCov : Option (Matrix (Fin d ⊕ Fin d) (Fin d ⊕ Fin d) ℝ)) :
    Vec d × Mat d d :=
  let means := P *ᵥ adjacent
  let covs := match pairCov with
    | none => T
    | some S => T + P * S * Pᵀ
  (means, covs)

/-- `conditional_predict` (conditionals.py:28-83) -/
noncomputable def conditionalPredict (inf : ℝ) (new : Fin p → ℝ) (training : Fin (n + 1) → ℝ)
    (kernel : TransFn d) (pairMeans : Fin (n + 2) → Fin d ⊕ Fin d → ℝ)
    (pairCovs : Option (Fin (n + 2) → Matrix (Fin d ⊕ Fin d) (Fin d ⊕ Fin d) ℝ)) :
    Except Err (Fin p → Vec d × Mat d d) := do
  let (P, T, indices) ← conditionalStatisticsAux inf new training kernel
  return fun q =>
    baseConditionalPredict (P q) (T q) (pairMeans (indices q)) (pairCovs.map fun S => S (indices q))

/-- `cyclic_reduction_conditional_statistics` up to the last line (conditionals.py:330-374): `F = -Eᵀ L`, `G = -Dᵀ L`
and `L`, one of each per explained time point; `e + 1` explained and `c + 1` conditioning points. All four assertions
raise the same exception, and `toDeltaTime` is the check `assert_non_negative` of the time differences. -/
noncomputable def cyclicReduction {e c : ℕ} (inf : ℝ) (explained : Fin (e + 1) → ℝ)
    (conditioning : Fin (c + 1) → ℝ) (kernel : TransFn d) :
    Except Err ((Fin (e + 1) → Mat d d) × (Fin (e + 1) → Mat d d) × (Fin (e + 1) → Mat d d)) := do
  let _ ← toDeltaTime explained
  let _ ← toDeltaTime conditioning
  if h : c + 1 ≤ e + 1 ∧ (e + 1) - (c + 1) ≤ 1 then
    let augmented := augmentedTimes inf conditioning
    let left : Fin (e + 1) → ℝ := fun q => augmented ⟨q, by omega⟩
    let right : Fin (e + 1) → ℝ := fun q => augmented ⟨q + 1, by omega⟩
    let mt : Fin (e + 1) → Mat d d × Mat d d := fun q => kernel (left q) (explained q - left q)
    let tp : Fin (e + 1) → Mat d d × Mat d d := fun q => kernel (explained q) (right q - explained q)
    let DET ← seqFin fun q => condPrecisionFromTransitions (mt q).1 (mt q).2 (tp q).1 (tp q).2
    let L ← seqFin fun q => tfCholesky (DET q).T
    return (fun q => -((DET q).Eᵀ * L q), fun q => -((DET q).Dᵀ * L q), L)
  else .error .invalidArgument

/-- `F[..., 1:]` (conditionals.py:376): the slice is on the last axis, so it drops the first *column* of every matrix. -/
def cyclicSliceF {e : ℕ} (F : Fin (e + 1) → Mat (d + 1) (d + 1)) : Fin (e + 1) → Mat (d + 1) d :=
  fun q => Matrix.of fun i j => F q i j.succ

/-- `G[..., :num_conditioning]` (conditionals.py:376): keeps the first `num_conditioning` *columns* of every matrix. -/
def cyclicSliceG {e : ℕ} (numConditioning : ℕ) (G : Fin (e + 1) → Mat d d) :
    Fin (e + 1) → Mat d (min numConditioning d) :=
  fun q => Matrix.of fun i j => G q i ⟨j, lt_of_lt_of_le j.2 (min_le_right _ _)⟩

/-- `cyclic_reduction_conditional_statistics` (conditionals.py:257-376), what it returns (l.376); state dimension
`d + 1`. -/
noncomputable def cyclicReductionConditionalStatistics {e c : ℕ} (inf : ℝ) (explained : Fin (e + 1) → ℝ)
    (conditioning : Fin (c + 1) → ℝ) (kernel : TransFn (d + 1)) :
    Except Err ((Fin (e + 1) → Mat (d + 1) d) × (Fin (e + 1) → Mat (d + 1) (min (c + 1) (d + 1))) ×
      (Fin (e + 1) → Mat (d + 1) (d + 1))) := do
  let (F, G, L) ← cyclicReduction inf explained conditioning kernel
  return (cyclicSliceF F, cyclicSliceG (c + 1) G, L)

/-- `pairwise_marginals` (conditionals.py:423-485): the marginals extended by the initial ones at both
ends, and paired up. The shape assertions (l.479-483) hold by typing. -/
noncomputable def pairwiseMarginals (dist : SSM n d) (initialMean : Vec d) (initialCov : Mat d d) :
    Except Err ((Fin (n + 2) → Fin d ⊕ Fin d → ℝ) ×
      (Fin (n + 2) → Matrix (Fin d ⊕ Fin d) (Fin d ⊕ Fin d) ℝ)) := do
  let (means, _) ← dist.marginals
  let (covariances, subsequent) ← dist.covarianceBlocks
  let extendedMeans : Fin (n + 3) → Vec d :=
    Fin.cons initialMean (Fin.snoc (α := fun _ => Vec d) means initialMean)
  let jointMean : Fin (n + 2) → Fin d ⊕ Fin d → ℝ := fun k =>
    Sum.elim (extendedMeans k.castSucc) (extendedMeans k.succ)
  let extendedCov : Fin (n + 3) → Mat d d :=
    Fin.cons initialCov (Fin.snoc (α := fun _ => Mat d d) covariances initialCov)
  let extendedSub : Fin (n + 2) → Mat d d :=
    Fin.cons 0 (Fin.snoc (α := fun _ => Mat d d) subsequent 0)
  let jointCov : Fin (n + 2) → Matrix (Fin d ⊕ Fin d) (Fin d ⊕ Fin d) ℝ := fun k =>
    fromBlocks (extendedCov k.castSucc) (extendedSub k)ᵀ (extendedSub k) (extendedCov k.succ)
  return (jointMean, jointCov)

end MF
