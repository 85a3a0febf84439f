import Verif.Model.StateSpaceModel

/-!
# Model of `markovflow/ssm_gaussian_transformations.py`

The 5-tuples `(As, offsets, chol_initial_covariance, chol_process_covariances, initial_mean)`
returned by the `*_to_ssm_params` functions are represented by the record `SSM` with the same five
fields (they are the constructor arguments of `StateSpaceModel`).
-/

namespace MF
open Matrix

open Classical in
/-- `tf.linalg.solve(A, B)`: contract; raises `InvalidArgumentError` on a singular matrix. -/
noncomputable def tfSolve {d e : ℕ} (A : Mat d d) (B : Mat d e) : Except Err (Mat d e) :=
  if IsUnit A.det then .ok (A⁻¹ * B) else .error .invalidArgument

/-- `banded_matrices.banded.solve_triang_band(left, right, transpose_left=True)` with a lower-banded
left (bandwidth `wl`), a lower-banded right (bandwidth `wr`) and a lower-banded result: contract, the
lower band of `left⁻ᵀ right`. -/
noncomputable def solveTriangBandT (N wl wr : ℕ) (left right : T2) : T2 :=
  packBand N (((unpackBand N wl left)ᵀ)⁻¹ * unpackBand N wr right)

variable {n d : ℕ}

/-- `ssm_to_expectations` (ssm_gaussian_transformations.py:31-89) -/
noncomputable def ssmToExpectations (s : SSM n d) :
    Except Err ((Fin (n + 1) → Vec d) × (Fin (n + 1) → Mat d d) × (Fin n → Mat d d)) := do
  let m ← s.marginalMeans
  let c ← s.marginalCovariances
  let etaDiag : Fin (n + 1) → Mat d d := fun b => c b + vecMulVec (m b) (m b)
  let etaSub : Fin n → Mat d d := fun k =>
    s.A k * c k.castSucc + vecMulVec (m k.succ) (m k.castSucc)
  return (m, etaDiag, etaSub)

/-- `expectations_to_ssm_params` (l.92-178) -/
noncomputable def expectationsToSSM (etaLin : Fin (n + 1) → Vec d) (etaDiag : Fin (n + 1) → Mat d d)
    (etaSub : Fin n → Mat d d) : Except Err (SSM n d) := do
  let covs : Fin (n + 1) → Mat d d := fun b => etaDiag b - vecMulVec (etaLin b) (etaLin b)
  let covSub : Fin n → Mat d d := fun k =>
    (etaSub k)ᵀ - vecMulVec (etaLin k.castSucc) (etaLin k.succ)
  let chols ← seqFin fun b => tfCholesky (covs b)
  let As : Fin n → Mat d d := fun k => (cholSolve (chols k.castSucc) (covSub k))ᵀ
  let offsets : Fin n → Vec d := fun k => etaLin k.succ - As k *ᵥ etaLin k.castSucc
  let condCovs : Fin n → Mat d d := fun k =>
    covs k.succ - As k * (covs k.castSucc * (As k)ᵀ)
  let cholQ ← seqFin fun k => tfCholesky (condCovs k)
  return ⟨etaLin 0, chols 0, As, offsets, cholQ⟩

/-- `ssm_to_naturals` (l.181-253) -/
noncomputable def ssmToNaturals (s : SSM n d) :
    (Fin (n + 1) → Vec d) × (Fin (n + 1) → Mat d d) × (Fin n → Mat d d) :=
  let chols := s.concatChol
  let linvA : Fin n → Mat d d := fun k => triSolve (chols k.succ) (s.A k)
  let thetaSub : Fin n → Mat d d := fun k => triSolve (chols k.succ) (linvA k) true
  let tmp : Fin (n + 1) → Vec d := fun b =>
    (cholSolve (chols b) (replicateCol Unit (s.concatOffsets b))).col ()
  let thetaLin : Fin (n + 1) → Vec d := Fin.snoc (α := fun _ => Vec d)
    (fun k : Fin n => tmp k.castSucc - (s.A k)ᵀ *ᵥ tmp k.succ) (tmp (Fin.last n))
  let tmp2 : Fin (n + 1) → Mat d d := Fin.snoc (α := fun _ => Mat d d)
    (fun k => (linvA k)ᵀ * linvA k) 0
  let precisions : Fin (n + 1) → Mat d d := fun b => cholSolve (chols b) 1
  let thetaDiag : Fin (n + 1) → Mat d d := fun b => (-(1 / 2) : ℝ) • (precisions b + tmp2 b)
  (thetaLin, thetaDiag, thetaSub)

/-- `ssm_to_naturals_no_smoothing` (l.256-329) -/
noncomputable def ssmToNaturalsNoSmoothing (s : SSM n d) :
    (Fin (n + 1) → Vec d) × (Fin (n + 1) → Mat d d) × (Fin n → Mat d d) :=
  let chols := s.concatChol
  let thetaSub : Fin n → Mat d d := fun k => cholSolve (chols k.succ) (s.A k)
  let thetaLin : Fin (n + 1) → Vec d := fun b =>
    (cholSolve (chols b) (replicateCol Unit (s.concatOffsets b))).col ()
  let precisions : Fin (n + 1) → Mat d d := fun b => cholSolve (chols b) 1
  (thetaLin, fun b => (-(1 / 2) : ℝ) • precisions b, thetaSub)

/-- `naturals_to_ssm_params` (l.332-511) -/
noncomputable def naturalsToSSM (thetaLin : Fin (n + 1) → Vec d) (thetaDiag : Fin (n + 1) → Mat d d)
    (thetaSub : Fin n → Mat d d) : Except Err (SSM n d) := do
  let N := (n + 1) * d
  let precision ← BTD.init true (fun b => (-2 : ℝ) • thetaDiag b) (some fun k => -thetaSub k)
  let chol ← precision.cholesky
  -- l.443-458
  let block := bandToBlock d true (inverseFromCholeskyBand N chol.bandwidth chol.asBand)
  let covBlocks := reshape23 (2 * d) d (2 * d) (transpose2 block)
  let marginalCovs : Fin (n + 1) → Mat d d := fun b => Matrix.of fun i j => covBlocks b i j
  let subDiag : Fin (n + 1) → Mat d d := fun b => Matrix.of fun i j => covBlocks b i (d + j)
  -- l.462
  let solved ← seqFin fun b => tfSolve (marginalCovs b) (subDiag b)
  let As : Fin n → Mat d d := fun k => (solved k.castSucc)ᵀ
  let aInv ← BTD.init false (fun _ : Fin (n + 1) => (1 : Mat d d)) (some fun k => -As k)
  -- l.473-490
  let tmp := solveTriangBandT N aInv.bandwidth precision.bandwidth aInv.asBand precision.asBand
  let tmpBlock : T2 := fun r c => if r < d then bandToBlock d true tmp r c else 0
  let cond3 := reshape23 d d d (transpose2 tmpBlock)
  let condPrec : Fin (n + 1) → Mat d d := fun b => Matrix.of fun i j => cond3 b i j
  -- l.493-509
  let cholPrec ← seqFin fun b => tfCholesky (condPrec b)
  let covariances : Fin (n + 1) → Mat d d := fun b => cholSolve (cholPrec b) 1
  let chols ← seqFin fun b => tfCholesky (covariances b)
  let pto := aInv.solve thetaLin true
  let offsets : Fin (n + 1) → Vec d := fun b => covariances b *ᵥ pto b
  return ⟨offsets 0, chols 0, As, fun k => offsets k.succ, fun k => chols k.succ⟩

/-- `naturals_to_ssm_params_no_smoothing` (l.514-593) -/
noncomputable def naturalsToSSMNoSmoothing (thetaLin : Fin (n + 1) → Vec d)
    (thetaDiag : Fin (n + 1) → Mat d d) (thetaSub : Fin n → Mat d d) : Except Err (SSM n d) := do
  let cholPrec ← seqFin fun b => tfCholesky ((-2 : ℝ) • thetaDiag b)
  let As : Fin n → Mat d d := fun k => cholSolve (cholPrec k.succ) (thetaSub k)
  let offsets : Fin (n + 1) → Vec d := fun b =>
    (cholSolve (cholPrec b) (replicateCol Unit (thetaLin b))).col ()
  let covs : Fin (n + 1) → Mat d d := fun b => cholSolve (cholPrec b) 1
  let chols ← seqFin fun b => tfCholesky (covs b)
  return ⟨offsets 0, chols 0, As, fun k => offsets k.succ, fun k => chols k.succ⟩

end MF
