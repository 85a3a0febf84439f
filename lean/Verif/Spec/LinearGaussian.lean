import Verif.Spec.Gauss

/-!
# Specification: Bayesian inference in a linear-Gaussian observation model

`N` observations `y_j = H_j x_{idx j} + N(0, R_j)`, independent given the trajectory `x`.
-/

namespace MF.Spec
open Matrix MeasureTheory ProbabilityTheory

variable {N n m d : ℕ}

/-- `Σ_j log N(y_j; H_j x_{idx j}, R_j)` -/
noncomputable def obsLogLik (H : Fin N → Mat m d) (idx : Fin N → Fin (n + 1))
    (R : Fin N → Mat m m) (y : Fin N → Vec m) (x : Ix n d → ℝ) : ℝ :=
  ∑ j, gaussLogDensity (H j *ᵥ unstk x (idx j)) (R j) (y j)

/-- The marginal likelihood `∫ exp ℓ(x) dπ(x)`. -/
noncomputable def evidence {X : Type*} [MeasurableSpace X] (prior : Measure X) (logLik : X → ℝ) :
    ENNReal := ∫⁻ x, ENNReal.ofReal (Real.exp (logLik x)) ∂prior

/-- Bayes' rule: `post(dx) = exp ℓ(x) π(dx) / evidence`, the evidence being positive and finite. -/
def IsBayesPosterior {X : Type*} [MeasurableSpace X] (prior : Measure X) (logLik : X → ℝ)
    (post : Measure X) : Prop :=
  evidence prior logLik ≠ 0 ∧ evidence prior logLik ≠ ⊤ ∧
  post = (evidence prior logLik)⁻¹ •
    prior.withDensity (fun x => ENNReal.ofReal (Real.exp (logLik x)))

/-- The big observation matrix `G`, `(G x)_j = H_j x_{idx j}`. -/
def obsMatrix (H : Fin N → Mat m d) (idx : Fin N → Fin (n + 1)) :
    Matrix (Fin N × Fin m) (Ix n d) ℝ :=
  ofBlk fun j k => if k = idx j then H j else 0

/-- The block diagonal noise covariance. -/
def blkDiag (R : Fin N → Mat m m) : Matrix (Fin N × Fin m) (Fin N × Fin m) ℝ :=
  ofBlk fun j j' => if j = j' then R j else 0

end MF.Spec
