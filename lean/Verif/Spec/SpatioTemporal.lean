import Verif.Spec.Gauss
import Verif.Spec.Kernel

/-!
# Specification: Gaussian conditioning in space, spatio-temporal Gaussian processes
-/

namespace MF.Spec
open Matrix MeasureTheory
variable {M N p : ℕ} {S : Type}

/-- The joint prior law of `(g₂, g₁)`: jointly Gaussian, centred, `Cov(g₂) = Kmm`, `Cov(g₂, g₁) = k`, `Var(g₁) = knn`. -/
noncomputable def pairPrior (Kmm : Mat M M) (k : Vec M) (knn : ℝ) : Measure ((Fin M → ℝ) × (Fin 1 → ℝ)) :=
  (gaussLaw 0 (fromBlocks Kmm (Matrix.of fun m _ => k m) (Matrix.of fun _ m => k m)
    (Matrix.of fun _ _ => knn))).map fun x => (fun m => x (.inl m), fun j => x (.inr j))

/-- A covariance function: symmetric, and every matrix of values is positive semidefinite. -/
def IsCovariance (ks : S → S → ℝ) : Prop :=
  ∀ (T : Type) [Fintype T] [DecidableEq T] (x : T → S), (Matrix.of fun i j => ks (x i) (x j)).PosSemidef

/-- The joint law of the values at finitely many space-time points of a Gaussian process with the mean function `m` and
the separable covariance function `k((x, t), (x', t')) = ks(x, x') kt(t, t')`. -/
noncomputable def stLaw {T : Type} [Fintype T] [DecidableEq T] (m : S × ℝ → ℝ) (ks : S → S → ℝ) (kt : ℝ → ℝ → ℝ)
    (X : T → S × ℝ) : Measure (T → ℝ) :=
  gaussLaw (fun i => m (X i)) (Matrix.of fun i j => ks (X i).1 (X j).1 * kt (X i).2 (X j).2)

/-- The weights of `E[g(x) | g(Z)] = w(x) · g(Z)`: `Kₛ(Z, Z)⁻¹ kₛ(Z, x)`. -/
noncomputable def spaceWeights (ks : S → S → ℝ) (Z : Fin M → S) (x : S) : Vec M :=
  (Matrix.of fun a b => ks (Z a) (Z b))⁻¹ *ᵥ fun m => ks (Z m) x

/-- `Cov(g(x), g(x') | g(Z))` of a Gaussian process with covariance `ks`. -/
noncomputable def spaceResidual (ks : S → S → ℝ) (Z : Fin M → S) (x x' : S) : ℝ :=
  ks x x' - spaceWeights ks Z x ⬝ᵥ fun m => ks (Z m) x'

end MF.Spec
