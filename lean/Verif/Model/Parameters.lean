import Verif.Model.SVGP
import Verif.Model.SparseCVI
import Verif.Model.SparsePEP

/-!
# Trainable parameters (`gpflow.Parameter` with a transform), as used by the kernels, models and copies

A `gpflow.Parameter` stores an unconstrained value `u` and shows `transform.forward(u)`. Assigning a value stores
`transform.inverse(value)`, which must be finite; an optimiser stores any finite `u` (contract). What the library
chooses is the transform of each parameter.
-/

namespace MF
open Matrix
variable {n d o : ℕ}

/-- A `tfp` bijector seen by `gpflow.Parameter`: `inverse` fails when its result has NaN or infinite entries, in which
case `gpflow.Parameter` raises (contract; constructions at matern.py:58-59, sparse_variational.py:129). -/
structure Transform (U V : Type) where
  /-- `forward`: from the optimiser's variable to the value shown -/
  forward : U → V
  /-- `inverse` with the check of `gpflow.Parameter` -/
  inverse : V → Except Err U

/-- `gpflow.utilities.positive()`, the softplus bijector (contract; used at matern.py:58-59, 163-164, 286-287, 421-422,
constant.py:57, periodic.py:87-88). -/
noncomputable def positive : Transform ℝ ℝ where
  forward u := Real.log (1 + Real.exp u)
  inverse v := if 0 < v then .ok (Real.log (Real.exp v - 1)) else .error .invalidArgument

/-- `gpflow.utilities.triangular()`, `tfp.bijectors.FillTriangular` (contract; used at state_space_model.py:416-423 and
multivariate_gaussian.py:47-49). The order of the entries in the flat vector plays no role: the unconstrained value is
a family indexed by the positions on and below the diagonal. `inverse` reads these positions and ignores the rest. -/
def triangular (d : ℕ) : Transform ({ij : Fin d × Fin d // ij.2 ≤ ij.1} → ℝ) (Mat d d) where
  forward u := Matrix.of fun i j => if h : j ≤ i then u ⟨(i, j), h⟩ else 0
  inverse M := .ok fun ij => M ij.1.1 ij.1.2

/-- `tfp.bijectors.Ordered` (contract): `forward(x) = [x₀, log(x₁ - x₀), ...]`, `inverse(y) = cumsum([y₀, e^{y₁}, ...])`.
`forward` yields NaN or an infinity unless its argument is strictly increasing. -/
noncomputable def tfpOrdered (n : ℕ) : (((Fin (n + 1) → ℝ) → Except Err (Fin (n + 1) → ℝ)) × ((Fin (n + 1) → ℝ) → Fin (n + 1) → ℝ)) :=
  (fun x => if ∀ j : Fin n, 0 < x j.succ - x j.castSucc then
      .ok (Fin.cons (x 0) fun j => Real.log (x j.succ - x j.castSucc))
    else .error .invalidArgument,
   fun y i => ∑ j ∈ Finset.Iic i, (Fin.cons (y 0) fun j : Fin n => Real.exp (y j.succ) : Fin (n + 1) → ℝ) j)

/-- `ordered()` (base.py:27-37): `Invert(Ordered())` swaps the two directions. -/
noncomputable def ordered (n : ℕ) : Transform (Fin (n + 1) → ℝ) (Fin (n + 1) → ℝ) where
  forward := (tfpOrdered n).2
  inverse := (tfpOrdered n).1

/-- What can happen to a parameter in its life: an assignment of a value by the user, or a step of an optimiser, which
may put anything in the unconstrained variable (sparse_variational.py:129 and the other constructions). -/
inductive Update (U V : Type)
  | assign (v : V)
  | step (u : U)

/-- `Parameter(value, transform=...)` (sparse_variational.py:129): the unconstrained value stored. -/
def Transform.create {U V : Type} (b : Transform U V) (v : V) : Except Err U := b.inverse v

/-- The unconstrained value after a history of updates (of a parameter as at sparse_variational.py:129). An assignment
that raises leaves the variable as it was. -/
def Transform.after {U V : Type} (b : Transform U V) : U → List (Update U V) → U
  | u, [] => u
  | u, .step u' :: h => b.after u' h
  | u, .assign v :: h => b.after (match b.inverse v with | .ok u' => u' | .error _ => u) h

/-- `SparseVariationalGaussianProcess.__init__` with the parameter of l.129 (sparse_variational.py:97-147): the model
together with the unconstrained variable behind `inducing_inputs`. -/
noncomputable def SVGP.create (kernel : Stationary o d) (likelihood : ScalarLikelihood) (inducing : Fin (n + 1) → ℝ)
    (meanFunction : Option (ℝ → Vec o)) (numData : Option ℕ) (initialDistribution : Option (SSM n d)) :
    Except Err (SVGP n o d × (Fin (n + 1) → ℝ)) := do
  let u ← (ordered n).create inducing
  let v ← SVGP.init kernel likelihood inducing meanFunction numData initialDistribution
  return ({ v with inducing := (ordered n).forward u }, u)

/-- `SparseCVIGaussianProcess.__init__` with the parameter of l.124 (sparse_variational_cvi.py:97-137). -/
noncomputable def SparseCVI.create (kernel : Stationary 1 d) (inducing : Fin (n + 1) → ℝ) (likelihood : ScalarLikelihood)
    (meanFunction : Option (ℝ → Vec 1)) (learningRate : ℝ := 0.1) : Except Err (SparseCVI n d × (Fin (n + 1) → ℝ)) := do
  let u ← (ordered n).create inducing
  return ({ SparseCVI.init kernel inducing likelihood meanFunction learningRate with inducing := (ordered n).forward u }, u)

/-- `SparsePowerExpectationPropagation.__init__` with the parameter of l.121 (sparse_pep.py:92-132). -/
noncomputable def SparsePEP.create (kernel : Stationary 1 d) (inducing : Fin (n + 1) → ℝ) (likelihood : PEPLikelihood)
    (meanFunction : Option (ℝ → Vec 1)) (learningRate : ℝ := 1) (alpha : ℝ := 1) :
    Except Err (SparsePEP n d × (Fin (n + 1) → ℝ)) := do
  let u ← (ordered n).create inducing
  return ({ SparsePEP.init kernel inducing likelihood meanFunction learningRate alpha with inducing := (ordered n).forward u },
    u)

end MF
