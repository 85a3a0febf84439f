import Verif.Model.StateSpaceModel
import Mathlib.Analysis.SpecialFunctions.Pow.Real
import Mathlib.Analysis.Calculus.Deriv.Basic

/-!
# Model of `markovflow/sde/drift.py`, `markovflow/sde/sde.py` and `markovflow/sde/sde_utils.py`

One element of the batch (the operations act elementwise along it; the time grid is shared). Quadrature (`gpflow.quadrature.mvnquad`,
`NDiagGHQuadrature`) and automatic differentiation enter as parameters.
-/

namespace MF
open Matrix
variable {n d : ℕ}

/-- `handle_tensor_shape` (sde_utils.py:87-104) on the shape of the tensor: the shape after adding or dropping the batch axis. -/
def handleTensorShape (shape : List ℕ) (desired : ℕ) : Except Err (List ℕ) :=
  if shape.length = desired then .ok shape
  else if shape.length = desired + 1 ∧ shape.head? = some 1 then .ok shape.tail
  else if shape.length + 1 = desired then .ok (1 :: shape)
  else .error .exception

/-- The two abstract methods of an `SDE` (sde.py:23-71). -/
structure SDE (d : ℕ) where
  /-- `drift(x, t)` -/
  drift : Vec d → ℝ → Vec d
  /-- `diffusion(x, t)` -/
  diffusion : Vec d → ℝ → Mat d d

/-- `OrnsteinUhlenbeckSDE` (sde.py:132-174); the factor of `q` is recomputed, with the same result, at every call of `diffusion`. -/
noncomputable def ornsteinUhlenbeckSDE (decay : ℝ) (q : Mat d d) : Except Err (SDE d) := do
  let L ← tfCholesky q
  return ⟨fun x _ => -decay • x, fun _ _ => L⟩

/-- `DoubleWellSDE` (sde.py:177-219) -/
noncomputable def doubleWellSDE (q : Mat d d) : Except Err (SDE d) := do
  let L ← tfCholesky q
  return ⟨fun x _ i => 4 * x i * (1 - x i ^ 2), fun _ _ => L⟩

/-- `tf.scan(fn, elems, initializer)` (contract): output `k` folds `fn` over the first `k + 1` elements. -/
def tfScan {α β : Type*} {N : ℕ} (f : α → β → α) (init : α) (elems : Fin N → β) : Fin N → α :=
  fun k => ((List.ofFn elems).take (k + 1)).foldl f init

/-- `_step` (sde_utils.py:53-60), with the standard normal draw `eps` as an argument. -/
noncomputable def emStep (s : SDE d) (xt : Vec d × ℝ) (next : ℝ × Vec d) : Vec d × ℝ :=
  let dt := next.1 - xt.2
  (xt.1 + dt • s.drift xt.1 xt.2 + (Real.sqrt dt • s.diffusion xt.1 xt.2) *ᵥ next.2, next.1)

/-- `euler_maruyama` (sde_utils.py:29-84) on a grid with `n + 1` points, as a function of the draws `eps`. An empty grid fails the shape
assertion at the end. The square root of a negative time step is NaN in the code; the theorems assume a sorted grid starting at or after
zero. -/
noncomputable def eulerMaruyama (s : SDE d) (x0 : Vec d) (grid : Fin (n + 1) → ℝ) (eps : Fin (n + 1) → Vec d) : Fin (n + 1) → Vec d :=
  let scanned := tfScan (emStep s) (x0, 0) fun k => (grid k, eps k)
  Fin.cons x0 fun k : Fin n => (scanned k.castSucc).1

/-- The parameters of a `LinearDrift` (drift.py:28-36) when they are not `None`. -/
structure LinearDrift (n d : ℕ) where
  /-- `A` -/
  A : Fin n → Mat d d
  /-- `b` -/
  b : Fin n → Vec d

namespace LinearDrift

/-- `set_from_ssm` (drift.py:38-61) -/
noncomputable def setFromSSM (s : SSM n d) (dt : ℝ) : LinearDrift n d :=
  ⟨fun k => dt⁻¹ • (s.A k - 1), fun k => dt⁻¹ • s.b k⟩

/-- `to_ssm` (drift.py:63-108) -/
noncomputable def toSSM (l : LinearDrift n d) (q : Fin n → Mat d d) (times : Fin (n + 1) → ℝ) (mean : Vec d) (chol : Mat d d) :
    SSM n d :=
  let deltas : Fin n → ℝ := fun k => times k.succ - times k.castSucc
  ⟨mean, chol, fun k => deltas k • l.A k + 1, fun k => deltas k • l.b k, fun k => Real.sqrt (deltas k) • q k⟩

end LinearDrift

/-- A `LinearDrift` object: parameters possibly unset, stored by `to_ssm` with a leading batch axis (drift.py:78-79). -/
structure LinearDriftObj where
  /-- shape of `self.A`, `None` if unset -/
  shapeA : Option (List ℕ)
  /-- shape of `self.b` -/
  shapeB : Option (List ℕ)

namespace LinearDriftObj

/-- The effect of `to_ssm` on the stored parameters (drift.py:75-79). -/
def toSSM (l : LinearDriftObj) : Except Err LinearDriftObj :=
  match l.shapeA, l.shapeB with
  | some a, some b => do
    let a' ← handleTensorShape a 4
    let b' ← handleTensorShape b 3
    return ⟨some a', some b'⟩
  | _, _ => .error .exception

/-- `set_from_ssm` (drift.py:57-61) on a model whose `state_transitions` and `state_offsets` have the given shapes: the shapes of the stored
parameters (the identity matrix broadcasts and `dt` is a scalar). -/
def setFromSSM (transitions offsets : List ℕ) : Except Err LinearDriftObj := do
  let a ← handleTensorShape transitions 3
  let b ← handleTensorShape offsets 2
  return ⟨some a, some b⟩

/-- `to_ssm` (drift.py:74-91) with its arguments: the shapes of `transition_times`, `q`, `initial_mean` and `initial_chol_covariance`; the object
afterwards if all its checks pass. -/
def toSSMChecked (l : LinearDriftObj) (times q mean chol : List ℕ) : Except Err LinearDriftObj := do
  let l' ← l.toSSM
  let t ← handleTensorShape times 1
  let q' ← handleTensorShape q 4
  let m ← handleTensorShape mean 2
  let c ← handleTensorShape chol 3
  match l'.shapeB with
  | some [B, N, D] =>
    if l'.shapeA = some [B, N, D, D] ∧ t = [N + 1] ∧ m = [B, D] ∧ c = [B, D, D] ∧ q' = [B, N, D, D] then return l'
    else .error .assertion
  | _ => .error .value

/-- The assertions of `squared_drift_difference_along_Gaussian_path` on the drift's parameters (sde_utils.py:197-202); `N` is
`m.shape[0]`. -/
def squaredDriftAccepts (l : LinearDriftObj) (N : ℕ) : Prop :=
  ∃ a b, l.shapeA = some a ∧ l.shapeB = some b ∧ a.head? = some N ∧ b.head? = some N ∧ b.length = 2 ∧ a.length = 3

end LinearDriftObj

/-- A quadrature rule for expectations of a scalar function under a normal variable with given mean and variance: contract of
`gpflow.quadrature.NDiagGHQuadrature` (sde.py:107-110, 126-129; sde_utils.py:216-220). -/
abbrev Quadrature := (ℝ → ℝ) → ℝ → ℝ → ℝ

/-- A scalar SDE with `state_dim = 1`: its drift as a function of state and time, its `gradient_drift` (automatic differentiation,
sde.py:73-88) and the spectral density `q`. -/
structure ScalarSDE where
  /-- `drift` -/
  drift : ℝ → ℝ → ℝ
  /-- `gradient_drift` -/
  gradient : ℝ → ℝ → ℝ
  /-- `q` -/
  q : ℝ

namespace ScalarSDE

/-- `expected_drift` (sde.py:90-110); the drift is evaluated at time zero. -/
def expectedDrift (s : ScalarSDE) (quad : Quadrature) (mean var : ℝ) : ℝ := quad (fun x => s.drift x 0) mean var

/-- `expected_gradient_drift` (sde.py:112-129); at time zero (the default of `gradient_drift`). -/
def expectedGradientDrift (s : ScalarSDE) (quad : Quadrature) (mean var : ℝ) : ℝ := quad (fun x => s.gradient x 0) mean var

/-- The drift that `linearize_sde` builds (sde_utils.py:146-153) -/
noncomputable def linearDrift (s : ScalarSDE) (quad : Quadrature) (mean var : Fin n → ℝ) : LinearDrift n 1 :=
  let ef := fun k => s.expectedDrift quad (mean k) (var k)
  let a := fun k => s.expectedGradientDrift quad (mean k) (var k)
  ⟨fun k => !![a k], fun k => ![ef k - a k * mean k]⟩

/-- `linearize_sde` (sde_utils.py:107-158) -/
noncomputable def linearize (s : ScalarSDE) (quad : Quadrature) (times : Fin (n + 1) → ℝ) (mean var : Fin n → ℝ)
    (initialMean initialVar : ℝ) : Except Err (SSM n 1) := do
  let chol ← tfCholesky (!![initialVar] : Mat 1 1)
  let l := s.linearDrift quad mean var
  let c ← tfCholesky (!![s.q] : Mat 1 1)
  return l.toSSM (fun _ => c) times ![initialMean] chol

/-- `squared_drift_difference_along_Gaussian_path` (sde_utils.py:161-228); `drift` is called with `t=None`: time independent. -/
noncomputable def squaredDriftDifference (s : ScalarSDE) (quad : Quadrature) (l : LinearDrift n 1) (mean var : Fin n → ℝ) (dt : ℝ) : ℝ :=
  let f : Fin n → ℝ → ℝ := fun k x =>
    let tmp := (x * l.A k 0 0 + l.b k 0) - s.drift x 0
    tmp * tmp * (1 / s.q)
  (1 / 2) * (∑ k, quad (f k) (mean k) (var k)) * dt

end ScalarSDE

end MF
