import Verif.Model.BatchedVariational
import Verif.Model.NatGrad

/-!
# `ssm_natgrad.py` on tensors of any batch shape

`markovflow/ssm_natgrad.py` once more, on raw tensors (shapes innermost first). As in `Verif/Model/NatGrad.lean` the gradients that `tf.GradientTape`
computes are inputs; unlike there, the optimiser starts without moving averages and creates them in the first call of `minimize`, and assigning to a
variable requires equal shapes.
-/

namespace MF
open Tensor

/-- Three tensors (ssm_natgrad.py:140-153): natural or expectation parameters, or gradients in them. -/
abbrev TTriple := Tensor × Tensor × Tensor

namespace TTriple

/-- The three tensors combined element by element, with broadcasting (the list comprehensions of ssm_natgrad.py:188-203). -/
def zipWith (f : Tensor → Tensor → Except Err Tensor) (x y : TTriple) : Except Err TTriple := do
  let a ← f x.1 y.1
  let b ← f x.2.1 y.2.1
  let c ← f x.2.2 y.2.2
  return (a, b, c)

/-- A function applied to all entries (ssm_natgrad.py:188-203). -/
def map (f : ℝ → ℝ) (x : TTriple) : TTriple := (x.1.map f, x.2.1.map f, x.2.2.map f)

/-- `mov.assign(mov_new)` (contract of `tf.Variable.assign`, ssm_natgrad.py:205-207): the shapes must agree. -/
def assign (old new : TTriple) : Except Err TTriple :=
  if old.1.shape = new.1.shape ∧ old.2.1.shape = new.2.1.shape ∧ old.2.2.shape = new.2.2.shape then .ok new else .error .invalidArgument

end TTriple

/-- The attributes of an `SSMNaturalGradient` (ssm_natgrad.py:61-92). -/
structure TNatGrad where
  /-- `gamma` -/
  gamma : ℝ
  /-- `_momentum` -/
  momentum : Bool
  /-- `_beta1` -/
  beta1 : ℝ
  /-- `_beta2` -/
  beta2 : ℝ
  /-- `_epsilon` -/
  epsilon : ℝ
  /-- `_ms`: the empty list until the first call of `minimize` -/
  ms : Option TTriple := none
  /-- `_v` -/
  v : ℝ := 0
  /-- `_step_counter`, a float holding an integer -/
  stepCounter : ℕ := 1

namespace TNatGrad

/-- `natgrad_norm` (ssm_natgrad.py:190-193): the sums run over all axes, batch axes included; the last of the three components is doubled. -/
def natgradNorm (dEta dTheta : TTriple) : Except Err ℝ := do
  let (a, b, c) ← TTriple.zipWith times dEta dTheta
  return a.sumAll + b.sumAll + c.sumAll * 2

/-- The debiased learning rate (ssm_natgrad.py:179-185). -/
noncomputable def lr (opt : TNatGrad) : ℝ :=
  opt.gamma * Real.sqrt (1 - opt.beta2 ^ opt.stepCounter) / (1 - opt.beta1 ^ opt.stepCounter)

/-- Assigning the new parameters to the variables of the state space model (ssm_natgrad.py:212-218), through the `triangular()` transform. -/
def assignSSM (old new : TSSM) : Except Err TSSM :=
  if old.A.shape = new.A.shape ∧ old.b.shape = new.b.shape ∧ old.cholP0.shape = new.cholP0.shape ∧ old.cholQ.shape = new.cholQ.shape ∧
      old.mu0.shape = new.mu0.shape then
    .ok { new with cholP0 := trilT new.cholP0, cholQ := trilT new.cholQ }
  else .error .invalidArgument

/-- The moving averages, created as zeros in the first call of `minimize` (ssm_natgrad.py:104-108). -/
noncomputable def moving (opt : TNatGrad) (ssm : TSSM) : Except Err TTriple :=
  match opt.ms with
  | none => do
    let (x, y, z) ← tensorSsmToExpectations ssm
    return (zeros x.shape, zeros y.shape, zeros z.shape)
  | some ms => .ok ms

/-- `minimize` (ssm_natgrad.py:95-109) with `_natgrad_step` (l.121-218): the updated optimiser and distribution. `tf.sqrt` of a negative number is
`nan`, on which the Cholesky decomposition of `naturals_to_ssm_params` fails. -/
noncomputable def minimize (opt : TNatGrad) (ssm : TSSM) (dEta dTheta : TTriple) : Except Err (TNatGrad × TSSM) := do
  let ms ← opt.moving ssm
  let thetas ← tensorSsmToNaturals ssm
  let (opt', thetasNew) ← (
    if opt.momentum then do
      -- l.187-188
      let msNew ← TTriple.zipWith plus (TTriple.map (· * opt.beta1) ms) (TTriple.map ((1 - opt.beta1) * ·) dEta)
      -- l.190-195
      let norm ← natgradNorm dEta dTheta
      let vNew := opt.v * opt.beta2 + (1 - opt.beta2) * norm
      if vNew < 0 then .error .invalidArgument
      else do
        -- l.198-210
        let thetasNew ← TTriple.zipWith minus thetas (TTriple.map (fun m => opt.lr * m / (Real.sqrt vNew + opt.epsilon)) msNew)
        let ms' ← TTriple.assign ms msNew
        return ({ opt with ms := some ms', v := vNew, stepCounter := opt.stepCounter + 1 }, thetasNew)
    else do
      let thetasNew ← TTriple.zipWith minus thetas (TTriple.map (opt.gamma * ·) dEta)
      return ({ opt with ms := some ms }, thetasNew) : Except Err (TNatGrad × TTriple))
  -- l.212-218
  let new ← tensorNaturalsToSSM thetasNew.1 thetasNew.2.1 thetasNew.2.2
  let ssm' ← assignSSM ssm new
  return (opt', ssm')

/-- Repeated calls of `minimize` (ssm_natgrad.py:95-109): at call `i` the gradients are `grad i S` where `S` is the current distribution. -/
noncomputable def steps (grad : ℕ → TSSM → TTriple × TTriple) : ℕ → TNatGrad × TSSM → Except Err (TNatGrad × TSSM)
  | 0, st => .ok st
  | N + 1, st => do
    let (opt, S) ← steps grad N st
    opt.minimize S (grad N S).1 (grad N S).2

end TNatGrad
end MF
