import Verif.Model.Transformations

/-!
# Model of `markovflow/ssm_natgrad.py`

Batch shape `()`. The gradients `∂L/∂η` and `∂L/∂θ` that `tf.GradientTape` computes are inputs of the step (contract:
`Spec/NatGrad`, `IsGradient`); `tf.Variable.assign` and the `triangular()` bijector (`forward`/`inverse` fill and read the lower
triangle) act on values. The order of `trainable_variables` (`A, b, chol P0, chol Q, mu0`: TensorFlow sorts by attribute name)
is that of the tuples.
-/

namespace MF
open Matrix
variable {n d : ℕ}

/-- A triple of tensors with the shapes of the natural or of the expectation parameters (ssm_natgrad.py:121-160): `[N+1, D]`, `[N+1, D, D]`, `[N, D, D]`. -/
abbrev ExpPar (n d : ℕ) := (Fin (n + 1) → Vec d) × (Fin (n + 1) → Mat d d) × (Fin n → Mat d d)

/-- The attributes of an `SSMNaturalGradient` (ssm_natgrad.py:61-92). -/
structure NatGrad (n d : ℕ) where
  /-- `gamma` -/
  gamma : ℝ
  /-- `_momentum` -/
  momentum : Bool
  /-- `_beta1` -/
  beta1 : ℝ
  /-- `_beta2` -/
  beta2 : ℝ
  /-- `_epsilon` -/
  epsilon : ℝ
  /-- `_ms` (zeros from the first call of `minimize` on, l.104-108) -/
  ms : ExpPar n d := 0
  /-- `_v` -/
  v : ℝ := 0
  /-- `_step_counter`, a float holding an integer -/
  stepCounter : ℕ := 1

namespace NatGrad

/-- `__init__` (l.61-92) and the creation of the moving averages (l.104-108). -/
def init (gamma : ℝ) (momentum : Bool) (beta1 beta2 epsilon : ℝ) : NatGrad n d :=
  { gamma := gamma, momentum := momentum, beta1 := beta1, beta2 := beta2, epsilon := epsilon }

/-- `natgrad_norm` (l.190-192): the last of the three components is doubled. -/
def natgradNorm (dEta dTheta : ExpPar n d) : ℝ :=
  (∑ b, ∑ i, dEta.1 b i * dTheta.1 b i) + (∑ b, ∑ i, ∑ j, dEta.2.1 b i j * dTheta.2.1 b i j) +
    (∑ k, ∑ i, ∑ j, dEta.2.2 k i j * dTheta.2.2 k i j) * 2

/-- The debiased learning rate (l.179-185). -/
noncomputable def lr (opt : NatGrad n d) : ℝ :=
  opt.gamma * Real.sqrt (1 - opt.beta2 ^ opt.stepCounter) / (1 - opt.beta1 ^ opt.stepCounter)

/-- `_natgrad_step` (l.121-218): the updated optimiser and distribution. `tf.sqrt` of a negative number is `nan`, on which the
Cholesky decomposition of `naturals_to_ssm_params` fails; simplification: after an exception the moving averages (assigned
before) are not described. -/
noncomputable def step (opt : NatGrad n d) (ssm : SSM n d) (dEta dTheta : ExpPar n d) :
    Except Err (NatGrad n d × SSM n d) := do
  let thetas : ExpPar n d := ssmToNaturals ssm
  let (opt', thetasNew) ← (
    if opt.momentum then
      let lr := opt.lr
      let msNew : ExpPar n d := opt.beta1 • opt.ms + (1 - opt.beta1) • dEta
      let vNew := opt.v * opt.beta2 + (1 - opt.beta2) * natgradNorm dEta dTheta
      if vNew < 0 then .error .invalidArgument
      else
        let thetasNew : ExpPar n d := thetas - (lr / (Real.sqrt vNew + opt.epsilon)) • msNew
        .ok ({ opt with ms := msNew, v := vNew, stepCounter := opt.stepCounter + 1 }, thetasNew)
    else .ok (opt, thetas - opt.gamma • dEta) : Except Err (NatGrad n d × ExpPar n d))
  let new ← naturalsToSSM thetasNew.1 thetasNew.2.1 thetasNew.2.2
  return (opt', { new with cholP0 := tril new.cholP0, cholQ := fun k => tril (new.cholQ k) })

/-- Repeated calls of `minimize` (ssm_natgrad.py:95-109): at call `i` the gradients are `grad i q` where `q` is the current distribution. -/
noncomputable def steps (grad : ℕ → SSM n d → ExpPar n d × ExpPar n d) :
    ℕ → NatGrad n d × SSM n d → Except Err (NatGrad n d × SSM n d)
  | 0, st => .ok st
  | N + 1, st => do
    let (opt, q) ← steps grad N st
    opt.step q (grad N q).1 (grad N q).2

end NatGrad
end MF
