import Verif.Model.TF

/-!
# Model of `markovflow/emission_model.py`

An `EmissionModel` is its emission matrix, `[num_data, output_dim, state_dim]`
(emission_model.py:40-51, 83-91; the rank check of `__init__` is in `Verif/Model/Shapes.lean`).
Shape assertions hold by typing.
-/

namespace MF
open Matrix

variable {N m d e : ℕ}

/-- `EmissionModel.project_state_to_f` (l.115-128) -/
def projectStateToF (H : Fin N → Mat m d) (state : Fin N → Vec d) : Fin N → Vec m :=
  fun k => (H k * replicateCol Unit (state k)).col ()

/-- `EmissionModel.project_state_covariance_to_f(..., full_output_cov=True)` (l.146-148) -/
def projectStateCovarianceToFFull (H : Fin N → Mat m d) (covariance : Fin N → Mat d d) :
    Fin N → Mat m m :=
  fun t => Matrix.of fun i l => ∑ j, ∑ k, H t i j * covariance t j k * H t l k

/-- `EmissionModel.project_state_covariance_to_f(..., full_output_cov=False)` (l.149-153) -/
def projectStateCovarianceToFDiag (H : Fin N → Mat m d) (covariance : Fin N → Mat d d) :
    Fin N → Vec m :=
  fun t i => ∑ j, H t i j * (∑ k, H t i k * covariance t k j)

/-- `EmissionModel.project_state_marginals_to_f` (l.93-113), `full_output_cov=True` -/
def projectStateMarginalsToFFull (H : Fin N → Mat m d) (means : Fin N → Vec d)
    (covariances : Fin N → Mat d d) : (Fin N → Vec m) × (Fin N → Mat m m) :=
  (projectStateToF H means, projectStateCovarianceToFFull H covariances)

/-- `EmissionModel.project_state_marginals_to_f` (l.93-113), `full_output_cov=False` -/
def projectStateMarginalsToFDiag (H : Fin N → Mat m d) (means : Fin N → Vec d)
    (covariances : Fin N → Mat d d) : (Fin N → Vec m) × (Fin N → Vec m) :=
  (projectStateToF H means, projectStateCovarianceToFDiag H covariances)

/-- `ComposedPairEmissionModel.__init__` (l.177-193): the composed emission matrix. -/
def composedEmission (outer : Fin N → Mat m e) (inner : Fin N → Mat e d) : Fin N → Mat m d :=
  fun t => Matrix.of fun i k => ∑ j, outer t i j * inner t j k

/-- `ComposedPairEmissionModel.project_state_to_g` (l.241-250) -/
def projectStateToG (inner : Fin N → Mat e d) (state : Fin N → Vec d) : Fin N → Vec e :=
  projectStateToF inner state

/-- `ComposedPairEmissionModel.project_state_covariance_to_g` (l.252-266),
`full_output_cov=True` -/
def projectStateCovarianceToGFull (inner : Fin N → Mat e d) (covariance : Fin N → Mat d d) :
    Fin N → Mat e e := projectStateCovarianceToFFull inner covariance

/-- `StackEmissionModel.project_state_to_f` (l.325-344): `_H` has shape
`[num_kernels, num_data, 1, state_dim]`, the result `[num_data, num_kernels]`. -/
def stackProjectStateToF {R : ℕ} (H : Fin R → Fin N → Mat 1 d) (state : Fin R → Fin N → Vec d) :
    Fin N → Vec R :=
  let projection : Fin R → Fin N → ℝ := fun r t => (H r t * replicateCol Unit (state r t)) 0 ()
  fun t r => projection r t

/-- `StackEmissionModel.project_state_covariance_to_f` (l.346-378), `full_output_cov=False`:
`[1, D] * [D, D] * [D, 1]` is an element-wise product with broadcasting. -/
def stackProjectStateCovarianceToFDiag {R : ℕ} (H : Fin R → Fin N → Mat 1 d)
    (covariance : Fin R → Fin N → Mat d d) : Fin N → Vec R :=
  let hCovHT : Fin R → Fin N → ℝ := fun r t =>
    ∑ i, ∑ j, H r t 0 j * covariance r t i j * (H r t)ᵀ i 0
  fun t r => hCovHT r t

/-- As above with `full_output_cov=True`: `tf.linalg.diag`. -/
def stackProjectStateCovarianceToFFull {R : ℕ} (H : Fin R → Fin N → Mat 1 d)
    (covariance : Fin R → Fin N → Mat d d) : Fin N → Mat R R :=
  fun t => Matrix.diagonal (stackProjectStateCovarianceToFDiag H covariance t)

end MF
