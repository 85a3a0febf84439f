# Formal model of markovflow in Lean 4 — design

The theorem names of every property, with their English reading, are in `THEOREMS.md` (generated from the doc comments)
and in `MANIFEST.json`. Layout of `lean/Verif`:

* `Model/` — the code, function by function; every definition cites the file and lines of `/repo` it models;
* `Spec/` — small independent specifications (dense matrices, Gaussian laws, Bayes posteriors, covariance functions, bridges …);
* `Lemmas/` — helpers, no claims;
* `Props/` — the property theorems `Cxx_…`, each file ending in, or interleaved with, non-vacuity `example`s.

## 1. Trusted base

1. **Lean 4.33.0's kernel.** No `native_decide`, `bv_decide`, no `sorry`, no axioms of our own.
2. **Axioms**: every theorem of `MANIFEST.json` depends on a subset of Lean's three standard axioms `propext`,
   `Classical.choice`, `Quot.sound` — see the table at the end of `THEOREMS.md`, produced by `#print axioms` for each.
3. **Mathlib** as compiled from `/app/mathlib4-4.33.0` (all of it is kernel-checked; definitions that matter for the meaning of
   statements: `Matrix`, `Matrix.PosDef`, `Measure`, `gaussianReal`, `klDiv`, `HasDerivAt`, `NormedSpace.exp`).
4. **The model is the code**: that `Model/` says what the Python says. It was written by reading; nothing was extracted or run.
5. **External contracts** (section 3): what TensorFlow, TensorFlow Probability, `banded_matrices` and GPflow compute.
6. **The specification**: `Spec/` and the statements in `Props/`.

## 2. Global simplifications

* **Real numbers** instead of `float64`: rounding, overflow, under-flow, NaN are not modelled. Where the code compares
  with a finite number standing for infinity (`APPROX_INF = 1e10`, conditionals.py:30) the model does the same, with the number.
* **Batch shape `()`** in the typed model: kernels, conditionals, posteriors and model classes are modelled without leading batch
  dimensions. The core classes (block tri-diagonal matrices, state space models, emission models, Kalman filters), the kernels, conditionals,
  posterior predictions and GP regression are modelled a second time on raw tensors of any rank (`Model/Tensor`, `Model/Batched`,
  `Model/BatchedKernels`, `Model/BatchedPosterior`, `Model/BatchedVariational`, `Model/BatchedSampling`, `Model/BatchedStack`, `Model/BatchedMean`), and C62 to C67 prove that a batched call is the family of the calls of the typed model. The *shape checks* of constructors are modelled for all ranks and batch shapes (`Model/Shapes`, C42).
* **Exceptions are values** (`Except Err`): a failing Cholesky decomposition, assertion or shape check makes the call raise;
  the class of exception is kept. Batched ops fail as a whole (`seqFin`).
* **No state except where the code has state**: `assign`, optimiser slots, in-place changes (`sites`, `SSMNaturalGradient`,
  `LinearDrift.set_from_ssm`) are modelled as functions from the old object to the new one; histories are iterations of these.
  Concurrency does not occur in the code.
* **Randomness**: a sampler is a function of the standard normal (uniform, categorical) noise it draws; theorems speak about
  the law of the output when the noise is iid.
* **Gradients** computed by `tf.GradientTape` are derivatives (`deriv`).
* `tf.function`, name scopes, `tf.Module` registration, `Parameter` transforms (a parameter *is* its value), dtype
  conversions, device placement, printing and docstrings are not modelled.
* **Dimension zero**: `d ≥ 1` is assumed where a Cholesky factor is used (a kernel always has `d ≥ 1`, proved in
  `Core.pos`); zero transitions are modelled (they raise in the code, and in the model).

## 3. External contracts

| operation | contract | where |
|---|---|---|
| `tf.linalg.cholesky` | reads the lower triangle; returns the unique lower factor with positive diagonal when the matrix is positive definite, raises otherwise (existence/uniqueness proved) | `Model/TF` `tfCholesky` |
| `tf.linalg.triangular_solve`, `cholesky_solve`, `solve`, `tf.linalg.expm`, `einsum`, `matmul` | the mathematical operation; `solve` raises on singular input | `Model/TF`, `Model/Transformations`, `Model/Kernels` |
| `banded_matrices`: `block_to_band`, `band_to_block`, `unpack_banded_matrix_to_dense`, `product_band_mat`, `solve_triang_mat`, `cholesky_band`, `inverse_from_cholesky_band`, `product_band_band` | index maps of the band format; dense operation restricted to the band | `Model/BlockTriDiag`, `Model/Transformations` |
| `tf.searchsorted` left/right | number of entries `<` / `≤` the value | `Model/Utils`, `Model/Piecewise` |
| `tf.dynamic_partition`, `gather`, `scatter_nd` (duplicates add up), `tensor_scatter_nd_update`, `argsort` (stable), `scan`, `unique` | list operations | `Model/Piecewise`, `Model/SparseCVI`, `Model/KalmanFilter`, `Model/PEP`, `Model/Posterior`, `Model/SDE` |
| `reduce_logsumexp`, `softmax`, `random.categorical` | formulas; index `k` with probability `softmax k` | `Model/IWVI` |
| `tfd.MultivariateNormalTriL.log_prob`, `tfd.Independent`, `kl_divergence` | Gaussian density formula (lower triangle of the scale) | `Model/StateSpaceModel`, `Model/IWVI` |
| `tf.debugging.assert_*`, `assert_shapes` | including broadcasting of the two compared shape vectors | `Model/Shapes` |
| GPflow `Likelihood` | `log_prob`, `variational_expectations`, `predict_log_density`, `predict_mean_and_var` as functions of one datum; exactness (`ExactLikelihood`: quadrature = integral) is a hypothesis where needed, proved for Gaussian and Poisson | `Model/Likelihood`, `Model/PEP` |
| GPflow kernels, conditionals, `gpflow.conditionals`-like helpers | kernel matrix of a covariance function | `Model/SpatioTemporal` |
| GPflow densities `bernoulli`, `poisson`, `gaussian`; `ndiagquad`/`ndtri`-style quadrature | formulas; a quadrature rule is a parameter with an exactness hypothesis | `Model/LikelihoodObjects`, `Model/SDE` |


## 4. Per property: model and proof

"Limits" says what the theorems do not cover.

- **C01** to_dense places every block where the documentation says — Model: `_convert_to_band` at index level (row-major reshapes), band contracts. Proof: div/mod arithmetic on positions.  Theorems: `constructor`, `to_dense_lower`, `to_dense_symmetric`, `to_dense_symmetric_general`.
- **C02** dense_mult is multiplication by the dense matrix — Model: `dense_mult` through flatten, `product_band_mat`, unflatten. Proof: the band of C01 unpacks to the dense matrix.  Theorems: `dense_mult`.
- **C03** solve inverts dense_mult — Model: `solve` through `solve_triang_mat`. Proof: nonsingularity of triangular matrices with non-zero diagonal; uniqueness.  Theorems: `solve`.
- **C04** cholesky of a symmetric block tri-diagonal matrix is exact, banded and fails exactly when it must — Model: `cholesky` through `cholesky_band`. Proof: existence and uniqueness of the Cholesky factor, no fill-in by block induction; both directions of success.  Theorems: `cholesky`, `cholesky_raises`.
- **C05** block_diagonal_of_inverse and abs_log_det describe the matrix they factor — Model: `inverse_from_cholesky_band`, diagonal product. Proof: triangular determinants.  Theorems: `block_diagonal_of_inverse`, `abs_log_det`.
- **C06** addition of block tri-diagonal matrices is matrix addition — Model: the four cases of `__add__`. Proof: case analysis with C01.  Theorems: `add`.
- **C07** upper_diagonal_lower factorises every positive definite matrix — Model: the backward loop of `upper_diagonal_lower`. Proof: induction over the loop; Schur complements stay positive definite.  Theorems: `upper_diagonal_lower`, `not_posdef_raises`, `no_sub_diagonal`.
- **C08** marginal means obey the state recursion — Model: `marginal_means` = solve of a unit bidiagonal system. Proof: uniqueness by induction in time; the mean of the sampling law.  Theorems: `marginal_means`, `no_transitions`.
- **C09** marginal and subsequent covariances are those of the trajectory — Model: `covariance_blocks` through the inverse factor. Proof: blocks of the joint covariance recursion.  Theorems: `covariances`, `marginals`.
- **C10** precision is the inverse of the joint covariance — Model: `precision`, `a_inv_block` etc. Proof: A⁻ᵀQ⁻¹A⁻¹; congruence of positive definite matrices.  Theorems: `precision`, `joint_cov_exists`.
- **C11** log_pdf is the log density of the trajectory's law — Model: `log_pdf`. Proof: change of variables for the affine map from noise to trajectory; density of a Gaussian measure.  Theorems: `log_pdf`.
- **C12** sample draws from the model — Model: `sample` as function of the noise. Proof: pushforward of iid standard normals is `gaussLaw` with the model's moments.  Theorems: `sample`.
- **C13** kl_divergence is the Kullback-Leibler divergence — Model: `kl_divergence`. Proof: equals Mathlib's `klDiv` of the trajectory laws.  Theorems: `kl_divergence`, `dense_formula`.
- **C14** normalizer is the log-partition function — Model: `normalizer`. Proof: log-partition of the exponential family; log_pdf identity.  Theorems: `normalizer`.
- **C15** building from covariances keeps the covariances — Model: zero/positive definite branch of `state_space_model_from_covariances`. Proof: case split.  Theorems: `from_covariances`, `from_covariances_raises`, `no_transitions`.
- **C16** expectation-parameter conversions are mutually inverse — Model: `ssm_to_expectations`, `expectations_to_ssm_params`. Proof: moments algebra; recovered model has the same law.  Theorems: `projection`, `expectations`, `model_round_trip`, `expectations_round_trip`.
- **C17** natural-parameter conversions are mutually inverse — Model: `ssm_to_naturals`, `naturals_to_ssm_params`, both 'no smoothing' variants. Proof: C07 factorisation, uniqueness; success iff proper.  Theorems: `naturals`, `model_round_trip`, `naturals_round_trip`, `improper_raises`, `no_smoothing`, `no_smoothing_round_trip`.
- **C18** the Kalman posterior is exact Bayesian conditioning — Model: `_k_inv_post`, `posterior_state_space_model`. Proof: completing the square; `IsBayesPosterior` measure identity.  Theorems: `posterior`.
- **C19** the Kalman log likelihood is the marginal likelihood — Model: `log_likelihood`. Proof: determinant lemma and Woodbury; evidence of the law.  Theorems: `log_likelihood`.
- **C20** Gaussian sites and sparse sites agree with the dense filter — Model: sites and `sparse_to_dense` scatter. Proof: finite sums.  Theorems: `sites`, `improper_sites`, `univariate_sites`, `sparse_sites`, `duplicate_indices`.
- **C21** conditional statistics are Gaussian bridges — Model: `_conditional_statistics_from_transitions`, both variants. Proof: Gaussian conditioning (`IsBridge`).  Theorems: `bridge`, `succeeds`, `precision`, `all`.
- **C22** conditional_predict uses the two neighbouring states and is consistent at them — Model: `conditional_predict`, `pairwise_marginals`, `CondProcess.predictState`. Proof: searchsorted characterisation, bridge algebra.  Theorems: `neighbours`, `predict_state`, `at_training`, `succeeds`, `constant_extrapolation_halves`, `constant_no_jitter_raises`, `state_mean_dropped`.
- **C23** interpolated predictions equal marginals of the refined model — Model: as C22 with the kernel's prior. Proof: law of total covariance; identity of measures `IsPredictive`, incl. joint over several new points.  Theorems: `prior_is_kernel`, `interior`, `with_ends`, `bayes`, `prior`.
- **C24** posterior samples at new times follow the conditional — Model: `sample_state_trajectories` with argsort/gather. Proof: law of the prior-sample-plus-correction is the predictive law.  Theorems: `interior`, `with_ends`, `conditioning_law`, `given_conditioning`, `succeeds`, `sample_f`.
- **C25** emission models project states linearly — Model: `project_state_*`, composed emission. Proof: matrix algebra; positivity.  Theorems: `projection`, `law`, `composed`, `stack`, `marginals`.
- **C26** kernel state transitions solve the kernel's own SDE — Model: transition matrices and feedback matrices of the leaf kernels, incl. LatentExponentiallyGenerated. Proof: exp/trig identities, HasDerivAt.  Theorems: `transitions_solve_sde`, `transitions_eq_exp`, `transitions_group`, `sum`, `product_feedback_is_wrong`.
- **C27** kernel process covariances are valid and make the process stationary — Model: `process_covariances`, `transition_statistics`. Proof: PSD through an integral-free monotonicity argument on the semigroup; jitter accounting.  Theorems: `process_covariance_psd`, `process_covariance_pd`, `stationary`, `state_mean_invariant`, `jitter_accumulates`.
- **C28** a kernel's state space model has the textbook covariance function — Model: `state_space_model`, constructors. Proof: induction along the chain; covariance functions in `Spec/Kernel`.  Theorems: `output_law`, `succeeds`, `matern12`, `ornsteinUhlenbeck`, `matern32`, `matern52`, `harmonicOscillator`, `constant`, `constructors`, `restriction`, `state_mean`.
- **C29** combined kernels combine covariances — Model: Sum, Product (one output), IndependentMultiOutput, FactorAnalysis, nested to any depth (`Builds`); StackKernel over such kernels. Proof: block-diagonal/Kronecker algebra by induction over kernel trees.  Theorems: `stack_succeeds`, `stack_feedback_padding`, `add`, `mul`, `sum`, `product`, `independent`, `factor_analysis`, `stack`, `sum_loses_state_mean`.
- **C30** piecewise kernels use the kernel of the interval each time falls in — Model: `PiecewiseKernel` with lists, partitions, gathers. Proof: counting change points; position by position.  Theorems: `segment`, `split_indices`, `sorted_times`, `any_order`, `state_space_model`, `composes`, `out_of_range`, `crossing_uses_left_kernel`, `unsorted_times`, `succeeds`.
- **C31** mean functions solve the forced SDE — Model: all mean functions. Proof: solve of the bidiagonal system = superposition; HasDerivAt of the piecewise solution.  Theorems: `zero`, `linear`, `impulse_transitions`, `impulse`, `impulse_jump`, `unsorted_actions`, `step`, `step_response_unique`, `step_leaf`, `step_singular_raises`, `feedback_invertible`, `step_product_wrong`.
- **C32** GaussianProcessRegression is exact GP regression — Model: `GaussianProcessRegression`. Proof: C18 + C19 + C28 composed, dense GP formulas.  Theorems: `dense_is_bayes`, `log_likelihood`, `posterior`, `samples`.
- **C33** variational objectives are lower bounds — Model: `VariationalGaussianProcess`. Proof: chain of `klDiv`; any `ExactLikelihood`.  Theorems: `prior`, `elbo`, `posterior_exists`, `gaussian`, `init`.
- **C34** CVI reaches the exact posterior for Gaussian likelihoods — Model: `CVIGaussianProcess`. Proof: invariants over update histories; exact posterior after one full step; witness that `elbo` is no bound elsewhere.  Theorems: `dist_q`, `kalman`, `gradient`, `update`, `mean_function_ignored`, `classic_elbo`, `k_steps`, `updates_succeed`, `exact_sites`, `one_step`, `converges`, `elbo_not_a_bound`.
- **C35** sparse variational objective scales minibatches without bias — Model: `SparseVariationalGaussianProcess`. Proof: bound via the predictive law; averages over partitions.  Theorems: `elbo`, `bound`, `partition`, `equal_batches`, `with_replacement`, `without_replacement`, `predict_log_density`, `init`.
- **C36** sparse CVI adds up data contributions per inducing interval — Model: `SparseCVIGaussianProcess`. Proof: fibre sums; optimality of the Gaussian fixed point.  Theorems: `dist_q`, `one_interval`, `update`, `totals`, `order`, `reachable`, `init`, `classic_elbo`, `gaussian_optimal`, `mean_function_ignored`.
- **C37** power EP moment matching is exact for Gaussian likelihoods — Model: `PowerExpectationPropagation`, PEP likelihoods (C37_gaussian_objective: the Gaussian objective as a log expectation, with its derivatives). Proof: rational identities; induction over schedules of site indices.  Theorems: `cavity`, `leave_out`, `cavity_exists`, `update`, `update_none`, `duplicate_indices`, `log_norm`, `moment_matching`, `ep_update`, `gaussian_exact`, `gaussian_alpha`, `schedule`, `gaussian_regression`, `energy`, `init`, `gaussian_objective`.
- **C38** importance weights are normalised and the IWVI bound is monotone in structure — Model: `ImportanceWeightedVI` and its posterior. Proof: self-normalised weights, Jensen, change of measure, DREGs.  Theorems: `weights_normalised`, `objective_bounds`, `estimate`, `dregs`, `importance_weights`, `bound`, `objective_consistent`, `resampling_consistent`, `expected_value_consistent`, `init_ignores_initial_distribution`.
- **C39** a natural gradient step moves natural parameters along the expectation gradient — Model: `SSMNaturalGradient` step with and without momentum. Proof: naturals/expectations round trips; chain rule identity.  Theorems: `step`, `momentum_step`, `moving_averages`, `zero_rate`, `gradient_of_kl`, `conjugate`, `conjugate_one_step`, `vgp_gaussian`, `momentum_norm_negative`.
- **C40** likelihood objects are normalised and agree with their sampling — Model: `MultivariateGaussian`, `MultiStageLikelihood`, sampling. Proof: tsum and integrals.  Theorems: `multistage_normalised`, `multistage_samples`, `multistage_invalid_counts`, `multistage_variational_expectations`, `mvg_log_density`, `mvg_variational_expectations`, `mvg_predict_density`, `mvg_predict_mean_var`, `predict_y`, `predict_y_default`.
- **C41** SDE tools: Euler-Maruyama, linear drifts, linearisation and the drift divergence — Model: `sde`, `sde_utils`, `LinearDrift`. Proof: induction over the grid; laws; quadrature exact for the drift divergence.  Theorems: `euler_maruyama`, `euler_maruyama_shifted`, `euler_maruyama_linear_law`, `drift_roundtrip`, `drift_roundtrip_general`, `to_ssm_changes_drift`, `handle_shape`, `drift_shapes`, `linearize_optimal`, `scalar_views`, `linearize_ou`, `linearize_double_well`, `drift_difference_is_kl`, `drift_difference_linear`.
- **C42** constructors accept exactly the documented shapes — Model: shape checks of all constructors on arbitrary shape lists. Proof: exact characterisation (iff) of what is accepted.  Theorems: `state_space_model_exact`, `state_space_model`, `state_space_model_documented`, `batch_mismatch_accepted`, `scalar_mean_accepted`, `event_shape`, `check_compatible`, `log_pdf_states`, `block_tri_exact`, `block_tri`, `block_tri_no_blocks_accepted`, `block_tri_vector_accepted`, `right_hand_side_sound`, `right_hand_side_complete`, `right_hand_side_refused`, `flatten_round_trip`, `emission`, `stack_emission`, `project_state`, `kalman_filter_exact`, `kalman_filter`, `kalman_emission_unchecked`, `stack_kalman`, `sites`, `kalman_sites`, `drop_batch`, `leg`, `multivariate_gaussian`, `check_input_shapes`, `actions`, `back_project_nats`, `base_conditional`.
- **C43** spatio-temporal models are sparse variational Gaussian processes in space and time — Model: spatio-temporal kernel, predictions, ELBO, CVI. Proof: Kronecker algebra; witnesses for the wrong variance. Limits: minibatching is covered by the scale factor only.  Theorems: `base_conditional`, `base_conditional_full`, `base_conditional_full_wrong`, `cvi_dist_q`, `projection`, `cvi_gradients`, `cvi_update`, `cvi_reachable`, `cvi_init`, `cvi_gaussian`, `cvi_elbo`, `predict_exact`, `elbo_value`, `elbo`, `bound`, `init`, `svgp_bound`, `predict_log_density`, `elbo_not_a_bound`, `kernel`, `prior`, `predict`.
- **C44** time differences are checked — Model: `to_delta_time`. Proof: telescoping.  Theorems: `to_delta_time`.
- **C45** predicted observations add the mean function and the noise exactly once — Model: posterior `predict_f`, `predict_y`. Proof: matrix algebra on top of C22/C25.  Theorems: `state_psd`, `formulas`, `laws`.
- **C46** copies of a state space model are the same distribution — Model: `create_trainable_copy`, `create_non_trainable_copy`. Proof: laws are equal; factors unchanged.  Theorems: `copies`.
- **C47** sparse power expectation propagation — Model: `SparsePowerExpectationPropagation`. Proof: marginals of a tilted Gaussian (removing a site commutes with marginalisation), evidence chain rule, induction over updates. Limits: closed forms need data between the first and last inducing point; outside, `C47_cavity` states what is computed.  Theorems: `fraction`, `dist_q`, `init`, `cavity`, `leave_out`, `cavity_exists`, `update`, `log_norm`, `energy`, `gaussian_updates`, `gaussian_cvi`, `gaussian_optimal`, `gaussian_regression`, `mean_function_ignored`.
- **C48** predict_log_density is the log predictive density under the model's own posterior process — Model: `predict_log_density` of SVGP, CVI, sparse CVI, PEP, sparse PEP; the likelihood's own `predict_log_density` by contract (Gaussian: closed form, proved exact). Proof: C23 predictive law, marginals of Gaussians, evidence chain rule. Limits: test times inside the range of the conditioning times.  Theorems: `gaussian_contract`, `svgp`, `sites`, `exact`, `regression`, `outputs_not_joint`.
- **C49** Cyclic reduction statistics describe the explained states given the conditioning states — Model: `cyclic_reduction_conditional_statistics` with its final slices. Proof: bridge statistics (C21), residuals in different intervals are uncorrelated, affine maps of Gaussians.  Theorems: `raises`, `bridge`, `conditional_statistics`, `law`, `returned`.
- **C50** Extrapolation is exact up to an exponentially small error — Model: `predict_state` with `APPROX_INF` as a parameter (the code is the instance 1e10, by `rfl`). Proof: exponential decay of the transitions from strict contraction of the stationary covariance; Loewner monotonicity of the innovation covariance bounds its inverse; entrywise big-O calculus; exact linear predictor at the ends and in between. Limits: jitter zero (C45 covers what jitter does).  Theorems: `extrapolation`, `code`, `matern12`, `mixing`.
- **C51** Regression depends on the data and the covariance function only — Model: as C32. Proof: the dense formulas (C32) under relabelling and scaling; stationarity and reversibility of the covariance functions from C28; non-vacuity with the Ornstein-Uhlenbeck twin of a Matern 1/2 kernel. Limits: queries in the closed range of the data, as in C32.  Theorems: `log_likelihood`, `predict`, `translation`, `reversal`, `units`, `same_covariance`.
- **C52** Learning from more data is sequential conditioning — Model: as C32. Proof: block inverse and Schur complement: the dense formulas for all data are the dense formulas for the second part with the posterior given the first as the prior; Loewner order. Limits: queries in the closed range of the data.  Theorems: `sequential`, `chain_rule`, `more_data`, `bounds`, `affine`.
- **C53** Parameters stay valid under any training history — Model: `gpflow.Parameter` with the transforms the library chooses (`ordered()` = inverted tfp Ordered, softplus, FillTriangular; contracts), histories as lists of updates, the three sparse constructors with their parameter. Proof: cumulative sums of exponentials are strictly increasing; induction over histories. Limits: real arithmetic (softplus does not underflow).  Theorems: `ordered`, `kernel_parameters`, `triangular`, `sparse_models`, `site_models`.
- **C54** More inducing points never hurt, and enough of them are exact — Uses the models of C35, C36, C32. Proof: extend q by the prior's conditional to the larger set (Gaussian algebra keeps the KL and the predictions), project onto chains by the library's own expectations-to-SSM conversion (same pair marginals, so same predictions; Pythagoras for the KL, `C16_projection`), then the ELBO identity. Limits: real arithmetic; predictions outside the old range are not compared (there the code uses far away artificial end points).  Theorems: `refine`, `best`, `sparse_cvi`, `data_times`, `exact_regression`.
- **C55** Models over a stack of kernels are models of independent latent processes — Model/Stack: the batch dimension of the stack is a family over Fin R, each entry the padded child of C29 with its own times; operations on batch entries are independent (TensorFlow contract). Proof: one batch entry is the child's process with independent standard normal padding (law of the padded state space model, conditional statistics of block diagonal chains); products of measures, KL of product measures is the sum; the ELBO identity of C35 for a joint likelihood. Limits: jitter zero, queries between the first and the last inducing point, at least two inducing points, batch shape in front of the kernel index ().  Theorems: `prior`, `predict`, `elbo`, `bound`, `vgp`, `partition`, `init`, `add`, `mul`, `scalar_likelihood`, `multistage_likelihood`, `sampling_returns_iff`, `samples`.
- **C56** CVI site updates are natural gradient steps, for any likelihood — Uses the models of C33-C36 and C39. Proof: the KL term has gradient θ(q) - θ(p) (C39's duality between log-partition derivatives), the expected log likelihood depends on the expectation parameters through two linear functionals per datum (chain rule with C34_gradient; for the sparse model the functionals are those of the pair of neighbouring inducing states, the rest of the variance is constant); uniqueness of gradients; induction over steps.  Theorems: `gradient`, `same_bound`, `step`, `steps`, `fixed_point`, `optimum`, `sparse_gradient`, `sparse_same_bound`, `sparse_step`, `sparse_steps`, `sparse_fixed_point`.
- **C57** Models with a piecewise kernel are Gaussian process models of one non-stationary process — Model/PiecewiseModels (C57_conditional_statistics: the statistics returned to the user, against the predictions of any q, in Props/PiecewiseStatistics): the list-valued methods of the piecewise kernel (C30) inside conditional statistics, predict_state, predict_f, Kalman regression and the sparse variational model. Spec/PiecewiseProcess: transitions as linear Gaussian channels composed over the intervals, with Lebesgue time spent in each. Proof: Chapman-Kolmogorov for the channels (time is additive, intervals are visited in order), bridge conditionals of a general (non-stationary) Gauss-Markov process (Lemmas/MarkovBridge), then the arguments of C32 and C35. Limits: jitter zero, sorted queries within the range of the conditioning times, batch shape ().  Theorems: `prior`, `consistent`, `first_interval`, `same_kernel`, `predict_state`, `no_queries`, `log_likelihood`, `posterior`, `svgp`, `conditional_statistics`, `svgp_init`.
- **C58** Predictions are continuous in the query time and derivative components are predicted as derivatives — Uses the models of C22/C23. Spec/PredictSmooth: one function of the query time evaluated by predict_state. Proof: a closed form of predict_state on the grid augmented by the two far ends, in which the query time enters only through the prior covariance with the grid (projection times grid covariance is the cross covariance; the grid covariance is invertible for strictly increasing times and kernels with process noise); transitions are continuous (induction over kernel expressions), and the prior covariance is differentiable in directions the driving noise does not enter, also where its two branches meet, by the Lyapunov equation.  Theorems: `pointwise`, `continuous`, `derivative`, `predict_f`, `predict_f_derivative`, `smooth_kernels`, `matern32`, `matern52`.
- **C59** Jitter perturbs results by an amount that vanishes with it — Uses the models of C21-C23, C26-C29 and C32, with the jitter as a parameter. Spec/Jitter: a family of kernels that differ in their jitter only. Proof: the joint covariance of a chain is linear in (initial covariance, noises), so jitter adds ε times the covariance of the chain driven by unit noise; the dense formulas (C18, C19) and the bridge statistics (C21) are continuous where the innovation covariance is invertible, which the noise model or the success of the jitter-free call gives. Missing: predict_f for noise-free kernels away from the data times (the jitter-free limit is 0/0 there).  Theorems: `constructors`, `prior`, `log_likelihood`, `posterior`, `predict_state`, `predict_f`.
- **C60** The log likelihood has the textbook gradient and everything is smooth in the hyperparameters — Uses the models of C23, C32. Proof: the log likelihood equals the dense Gaussian log density (C32); Jacobi's formula for the determinant, the derivative of the inverse and of the quadratic form give the gradient; smoothness of determinant and inverse as rational functions of the entries (Cramer); covariance functions by composition. Missing: gradients through the stochastic objectives (quadrature and automatic differentiation are outside the model).  Theorems: `gradient`, `smooth`, `predict`, `covariances`, `leg_constant`, `matern`.
- **C61** Observation noise limits: interpolation and return to the prior — Uses the models of C23, C32. Proof: predictions equal the dense posterior for every noise scale (C32); the covariance of the data is positive definite because the state space model is non-degenerate and the emissions have independent rows, so the inverse is continuous at zero noise; for large noise the inverse tends to zero.  Theorems: `interpolation`, `uninformative`.
- **C62** Batching: a batched call is the family of the calls for the batch elements — Model/Tensor: TensorFlow tensors with run-time shapes, broadcasting, reshape in row-major order, slices, concat, matmul, einsum with ellipses, batched Cholesky and banded ops. Model/Batched: block_tri_diag.py, state_space_model.py, emission_model.py and kalman_filter.py again on these tensors, with every axis number, reshape and shape assertion. Spec/Batched: what it means that a tensor holds one value per batch index and that a batched call is the family of the calls for the elements, failures included. Proof: each tensor op acts per batch index (induction on the batch shape for broadcasting and row-major positions); the methods follow by composition, the while loop by induction. Kernels, conditionals, posteriors and GP regression: C63.  Theorems: `tensors_are_families`, `state_space_model`, `block_tri_constructor`, `block_tri_operations`, `block_tri_add`, `block_tri_factorisations`, `moments`, `log_pdf`, `sample`, `divergence`, `from_covariances`, `emission`, `kalman_filter`, `kalman_filter_with_sites`, `posterior_bayes`, `log_likelihood_evidence`.
- **C63** Batching of kernels, conditionals, predictions and GP regression — Model/BatchedKernels and Model/BatchedPosterior: the kernels, conditionals.py, ConditionalProcess.predict_state / predict_f, the zero and linear mean functions and GaussianProcessRegression again on raw tensors (tile, pad, block_diag, kronecker, expm, searchsorted, gather with batch_dims). Spec/BatchedKernels: a kernel object on tensors is the typed kernel at every index of times of every shape. Proof: every tensor op acts per index; lists of children by induction; the sequence of new time points is one more batch axis of the batched Cholesky; C62 for the state space model and filter. C63_gpr_evidence and C63_gpr_predictions combine it with C32. Sampling: C65. Not covered: StackKernel and piecewise kernels on tensors.  Theorems: `kernels`, `leg`, `set_state_mean`, `sum_and_multi_output`, `product`, `factor_analysis`, `one_kernel`, `state_space_model`, `conditional_statistics`, `conditional_predict`, `pairwise_marginals`, `predict_state`, `predict_f`, `mean_functions`, `gpr_init`, `gpr_init_default`, `gpr_init_raises`, `gpr_log_likelihood`, `gpr_posterior`, `gpr_evidence`, `gpr_predictions`.
- **C64** Batching of the parameter transformations and of the variational models — Model/BatchedVariational: the six transformations, create_trainable_copy, VariationalGaussianProcess and SparseVariationalGaussianProcess on raw tensors, including the banded subset inverse and triangular solves of naturals_to_ssm_params per batch element. Spec/BatchedVariational: HoldsTriple, HoldsVGP, HoldsSVGP. Proof: every tensor op acts per index, the sequential scan of the emission means by induction over the time axis; predictions by C63, Kullback-Leibler divergences by C62. C64_model_round_trips, C64_naturals_round_trip, C64_vgp_bound, C64_svgp_bound combine it with C16, C17, C33, C35. ssm_to_naturals is covered for at least one transition (with none the zero padding of the code broadcasts). C64_sites_reject_batches: the site shape check on the run-time shapes. Not covered: batched likelihood objects; the likelihood is applied at every index by contract.  Theorems: `expectations`, `naturals`, `naturals_no_smoothing`, `model_round_trips`, `naturals_round_trip`, `trainable_copy`, `vgp_init`, `vgp`, `vgp_bound`, `svgp_init`, `svgp`, `svgp_bound`, `sites_reject_batches`.
- **C65** Posterior sampling with batch and sample axes — Model/BatchedSampling: sample_state_trajectories, sample_state and sample_f on raw tensors: argsort along the time axis, the double argsort that undoes the sorting, broadcast of indices over the sample axes, gather with batch_dims. Spec/BatchedSampling: what a tensor of draws or samples holds at every sample and batch index, and the joint law of all draws. Proof: every op acts per index; searchsorted, conditional statistics and StateSpaceModel.sample by C62 and C63; C24 and C32 give the law per element, and a product of maps of a product measure is the product of the laws. Not covered: StackKernel on tensors.  Theorems: `trajectories`, `sample_state`, `sample_f`, `trajectories_law`, `gpr_samples`.
- **C66** Stacks of kernels on raw tensors with any batch shape — Model/BatchedStack: IndependentMultiOutputStack on raw tensors (slices of the times per child, padding, tf.stack along a new axis, shape assertions), the stack branches of the emission model, of _correct_mean_shape and of the batch shape checks in Model/BatchedKernels, Model/BatchedPosterior and Model/BatchedSampling. Spec/BatchedStack: the kernel index is the innermost batch index. Proof: the stacked kernel acts at index r as the padded child r for every batch shape, so the theorems C62 to C65 with batch shape bs + [R] apply; the transposes of the stack emission model and of the mean are computed per index; then C55 per batch element. Exceptions are not identified, since the children raise in another order.  Theorems: `constructor`, `constants`, `rejects_other_batch_shapes`, `state_space_model`, `predict_state`, `predict_f`, `predict_law`, `trajectories`, `sample_f`, `vgp_init`, `vgp`, `vgp_bound`, `svgp_init`, `svgp`, `svgp_bound`, `default_distribution`, `sampling_returns_iff`, `samples_law`.
- **C67** Impulse and step mean functions with batches of actions — Model/BatchedMean: the two constructors with their shape assertion, _a_k / _b_k with the raw block bidiagonal solve, searchsorted, batched gathers, the broadcast of the feedback matrix over the actions, and the projection through the emission model, on raw tensors. Proof: each step acts per batch index (lemmas of C62 to C64), so the call is the family of the calls of the typed mean functions of C31, whose response theorems then apply at every index; the result is a mean function in the sense of C63 and C64 that may differ between batch elements. ImpulseMeanFunction passes time_points[..., :-1] as transition times, which is modelled as it is; C67_ignores_times shows that no kernel reads them. Stacks: the padded coordinates never reach the outputs (slice_impulse).  Theorems: `ignores_times`, `impulse`, `step`, `unsorted`, `impulse_response`, `impulse_transitions`, `step_response`, `other_batch_raises`, `shapes_raise`, `gpr_evidence`, `stack_impulse`, `stack_step_raises`, `stack_not_a_mean_function`, `stack_step_wrong`.
- **C68** Small enough natural gradient steps and CVI updates make progress — Model as C39, C34, C36 and C56. Spec/NatGrad: total gradient (chain rule along every differentiable curve of expectation parameters). Proof: the curve of expectation parameters that belongs to the line of natural parameters theta - t g is differentiable (derivative of the inverse of a positive definite matrix), its velocity pairs with g to minus the Fisher quadratic form, which is negative unless g = 0; the line stays inside the open cone of proper natural parameters for small t; so the loss decreases to first order. The losses of C56 are shown to have total gradients (the KL part by a squeeze between two linear bounds, the likelihood part by the chain rule), and CVI updates are natural gradient steps by C56. No bound on the rate is computed; it depends on the state.  Theorems: `step`, `stationary`, `momentum_first`, `total_gradient`, `vgp`, `cvi`, `sparse_cvi`.
- **C69** Natural gradients of the sparse variational GP: several outputs, mean function and minibatch scaling — Model as C35 (sparse variational GP with mean function, several outputs, num_data scaling) and C39 (natural gradient steps). Proof: each marginal is an affine image of the pair of inducing states around the datum, so its mean and variance are functions of the expectation parameters with known total derivatives; summed over data and outputs and combined with the KL gradient of C56. Unbiasedness is linearity of the gradient together with the partition identity of C35. Progress by the descent lemma of C68. Gaussian case: the expected log likelihood is affine in the expectation parameters, so the objective is a constant minus a KL divergence to the Gaussian whose natural parameters are the fixed target.  Theorems: `gradient`, `unbiased`, `average_step`, `progress`, `gaussian`.
- **C70** Natural gradients on batches of distributions — Model/BatchedNatGrad: minimize and _natgrad_step on raw tensors: creation of the moving averages in the first call, sums over all axes in the norm, broadcasting, shape checks of Variable.assign, the triangular transform. Spec/BatchedNatGrad: gradient of a function of the three tensors. Proof: each tensor operation acts per batch index (lemmas of C62 and C64), so without momentum the call is the family of the typed steps of C39; along any line of tensors the batched loss is the sum of the typed losses near the start (the conversion succeeds in a neighbourhood), so a batch gradient is a family of gradients; progress by C68 and C69 with the smallest of the finitely many rate bounds.  Theorems: `step`, `steps`, `momentum_step`, `gradient`, `vgp`, `vgp_gaussian`, `svgp`.
- **C71** Refining the Euler–Maruyama grid converges to the kernel's exact model — Spec/Refinement: convergence in law (bounded continuous test functions), refining homogeneous grids, noise factor of a stationary linear SDE. Proof: euler_maruyama of a linear SDE is exactly a state space model (C41; here also from a random start), so the values read off are Gaussian; the powers of 1 + hF converge to exp(tF) (telescoping, local error o(h)), the Lyapunov equation turns the covariance recursion into P - E^k (P - P0) E^kT plus a second-order remainder that vanishes; means, covariances and cross covariances converge to those of the model the kernel builds (C26, C28), and Gaussian laws converge when their moments do (characteristic functions and Levy's theorem of Mathlib). Drift and noise matrices exist for every kernel expression (transitions are a differentiable group, process covariances are positive semi-definite). One SDE at a time; strong (pathwise) convergence and nonlinear drifts are not claimed.  Theorems: `kernel_sde`, `random_start_law`, `random_start`, `fixed_start`, `gaussian_process`, `ornstein_uhlenbeck`, `linearize_ou`.
- **C72** Training on minibatches: objectives are unbiased, CVI site updates are not rescaled — Spec/Minibatch: unbiased estimates over partitions, draws with replacement and shuffles. Proof: every prediction is made one input at a time, so elbo and update_sites on selected data are sums of per-datum terms; averages over all minibatches and over all sequences of minibatches by double counting and induction on the length; the limit of the averaged sites is p/N times the exact ones, and the sites-to-posterior theorems of C36 and C43 give the tempered posterior.  Theorems: `cvi_average`, `cvi_partition`, `cvi_gaussian_runs`, `cvi_gaussian_tempered`, `st_objective`, `st_cvi_objective`, `st_cvi_average`, `st_cvi_partition`, `st_cvi_gaussian_runs`, `st_cvi_gaussian_tempered`, `num_data_ignored`.
- **C73** Piecewise kernels: plain times work, batches of times do not — Model/BatchedPiecewise: the class on raw tensors, with the contracts of tf.searchsorted, tf.dynamic_partition, tf.unique_with_counts, tf.gather and the packing of lists of tensors. Spec/BatchedPiecewise: tensors holding lists of numbers, vectors and matrices. Proof: every op on a tensor holding a list is the list operation of the model of C30 (induction over the list of partitions; the partitions add up to the number of times); the failures follow from the shape of the indices alone, for arbitrary kernels.  Theorems: `constructor`, `dimensions`, `unbatched`, `initial_covariance`, `state_space_model`, `batches_raise`, `many_raise`, `single_batch`.
- **C74** Variational and CVI models over a piecewise kernel — Model/PiecewiseVariational: `VariationalGaussianProcess` and `CVIGaussianProcess` with the list-valued methods of a piecewise kernel. Proof: the prior at the data times taken twice is supported on the diagonal and the predictive law is absolutely continuous with respect to it, so predictions at the data times are the marginals of q; the rest as for C33 and C34, with the moments and emissions of C57.  Theorems: `training_marginals`, `vgp_elbo`, `vgp_gaussian`, `vgp_init`, `cvi_dist_q`, `cvi_kalman`, `cvi_update`, `cvi_classic_elbo`, `cvi_k_steps`, `cvi_updates_succeed`, `cvi_exact_sites`, `cvi_one_step`, `cvi_init`.
- **C75** With a log-concave likelihood the variational updates never break down — No new model. Proof: `N(m, w) = N(m, v) * N(0, w - v)` and Jensen's inequality make the variational expectation of a concave function decrease with the variance, hence its derivative is never positive (wherever it exists; where it does not, Mathlib's `deriv` and the claim are 0); sites with nonpositive second parameters are kept by convex combinations (induction over the history), and prior precision minus twice such sites is positive definite. Natural gradient steps: the new natural parameters are a convex combination of proper ones.  Theorems: `gradient`, `cvi`, `cvi_init`, `piecewise_cvi`, `sparse_cvi`, `spatio_temporal`, `natgrad`, `svgp_natgrad`.
- **C76** With a strictly log-concave likelihood power EP never breaks down — No new model. Proof: two independent copies of the cavity times the likelihood, rotated to half-sum and half-difference, give the variance as the average of a function of the difference under an even, decreasing density: a strictly concave log density makes it smaller than the cavity variance (Lemmas/LogConcavePEP). With C37's moments the second derivative of the log normaliser is (V - v)/v^2 < 0 and the site is -V^-1 + v^-1 over 2, negative; induction over the schedule with C37_cavity_exists, C37_update, C47_cavity_exists, C47_update.  Theorems: `site`, `pep`, `pep_init`, `sparse_pep`.
- **C77** With a log-concave likelihood the variational objective has exactly one optimum, and it is the fixed point of update_sites — No new model. Proof: along the optimal coupling of two Gaussians (square roots of the covariances) the average of a concave function is concave, which gives a tangent inequality for variational expectations; a transport inequality bounds the weighted cost of that coupling by the divergence when the precision is that of the prior plus rank one terms, as it is at a stationary point (C56, C69) (Lemmas/ElboConcave, Lemmas/GlobalOptimum). Existence: the sublevel sets of the loss in (mean, covariance) are compact (tangent inequality for the likelihood terms, trace minus log determinant for the covariance) (Lemmas/OptimumExists). CVI: fixed points are stationary points (C56).  Theorems: `vgp`, `svgp`, `cvi`, `sparse_cvi`, `vgp_exists`, `svgp_exists`, `cvi_exists`, `sparse_cvi_exists`.
- **C78** The optimal Markov approximation loses nothing: it is the optimal Gaussian approximation of the Gaussian process, whatever the state-space representation — No new model; the bound of a law of function values and the conditioned Gaussian process are in Spec/FullGaussian. Proof: at the optimum dist_q has the natural parameters of the prior plus one site per output (C56), so its divergence from the prior is that of the outputs and its optimality conditions are those of the dense problem, where the tangent and transport inequalities of C77 hold for every Gaussian (Lemmas/FullGaussian). Predictions: dist_q is the Bayes posterior of the prior for the quadratic sites, in state space and in function space; posteriors are unique (C23). Inducing points: data processing inequality.  Theorems: `vgp`, `predict`, `exists`, `cvi`, `same_covariance`, `inducing`.
- **C79** Hyperparameter gradients at the variational optimum: the optimal bound is differentiable, with the gradient of the objective at fixed dist_q or fixed sites — No new model. Proof: the largest bound is squeezed between the bounds of two Gaussian laws (Lemmas/Envelope): below, the bound at the moved hyperparameters of the old optimal law; above, by the tangent inequality of C77 at the old optimum, the free energy of the old Gaussian sites; both are differentiable with the same derivative, by completing squares and traces. Fixed dist_q: the difference of best and fixed bound has a minimum. CVI: elbo() is the evidence of the Gaussian sites; at a fixed point the sites are the gradients of the variational expectations, so the chain rule cancels the motion of the marginals in classic_elbo().  Theorems: `best`, `cvi`, `exists`, `fixed_q`, `cvi_best`.
- **C80** Training by site updates depends on the data and the covariance function only — No new model. Proof: eliminating the state, the site-updated chain is positive definite exactly if Gram inverse plus site precisions is (Schur complements), its law at the data is the Gaussian with that precision, and its divergence from the prior is that of the function values; so marginals, cavities, objectives and predictions are functions of the Gram matrix, the cross covariances and the sites, relabelled by a permutation. Induction over the calls.  Theorems: `update`, `history`, `results`, `training`, `translation`, `reversal`, `units`, `same_covariance`, `pep_update`, `pep_history`, `pep_energy`, `pep_training`, `pep_translation`, `pep_reversal`, `pep_units`, `pep_same_covariance`.
- **C81** With a log-concave likelihood and a small learning rate, CVI training converges to the optimum — No new model; SmoothVarExp is a hypothesis on the likelihood. Proof: with the state eliminated (C80), update_sites() moves the sites theta to theta + r (target(theta) - theta); the derivative of the bound along that direction is a positive definite quadratic form of it (Fisher metric; Schur product), so on the compact superlevel set of the start a Taylor bound gives ascent for small r; the increments are summable, limit points are fixed, the fixed point is unique and globally optimal (C77), so the run converges. Missing: an explicit value of the learning rate.  Theorems: `converges`, `predictions`, `training`.
- **C82** With a log-concave likelihood and a small rate, natural gradient training converges to the optimum — No new model. Proof: in natural parameters a step of rate gamma on the gradient of C56/C69 is x + gamma (target(x) - x); the derivative of the bound along that direction is its squared Fisher length (plus the squared asymmetry, zero on the path), target keeps precisions positive definite and block tridiagonal because the variance derivatives are nonpositive (C75), superlevel sets of the bound are compact (KL controls mean, covariance and determinant; tangent lines control the likelihood), fixed points are unique and globally optimal (C77), so the ascent lemma of C81 applies. Predictions are continuous in the moments. Sparse CVI by C56. Missing: momentum, minibatches that change between steps, an explicit rate.  Theorems: `vgp`, `svgp`, `sparse_cvi`.
- **C83** Training over a piecewise kernel: natural gradients, CVI updates, the optimum and convergence — Model/PiecewiseVariational.lean, Model/NatGrad.lean; Props/PiecewiseTraining.lean. The bound over a piecewise kernel as KL minus variational expectations of linear functionals of the states (C57/C74: predictions at the data are the marginals of q), so that the gradient theorem of C56, the stationarity theorem of C77 and the convergence theorem of C82, all stated on state space models, apply; the CVI update is the natural gradient step because both change the natural parameters by the same sites. Predictions are continuous in the moments of the states. Props/PiecewiseSparseTraining.lean does the same for the sparse variational GP, whose predictions are linear in the pair of inducing states around a datum; the predictive variances are positive because a zero variance for one q would be one for the prior, whose variances at all times are positive definite.  Theorems: `svgp_gradient`, `svgp_converges`, `svgp_stationary`, `gradient`, `vgp_converges`, `vgp_stationary`, `same_bound`, `step`, `steps`, `cvi_converges`, `fixed_point`, `cvi_optimum`.
- **C84** Natural gradients of the sparse variational GP on random minibatches: training never fails, is unbiased, and converges under decaying rates — Model/SVGP.lean, Model/NatGrad.lean; Spec/StochasticTraining.lean (the training loop, the average over all sequences of minibatches, the optimum), Lemmas/StochasticTraining.lean, Lemmas/HullBound.lean, Props/StochasticNatGrad.lean. C69: the objective of a minibatch is a constant minus the KL divergence to its optimum, so one step moves the natural parameters the fraction gamma towards that optimum. The minibatch objective is an average of single datum objectives, hence (uniqueness of gradients) so are the natural parameters of the optima; averages over sequences split off the last minibatch, and the cross terms vanish. The recursion for the scatter gives the limits (a Robbins-Monro lemma). For the objective: all iterates lie in the convex hull of finitely many proper natural parameters, which is compact, so their moments are bounded and the KL divergence is at most a constant times the distance of the natural parameters.  Theorems: `runs`, `mean`, `scatter`, `converges`, `constant`, `averaging_rates`, `running_average`, `one_epoch`, `cyclic`, `objective`, `predict`.

## 5. What is modelled and what is not

For every function of the package (abstract methods, which have no body, are left out): the Lean definitions citing its lines. Functions in the second list have no counterpart.

| file | function (lines) | model |
|---|---|---|
| base.py | `ordered` (27-37) | `Parameters.ordered` |
| block_tri_diag.py | `BlockTriDiagonal.__init__` (45-88) | `Batched.TBTD`, `Batched.init`, `BlockTriDiag.BTD`, `BlockTriDiag.init`, `BlockTriDiag.toT3`, `Shapes.blockTriInit` |
| block_tri_diag.py | `BlockTriDiagonal.as_band` (91-98) | `Batched.asBand`, `BlockTriDiag.BTD`, `BlockTriDiag.asBand` |
| block_tri_diag.py | `BlockTriDiagonal.bandwidth` (101-108) | `Batched.bandwidth`, `BlockTriDiag.BTD`, `BlockTriDiag.bandwidth` |
| block_tri_diag.py | `BlockTriDiagonal.batch_shape` (111-115) | `Batched.batch`, `BlockTriDiag.BTD` |
| block_tri_diag.py | `BlockTriDiagonal.inner_dim` (118-123) | `Batched.inner`, `BlockTriDiag.BTD` |
| block_tri_diag.py | `BlockTriDiagonal.outer_dim` (126-130) | `BlockTriDiag.BTD` |
| block_tri_diag.py | `BlockTriDiagonal.block_diagonal` (133-139) | `BlockTriDiag.BTD` |
| block_tri_diag.py | `BlockTriDiagonal.block_sub_diagonal` (142-148) | `BlockTriDiag.BTD` |
| block_tri_diag.py | `BlockTriDiagonal.to_dense` (150-173) | `Batched.toDense`, `BlockTriDiag.BTD`, `BlockTriDiag.symmetrise`, `BlockTriDiag.toDense`, `BlockTriDiag.unpackBand`, `Tensor.unpackBandT` |
| block_tri_diag.py | `BlockTriDiagonal.dense_mult` (175-199) | `Batched.denseMult`, `BlockTriDiag.BTD`, `BlockTriDiag.denseMult`, `BlockTriDiag.productBandMat`, `Tensor.productBandMatT` |
| block_tri_diag.py | `BlockTriDiagonal._convert_to_band` (206-237) | `Batched.asBand`, `BlockTriDiag.BTD`, `BlockTriDiag.asBand`, `Tensor.blockToBandT` |
| block_tri_diag.py | `BlockTriDiagonal._flatten_right` (239-249) | `Batched.flattenRight`, `BlockTriDiag.BTD`, `BlockTriDiag.flattenRight`, `Shapes.flattenRight` |
| block_tri_diag.py | `BlockTriDiagonal._unflatten_right` (251-259) | `Batched.unflattenRight`, `BlockTriDiag.BTD`, `BlockTriDiag.unflattenRight`, `Shapes.unflattenRight` |
| block_tri_diag.py | `BlockTriDiagonal._assert_compatible_right_shape` (261-287) | `BlockTriDiag.BTD`, `Shapes.assertCompatibleRight` |
| block_tri_diag.py | `LowerTriangularBlockTriDiagonal.__init__` (311-316) | `BlockTriDiag.BTD` |
| block_tri_diag.py | `LowerTriangularBlockTriDiagonal.block_diagonal_of_inverse` (318-337) | `Batched.blockDiagonalOfInverse`, `BlockTriDiag.blockDiagonalOfInverse`, `Tensor.bandToBlockT`, `Tensor.inverseFromCholeskyBandT` |
| block_tri_diag.py | `LowerTriangularBlockTriDiagonal.solve` (339-351) | `Batched.solve`, `BlockTriDiag.solve`, `BlockTriDiag.solveTriangMat`, `Tensor.solveTriangMatT` |
| block_tri_diag.py | `LowerTriangularBlockTriDiagonal.abs_log_det` (353-366) | `Batched.absLogDet`, `BlockTriDiag.absLogDet` |
| block_tri_diag.py | `LowerTriangularBlockTriDiagonal.__add__` (368-380) | `Batched.add`, `BlockTriDiag.add`, `Tensor.plus` |
| block_tri_diag.py | `SymmetricBlockTriDiagonal.__init__` (405-410) | `BlockTriDiag.BTD`, `BlockTriDiag.SymBTD` |
| block_tri_diag.py | `SymmetricBlockTriDiagonal.__add__` (412-421) | `Batched.add`, `BlockTriDiag.SymBTD`, `BlockTriDiag.add` |
| block_tri_diag.py | `SymmetricBlockTriDiagonal.cholesky` (424-436) | `Batched.cholesky`, `BlockTriDiag.SymBTD`, `BlockTriDiag.cholesky`, `Tensor.choleskyBandT` |
| block_tri_diag.py | `SymmetricBlockTriDiagonal.upper_diagonal_lower` (438-545) | `Batched.udlLoop`, `Batched.udlStep`, `Batched.upperDiagonalLower`, `BlockTriDiag.SymBTD`, `BlockTriDiag.udlLoop`, `BlockTriDiag.udlStep` … |
| block_tri_diag.py | `_banded_to_block_tri` (549-592) | `Batched.bandedToBlockTri`, `BlockTriDiag.bandedToBlockTri`, `Tensor.bandToBlockT` |
| conditionals.py | `conditional_predict` (29-83) | `BatchedPosterior.tensorConditionalPredict`, `Conditionals.conditionalPredict`, `PiecewiseModels.conditionalPredict` |
| conditionals.py | `conditional_statistics` (87-118) | `BatchedPosterior.tensorConditionalStatistics`, `Conditionals.conditionalStatistics`, `PiecewiseModels.conditionalStatistics` |
| conditionals.py | `_conditional_statistics_from_transitions` (122-203) | `BatchedPosterior.tensorCondStatsFromTransitions`, `Conditionals.CondStats`, `Conditionals.condPrecisionFromTransitions`, `Conditionals.condStatsFromTransitions` |
| conditionals.py | `_conditional_statistics` (207-254) | `BatchedPosterior.add`, `BatchedPosterior.tensorConditionalStatisticsAux`, `Conditionals.augmentedTimes`, `Conditionals.conditionalStatisticsAux`, `PiecewiseModels.conditionalStatisticsAux` |
| conditionals.py | `cyclic_reduction_conditional_statistics` (258-376) | `Conditionals.cyclicReduction`, `Conditionals.cyclicReductionConditionalStatistics`, `Conditionals.cyclicSliceF`, `Conditionals.cyclicSliceG` |
| conditionals.py | `base_conditional_predict` (380-420) | `BatchedPosterior.tensorBaseConditionalPredict`, `Conditionals.baseConditionalPredict` |
| conditionals.py | `pairwise_marginals` (424-485) | `BatchedPosterior.tensorPairwiseMarginals`, `Conditionals.pairwiseMarginals` |
| emission_model.py | `EmissionModel.__init__` (40-51) | `BatchedKernels.tensorEmission`, `Shapes.emissionInit` |
| emission_model.py | `EmissionModel.output_dim` (69-73) | `Shapes.emissionOutputDim` |
| emission_model.py | `EmissionModel.project_state_marginals_to_f` (93-113) | `Batched.tensorProjectState`, `Emission.projectStateMarginalsToFDiag`, `Emission.projectStateMarginalsToFFull` |
| emission_model.py | `EmissionModel.project_state_to_f` (115-128) | `Batched.tensorProjectState`, `Emission.projectStateToF`, `Shapes.projectStateCheck` |
| emission_model.py | `EmissionModel.project_state_covariance_to_f` (130-153) | `Batched.tensorProjectCovariance`, `Emission.projectStateCovarianceToFDiag`, `Emission.projectStateCovarianceToFFull` |
| emission_model.py | `ComposedPairEmissionModel.__init__` (177-193) | `BatchedKernels.tensorFactorAnalysis`, `Emission.composedEmission` |
| emission_model.py | `ComposedPairEmissionModel.project_state_to_g` (241-250) | `Emission.projectStateToG` |
| emission_model.py | `ComposedPairEmissionModel.project_state_covariance_to_g` (252-266) | `Emission.projectStateCovarianceToGFull` |
| emission_model.py | `StackEmissionModel.__init__` (301-316) | `Shapes.stackEmissionInit` |
| emission_model.py | `StackEmissionModel.output_dim` (319-323) | `Shapes.kalmanStackInit`, `Shapes.stackOutputDim` |
| emission_model.py | `StackEmissionModel.project_state_to_f` (325-344) | `BatchedPosterior.tensorStackProjectState`, `Emission.stackProjectStateToF`, `Stack.predictFDiag` |
| emission_model.py | `StackEmissionModel.project_state_covariance_to_f` (346-378) | `BatchedPosterior.tensorStackProjectCovariance`, `Emission.stackProjectStateCovarianceToFDiag`, `Stack.predictF`, `Stack.predictFDiag` |
| gauss_markov.py | `GaussMarkovDistribution.precision` (73-77) | `StateSpaceModel.precision` |
| gauss_markov.py | `GaussMarkovDistribution.marginals` (108-117) | `Batched.marginals`, `StateSpaceModel.marginals` |
| gauss_markov.py | `check_compatible` (204-217) | `Shapes.checkCompatible` |
| kalman_filter.py | `BaseKalmanFilter.__init__` (58-66) | `Batched.TKF`, `KalmanFilter.KF` |
| kalman_filter.py | `BaseKalmanFilter._k_inv_prior` (81-83) | `Shapes.kalmanEinsum` |
| kalman_filter.py | `BaseKalmanFilter._k_inv_post` (86-101) | `Batched.kInvPost`, `KalmanFilter.kInvPost`, `Shapes.kalmanEinsum` |
| kalman_filter.py | `BaseKalmanFilter._log_det_observation_precision` (104-107) | `Batched.tensorKalmanFilter`, `KalmanFilter.kalmanFilter` |
| kalman_filter.py | `BaseKalmanFilter.posterior_state_space_model` (109-182) | `Batched.posteriorSSM`, `KalmanFilter.posteriorSSM` |
| kalman_filter.py | `BaseKalmanFilter.log_likelihood` (184-255) | `Batched.logLikelihood`, `KalmanFilter.logLikelihood` |
| kalman_filter.py | `BaseKalmanFilter._back_project_y_to_state` (257-271) | `Batched.backProject`, `KalmanFilter.backProject` |
| kalman_filter.py | `KalmanFilter.__init__` (301-339) | `Batched.tensorKalmanFilter`, `KalmanFilter.kalmanFilter`, `Shapes.kalmanInit`, `Shapes.kalmanStackInit` |
| kalman_filter.py | `KalmanFilter._r_inv` (342-348) | `Batched.tensorKalmanFilter`, `KalmanFilter.kalmanFilter` |
| kalman_filter.py | `KalmanFilter.observations` (351-353) | `Batched.tensorKalmanFilter`, `KalmanFilter.kalmanFilter` |
| kalman_filter.py | `UnivariateGaussianSitesNat.__init__` (396-414) | `KalmanFilter.UnivariateSites`, `Shapes.sitesInit` |
| kalman_filter.py | `UnivariateGaussianSitesNat.means` (417-421) | `KalmanFilter.UnivariateSites`, `KalmanFilter.means` |
| kalman_filter.py | `UnivariateGaussianSitesNat.precisions` (424-428) | `KalmanFilter.UnivariateSites`, `KalmanFilter.precisions` |
| kalman_filter.py | `UnivariateGaussianSitesNat.log_det_precisions` (431-433) | `KalmanFilter.UnivariateSites`, `KalmanFilter.logDetPrecisions` |
| kalman_filter.py | `KalmanFilterWithSites.__init__` (465-482) | `Batched.tensorKalmanFilterWithSites`, `KalmanFilter.kalmanFilterWithSites`, `Shapes.kalmanSitesInit` |
| kalman_filter.py | `KalmanFilterWithSites._r_inv` (485-487) | `Batched.tensorKalmanFilterWithSites`, `KalmanFilter.kalmanFilterWithSites` |
| kalman_filter.py | `KalmanFilterWithSites._log_det_observation_precision` (490-492) | `Batched.tensorKalmanFilterWithSites`, `KalmanFilter.kalmanFilterWithSites` |
| kalman_filter.py | `KalmanFilterWithSites.observations` (495-497) | `Batched.tensorKalmanFilterWithSites`, `KalmanFilter.kalmanFilterWithSites` |
| kalman_filter.py | `KalmanFilterWithSparseSites.__init__` (507-521) | `KalmanFilter.sparseFilter` |
| kalman_filter.py | `KalmanFilterWithSparseSites._r_inv` (524-529) | `KalmanFilter.sparseFilter` |
| kalman_filter.py | `KalmanFilterWithSparseSites._drop_batch_shape` (531-539) | `KalmanFilter.sparseFilter`, `Shapes.dropBatchShape` |
| kalman_filter.py | `KalmanFilterWithSparseSites._log_det_observation_precision` (542-547) | `KalmanFilter.sparseFilter` |
| kalman_filter.py | `KalmanFilterWithSparseSites.observations` (550-552) | `KalmanFilter.sparseFilter` |
| kalman_filter.py | `KalmanFilterWithSparseSites._r_inv_data` (555-559) | `KalmanFilter.sparseFilter` |
| kalman_filter.py | `KalmanFilterWithSparseSites.sparse_to_dense` (561-565) | `KalmanFilter.scatterNd`, `KalmanFilter.sparseFilter` |
| kalman_filter.py | `KalmanFilterWithSparseSites.dense_to_sparse` (567-577) | `KalmanFilter.sparseFilter` |
| kalman_filter.py | `KalmanFilterWithSparseSites.log_likelihood` (579-626) | `KalmanFilter.sparseFilter`, `KalmanFilter.sparseLogLikelihood` |
| kernels/constant.py | `Constant.__init__` (46-57) | `BatchedKernels.tensorConstant`, `Kernels.constant`, `Parameters.positive` |
| kernels/constant.py | `Constant.state_dim` (60-65) | `BatchedKernels.tensorConstant`, `Kernels.constant` |
| kernels/constant.py | `Constant.state_transitions` (67-84) | `BatchedKernels.tensorConstant`, `BatchedKernels.tensorConstantTransitions`, `Kernels.constant` |
| kernels/constant.py | `Constant.process_covariances` (86-102) | `BatchedKernels.tensorConstant`, `BatchedKernels.tensorConstantProcessCov`, `Kernels.constant` |
| kernels/constant.py | `Constant.transition_statistics` (104-123) | `BatchedKernels.tensorConstant`, `Kernels.constant` |
| kernels/constant.py | `Constant.feedback_matrix` (126-134) | `BatchedKernels.tensorConstant`, `Kernels.constant` |
| kernels/constant.py | `Constant.steady_state_covariance` (137-146) | `BatchedKernels.tensorConstant`, `Kernels.constant` |
| kernels/constant.py | `Constant.variance` (149-153) | `BatchedKernels.tensorConstant`, `Kernels.constant` |
| kernels/latent_exp_generated.py | `LatentExponentiallyGenerated.__init__` (57-72) | `BatchedKernels.tensorLeg`, `Kernels.leg`, `Shapes.legInit` |
| kernels/latent_exp_generated.py | `LatentExponentiallyGenerated.state_dim` (75-77) | `BatchedKernels.tensorLeg`, `Kernels.leg` |
| kernels/latent_exp_generated.py | `LatentExponentiallyGenerated.state_transitions` (79-99) | `BatchedKernels.tensorLeg`, `BatchedKernels.tensorLegTransitions`, `Kernels.leg` |
| kernels/latent_exp_generated.py | `LatentExponentiallyGenerated.feedback_matrix` (102-115) | `BatchedKernels.tensorLeg`, `BatchedKernels.tensorLegFeedback`, `Kernels.leg`, `Kernels.legFeedback` |
| kernels/latent_exp_generated.py | `LatentExponentiallyGenerated.steady_state_covariance` (118-125) | `BatchedKernels.tensorLeg`, `Kernels.leg` |
| kernels/latent_exp_generated.py | `LatentExponentiallyGenerated.process_covariances` (127-142) | `BatchedKernels.tensorLeg`, `Kernels.leg` |
| kernels/matern.py | `Matern12.__init__` (44-59) | `BatchedKernels.tensorMatern12`, `Kernels.matern12`, `Parameters.Transform`, `Parameters.positive` |
| kernels/matern.py | `Matern12.state_dim` (62-64) | `BatchedKernels.tensorMatern12`, `Kernels.matern12` |
| kernels/matern.py | `Matern12.state_transitions` (66-86) | `BatchedKernels.checkedTransitions`, `BatchedKernels.tensorMatern12`, `Kernels.matern12` |
| kernels/matern.py | `Matern12.feedback_matrix` (89-99) | `BatchedKernels.checkedTransitions`, `BatchedKernels.tensorMatern12`, `Kernels.matern12` |
| kernels/matern.py | `Matern12.steady_state_covariance` (102-110) | `BatchedKernels.tensorMatern12`, `Kernels.matern12` |
| kernels/matern.py | `Matern12.lengthscale` (113-118) | `BatchedKernels.tensorMatern12`, `Kernels.matern12` |
| kernels/matern.py | `Matern12.variance` (121-126) | `BatchedKernels.tensorMatern12`, `Kernels.matern12` |
| kernels/matern.py | `OrnsteinUhlenbeck.__init__` (149-164) | `BatchedKernels.tensorOrnsteinUhlenbeck`, `Kernels.ornsteinUhlenbeck`, `Parameters.positive` |
| kernels/matern.py | `OrnsteinUhlenbeck.state_dim` (167-169) | `BatchedKernels.tensorOrnsteinUhlenbeck`, `Kernels.ornsteinUhlenbeck` |
| kernels/matern.py | `OrnsteinUhlenbeck.state_transitions` (171-191) | `BatchedKernels.tensorOrnsteinUhlenbeck`, `Kernels.ornsteinUhlenbeck` |
| kernels/matern.py | `OrnsteinUhlenbeck.feedback_matrix` (194-204) | `BatchedKernels.tensorOrnsteinUhlenbeck`, `Kernels.ornsteinUhlenbeck` |
| kernels/matern.py | `OrnsteinUhlenbeck.steady_state_covariance` (207-217) | `BatchedKernels.tensorOrnsteinUhlenbeck`, `Kernels.ornsteinUhlenbeck` |
| kernels/matern.py | `OrnsteinUhlenbeck.decay` (220-225) | `BatchedKernels.tensorOrnsteinUhlenbeck`, `Kernels.ornsteinUhlenbeck` |
| kernels/matern.py | `OrnsteinUhlenbeck.diffusion` (228-233) | `BatchedKernels.tensorOrnsteinUhlenbeck`, `Kernels.ornsteinUhlenbeck` |
| kernels/matern.py | `Matern32.__init__` (272-287) | `BatchedKernels.tensorMatern32`, `Kernels.matern32`, `Parameters.positive` |
| kernels/matern.py | `Matern32._lambda` (290-292) | `BatchedKernels.tensorMatern32`, `Kernels.matern32` |
| kernels/matern.py | `Matern32.state_dim` (295-297) | `BatchedKernels.tensorMatern32`, `Kernels.matern32` |
| kernels/matern.py | `Matern32.state_transitions` (299-324) | `BatchedKernels.tensorMatern32`, `BatchedKernels.tensorTransitions32`, `Kernels.matern32` |
| kernels/matern.py | `Matern32.feedback_matrix` (327-341) | `BatchedKernels.tensorMatern32`, `Kernels.feedback32`, `Kernels.matern32` |
| kernels/matern.py | `Matern32.steady_state_covariance` (344-356) | `BatchedKernels.tensorMatern32`, `Kernels.matern32` |
| kernels/matern.py | `Matern32.lengthscale` (359-364) | `BatchedKernels.tensorMatern32`, `Kernels.matern32` |
| kernels/matern.py | `Matern32.variance` (367-372) | `BatchedKernels.tensorMatern32`, `Kernels.matern32` |
| kernels/matern.py | `Matern52.__init__` (409-422) | `BatchedKernels.tensorMatern52`, `Kernels.matern52`, `Parameters.positive` |
| kernels/matern.py | `Matern52._lambda` (425-427) | `BatchedKernels.tensorMatern52`, `Kernels.matern52` |
| kernels/matern.py | `Matern52.state_dim` (430-432) | `BatchedKernels.tensorMatern52`, `Kernels.matern52` |
| kernels/matern.py | `Matern52.state_transitions` (434-460) | `BatchedKernels.tensorMatern52`, `BatchedKernels.tensorTransitions52`, `Kernels.matern52` |
| kernels/matern.py | `Matern52.feedback_matrix` (463-483) | `BatchedKernels.tensorMatern52`, `Kernels.feedback52`, `Kernels.matern52` |
| kernels/matern.py | `Matern52.steady_state_covariance` (486-501) | `BatchedKernels.tensorMatern52`, `Kernels.matern52` |
| kernels/matern.py | `Matern52.lengthscale` (504-509) | `BatchedKernels.tensorMatern52`, `Kernels.matern52` |
| kernels/matern.py | `Matern52.variance` (512-517) | `BatchedKernels.tensorMatern52`, `Kernels.matern52` |
| kernels/periodic.py | `HarmonicOscillator.__init__` (69-88) | `BatchedKernels.tensorHarmonicOscillator`, `Kernels.harmonicOscillator`, `Parameters.positive` |
| kernels/periodic.py | `HarmonicOscillator._lambda` (91-93) | `BatchedKernels.tensorHarmonicOscillator`, `Kernels.harmonicOscillator` |
| kernels/periodic.py | `HarmonicOscillator.state_dim` (96-101) | `BatchedKernels.tensorHarmonicOscillator`, `Kernels.harmonicOscillator` |
| kernels/periodic.py | `HarmonicOscillator.state_transitions` (103-133) | `BatchedKernels.tensorHarmonicOscillator`, `BatchedKernels.tensorHarmonicTransitions`, `Kernels.harmonicOscillator` |
| kernels/periodic.py | `HarmonicOscillator.process_covariances` (135-154) | `BatchedKernels.tensorHarmonicOscillator`, `Kernels.harmonicOscillator` |
| kernels/periodic.py | `HarmonicOscillator.feedback_matrix` (157-171) | `BatchedKernels.tensorHarmonicOscillator`, `Kernels.harmonicOscillator` |
| kernels/periodic.py | `HarmonicOscillator.steady_state_covariance` (174-187) | `BatchedKernels.tensorHarmonicOscillator`, `Kernels.harmonicOscillator` |
| kernels/periodic.py | `HarmonicOscillator.variance` (190-195) | `BatchedKernels.tensorHarmonicOscillator`, `Kernels.harmonicOscillator` |
| kernels/periodic.py | `HarmonicOscillator.period` (198-203) | `BatchedKernels.tensorHarmonicOscillator`, `Kernels.harmonicOscillator` |
| kernels/piecewise_stationary.py | `PiecewiseKernel.__init__` (49-79) | `BatchedPiecewise.TPiecewise`, `BatchedPiecewise.init`, `BatchedPiecewise.splitInput`, `Piecewise.Piecewise`, `Piecewise.init` |
| kernels/piecewise_stationary.py | `PiecewiseKernel.generate_emission_model` (89-109) | `BatchedPiecewise.collect`, `BatchedPiecewise.emission`, `Piecewise.emissions`, `PiecewiseVariational.emissions` |
| kernels/piecewise_stationary.py | `PiecewiseKernel.initial_covariance` (111-124) | `BatchedPiecewise.initialCovariance`, `Piecewise.initialCovariance`, `PiecewiseModels.initialCovarianceAtFirst` |
| kernels/piecewise_stationary.py | `PiecewiseKernel.split_time_indices` (126-143) | `BatchedPiecewise.splitTimeIndices`, `Piecewise.splitTimeIndices` |
| kernels/piecewise_stationary.py | `PiecewiseKernel.split_input` (145-160) | `BatchedPiecewise.splitInput`, `Piecewise.splitInput` |
| kernels/piecewise_stationary.py | `PiecewiseKernel.steady_state_covariances` (162-178) | `BatchedPiecewise.gatherKernels`, `BatchedPiecewise.steadyStateCovariances`, `Piecewise.gatherKernels`, `Piecewise.steadyStateCovariances` |
| kernels/piecewise_stationary.py | `PiecewiseKernel.state_transitions` (180-204) | `BatchedPiecewise.collect`, `BatchedPiecewise.stateTransitions`, `Piecewise.applyKernels`, `Piecewise.stateTransitions` |
| kernels/piecewise_stationary.py | `PiecewiseKernel.transition_statistics` (206-228) | `BatchedPiecewise.transitionStatistics`, `Piecewise.transitionStatistics` |
| kernels/piecewise_stationary.py | `PiecewiseKernel.feedback_matrices` (230-246) | `BatchedPiecewise.feedbackMatrices`, `BatchedPiecewise.gatherKernels`, `Piecewise.feedbackMatrices`, `Piecewise.gatherKernels` |
| kernels/piecewise_stationary.py | `PiecewiseKernel.state_offsets` (248-271) | `BatchedPiecewise.collect`, `BatchedPiecewise.stateOffsets`, `Piecewise.applyKernels`, `Piecewise.stateOffsets` |
| kernels/piecewise_stationary.py | `PiecewiseKernel.state_means` (273-288) | `BatchedPiecewise.gatherKernels`, `BatchedPiecewise.stateMeans`, `Piecewise.gatherKernels`, `Piecewise.stateMeans` |
| kernels/sde_kernel.py | `SDEKernel.__init__` (122-131) | `BatchedKernels.TKernel`, `BatchedKernels.tensorKernelInit`, `BatchedPiecewise.init`, `BatchedStack.tensorStack`, `Kernels.Stationary`, `Kernels.kernelInit` … |
| kernels/sde_kernel.py | `SDEKernel.output_dim` (134-138) | `BatchedKernels.TKernel`, `Kernels.Stationary` |
| kernels/sde_kernel.py | `SDEKernel.build_finite_distribution` (140-151) | `BatchedKernels.TKernel`, `Kernels.Stationary` |
| kernels/sde_kernel.py | `SDEKernel.state_space_model` (153-171) | `BatchedKernels.TKernel`, `BatchedKernels.stateSpaceModel`, `BatchedPiecewise.stateSpaceModel`, `Kernels.Stationary`, `Kernels.stateSpaceModel`, `Piecewise.stateSpaceModel` … |
| kernels/sde_kernel.py | `SDEKernel.generate_emission_model` (173-211) | `BatchedKernels.TKernel`, `BatchedKernels.tensorSdeEmission`, `Kernels.Stationary`, `Kernels.sdeEmission` |
| kernels/sde_kernel.py | `SDEKernel.initial_mean` (213-224) | `BatchedKernels.TKernel`, `BatchedPiecewise.stateSpaceModel`, `Kernels.Stationary`, `Piecewise.stateSpaceModel`, `PiecewiseModels.predictState` |
| kernels/sde_kernel.py | `SDEKernel.transition_statistics_from_time_points` (253-264) | `BatchedKernels.TKernel`, `BatchedKernels.transitionStatisticsFromTimePoints`, `Kernels.Stationary`, `Kernels.stateSpaceModel`, `Stack.stateSpaceModel` |
| kernels/sde_kernel.py | `SDEKernel.process_covariances` (312-330) | `BatchedKernels.TKernel`, `Kernels.Stationary`, `Kernels.Stationary.base` |
| kernels/sde_kernel.py | `SDEKernel.jitter_matrix` (333-340) | `BatchedKernels.TKernel`, `BatchedKernels.tensorJitterMatrix`, `Kernels.Stationary`, `Kernels.jitterMatrix` |
| kernels/sde_kernel.py | `SDEKernel.__add__` (342-345) | `BatchedKernels.TKernel`, `Kernels.SDEKernel.add`, `Kernels.Stationary`, `Stack.add` |
| kernels/sde_kernel.py | `SDEKernel.__mul__` (347-350) | `BatchedKernels.TKernel`, `Kernels.SDEKernel.mul`, `Kernels.Stationary`, `Stack.mul` |
| kernels/sde_kernel.py | `StationaryKernel.__init__` (364-378) | `BatchedKernels.TKernel`, `BatchedKernels.TKernel.base`, `Kernels.Stationary`, `Kernels.Stationary.base` |
| kernels/sde_kernel.py | `StationaryKernel.initial_mean` (380-391) | `BatchedKernels.TKernel`, `BatchedKernels.TKernel.base`, `BatchedKernels.tensorInitialMean`, `Kernels.Stationary`, `Kernels.Stationary.base`, `Kernels.stackSlice` |
| kernels/sde_kernel.py | `StationaryKernel.set_state_mean` (393-400) | `BatchedKernels.TKernel`, `BatchedKernels.TKernel.base`, `BatchedKernels.setStateMean`, `Kernels.Stationary`, `Kernels.Stationary.base`, `Kernels.setStateMean` |
| kernels/sde_kernel.py | `StationaryKernel.initial_covariance` (402-419) | `BatchedKernels.TKernel`, `BatchedKernels.TKernel.base`, `BatchedKernels.initialCovariance`, `Kernels.Stationary`, `Kernels.Stationary.base`, `Kernels.initialCovariance` |
| kernels/sde_kernel.py | `StationaryKernel.transition_statistics` (421-446) | `BatchedKernels.TKernel`, `BatchedKernels.TKernel.base`, `BatchedKernels.tensorTransitionStatistics`, `Conditionals.Stationary.trans`, `Kernels.Stationary`, `Kernels.Stationary.base` … |
| kernels/sde_kernel.py | `StationaryKernel.state_offsets` (460-475) | `BatchedKernels.TKernel`, `BatchedKernels.TKernel.base`, `BatchedKernels.tensorStateOffsets`, `Kernels.Stationary`, `Kernels.Stationary.base`, `Kernels.statOffsets` |
| kernels/sde_kernel.py | `StationaryKernel.state_mean` (490-496) | `BatchedKernels.TKernel`, `BatchedKernels.TKernel.base`, `Kernels.Stationary`, `Kernels.Stationary.base` |
| kernels/sde_kernel.py | `ConcatKernel.__init__` (561-575) | `BatchedKernels.childOutputDim`, `BatchedKernels.tensorCombineInit`, `BatchedKernels.tensorConcatKernel`, `Kernels.combineInit`, `Kernels.concatKernel` |
| kernels/sde_kernel.py | `ConcatKernel.state_dim` (578-583) | `BatchedKernels.tensorConcatKernel`, `Kernels.concatKernel`, `SpatioTemporal.stDim` |
| kernels/sde_kernel.py | `ConcatKernel.kernels` (586-590) | `BatchedKernels.tensorConcatKernel`, `Kernels.concatKernel` |
| kernels/sde_kernel.py | `ConcatKernel.state_transitions` (592-610) | `BatchedKernels.concatTransitions`, `BatchedKernels.tensorConcatKernel`, `Kernels.concatKernel` |
| kernels/sde_kernel.py | `ConcatKernel.initial_mean` (612-629) | `BatchedKernels.concatInitialMean`, `BatchedKernels.tensorConcatKernel`, `Kernels.concatKernel` |
| kernels/sde_kernel.py | `ConcatKernel.feedback_matrix` (632-642) | `BatchedKernels.concatProperty`, `BatchedKernels.tensorConcatKernel`, `Kernels.concatKernel` |
| kernels/sde_kernel.py | `ConcatKernel.steady_state_covariance` (645-656) | `BatchedKernels.concatProperty`, `BatchedKernels.tensorConcatKernel`, `Kernels.concatKernel` |
| kernels/sde_kernel.py | `Sum.generate_emission_model` (670-687) | `BatchedKernels.tensorSum`, `Kernels.sumKernel` |
| kernels/sde_kernel.py | `Product.__init__` (738-751) | `BatchedKernels.tensorCombineInit`, `BatchedKernels.tensorProduct`, `Kernels.combineInit`, `Kernels.productKernel` |
| kernels/sde_kernel.py | `Product.state_dim` (754-759) | `BatchedKernels.tensorProduct`, `Kernels.productKernel` |
| kernels/sde_kernel.py | `Product.kernels` (762-764) | `BatchedKernels.tensorProduct`, `Kernels.productKernel` |
| kernels/sde_kernel.py | `Product.state_transitions` (766-781) | `BatchedKernels.productProperty`, `BatchedKernels.tensorProduct`, `Kernels.productKernel` |
| kernels/sde_kernel.py | `Product.feedback_matrix` (784-793) | `BatchedKernels.productProperty`, `BatchedKernels.tensorProduct`, `Kernels.productKernel` |
| kernels/sde_kernel.py | `Product.steady_state_covariance` (796-806) | `BatchedKernels.productProperty`, `BatchedKernels.tensorProduct`, `Kernels.productKernel` |
| kernels/sde_kernel.py | `Product.generate_emission_model` (808-822) | `BatchedKernels.productProperty`, `BatchedKernels.tensorProduct`, `Kernels.productKernel` |
| kernels/sde_kernel.py | `IndependentMultiOutput.__init__` (837-845) | `BatchedKernels.tensorIndependentMultiOutput`, `Kernels.independentMultiOutput` |
| kernels/sde_kernel.py | `IndependentMultiOutput.generate_emission_model` (847-877) | `BatchedKernels.padLoop`, `BatchedKernels.tensorIndependentMultiOutput`, `BatchedKernels.tensorMultiOutputEmission`, `Kernels.independentMultiOutput`, `SpatioTemporal.copyRows`, `Utils.padConcatRows` … |
| kernels/sde_kernel.py | `FactorAnalysisKernel.__init__` (896-924) | `BatchedKernels.tensorFactorAnalysis`, `Kernels.factorAnalysis` |
| kernels/sde_kernel.py | `FactorAnalysisKernel.generate_emission_model` (926-941) | `BatchedKernels.tensorFactorAnalysis`, `Kernels.factorAnalysis` |
| kernels/sde_kernel.py | `StackKernel.__init__` (979-997) | `BatchedStack.stackStateDim`, `BatchedStack.stackTKernel`, `BatchedStack.tensorStack`, `Kernels.combineInit`, `Kernels.stackSlice`, `Stack.StackKernel` … |
| kernels/sde_kernel.py | `StackKernel.state_dim` (1000-1005) | `BatchedStack.stackStateDim`, `BatchedStack.stackTKernel`, `Kernels.stackSlice`, `Stack.stateDim` |
| kernels/sde_kernel.py | `StackKernel.kernels` (1008-1012) | `BatchedStack.stackTKernel`, `Kernels.stackSlice` |
| kernels/sde_kernel.py | `StackKernel._check_batch_shape_is_compatible` (1014-1034) | `BatchedKernels.checkBatchShape`, `BatchedStack.stackTKernel`, `Kernels.stackSlice` |
| kernels/sde_kernel.py | `StackKernel.state_transitions` (1036-1078) | `BatchedStack.stackTKernel`, `BatchedStack.stackTransitions`, `Kernels.stackSlice`, `Stack.slice` |
| kernels/sde_kernel.py | `StackKernel.initial_mean` (1080-1098) | `BatchedStack.stackTKernel`, `Kernels.stackSlice`, `Stack.slice` |
| kernels/sde_kernel.py | `StackKernel.state_offsets` (1100-1137) | `BatchedStack.stackOffsets`, `BatchedStack.stackTKernel`, `Kernels.stackSlice`, `Stack.slice` |
| kernels/sde_kernel.py | `StackKernel.feedback_matrix` (1140-1157) | `BatchedStack.stackFeedback`, `BatchedStack.stackTKernel`, `Kernels.stackSlice`, `Stack.slice` |
| kernels/sde_kernel.py | `StackKernel.steady_state_covariance` (1160-1182) | `BatchedStack.stackPinf`, `BatchedStack.stackTKernel`, `Kernels.stackSlice`, `Stack.slice` |
| kernels/sde_kernel.py | `StackKernel.initial_covariance` (1184-1201) | `BatchedKernels.initialCovariance`, `BatchedStack.stackTKernel`, `Kernels.stackSlice`, `Stack.slice` |
| kernels/sde_kernel.py | `IndependentMultiOutputStack.__init__` (1214-1223) | `BatchedStack.stackTKernel`, `BatchedStack.tensorStack`, `Kernels.stackSlice`, `Stack.StackKernel`, `Stack.init` |
| kernels/sde_kernel.py | `IndependentMultiOutputStack.generate_emission_model` (1225-1254) | `BatchedPosterior.TKernel.projectCovariance`, `BatchedPosterior.TKernel.projectState`, `BatchedStack.stackEmission`, `BatchedStack.stackTKernel`, `Kernels.stackSlice`, `Stack.predictFDiag` |
| kernels/sde_kernel.py | `IndependentMultiOutputStack.__add__` (1256-1265) | `Kernels.stackSlice`, `Stack.add` |
| kernels/sde_kernel.py | `IndependentMultiOutputStack.__mul__` (1267-1276) | `Kernels.stackSlice`, `Stack.mul` |
| likelihoods/likelihoods.py | `PEPScalarLikelihood.__init__` (155-165) | `PEP.PEPLikelihood`, `PEP.pepScalar` |
| likelihoods/likelihoods.py | `PEPScalarLikelihood._scalar_log_prob` (167-173) | `PEP.PEPLikelihood`, `PEP.pepScalar` |
| likelihoods/likelihoods.py | `PEPScalarLikelihood._scalar_alpha_prob` (175-182) | `PEP.PEPLikelihood`, `PEP.pepScalar` |
| likelihoods/likelihoods.py | `PEPScalarLikelihood.log_expected_density` (184-194) | `PEP.PEPLikelihood`, `PEP.pepScalar` |
| likelihoods/likelihoods.py | `PEPScalarLikelihood.grad_log_expected_density` (196-212) | `PEP.PEPLikelihood`, `PEP.pepScalar` |
| likelihoods/likelihoods.py | `PEPScalarLikelihood._conditional_mean` (214-216) | `PEP.PEPLikelihood`, `PEP.pepScalar` |
| likelihoods/likelihoods.py | `PEPScalarLikelihood._conditional_variance` (218-220) | `PEP.PEPLikelihood`, `PEP.pepScalar` |
| likelihoods/likelihoods.py | `PEPGaussian.__init__` (228-234) | `PEP.pepGaussian` |
| likelihoods/likelihoods.py | `PEPGaussian.log_expected_density` (236-251) | `PEP.pepGaussian` |
| likelihoods/likelihoods.py | `PEPGaussian.grad_log_expected_density` (253-265) | `PEP.pepGaussian` |
| likelihoods/likelihoods.py | `PEPGaussian._conditional_mean` (267-269) | `PEP.pepGaussian` |
| likelihoods/likelihoods.py | `PEPGaussian._conditional_variance` (271-273) | `PEP.pepGaussian` |
| likelihoods/likelihoods.py | `check_input_shapes` (277-298) | `Shapes.checkInputShapes` |
| likelihoods/multivariate_gaussian.py | `MultivariateGaussian.__init__` (41-54) | `LikelihoodObjects.MvGaussian`, `LikelihoodObjects.init`, `Parameters.triangular`, `Shapes.multivariateGaussianInit` |
| likelihoods/multivariate_gaussian.py | `MultivariateGaussian.log_probability_density` (63-78) | `LikelihoodObjects.logProb` |
| likelihoods/multivariate_gaussian.py | `MultivariateGaussian.variational_expectations` (80-115) | `LikelihoodObjects.varExp` |
| likelihoods/multivariate_gaussian.py | `MultivariateGaussian.predict_density` (117-146) | `LikelihoodObjects.predictDensity` |
| likelihoods/multivariate_gaussian.py | `MultivariateGaussian.predict_mean_and_var` (148-177) | `LikelihoodObjects.addVariances`, `LikelihoodObjects.predictMeanVar` |
| likelihoods/mutlistage_likelihood.py | `MultiStageLikelihood.__init__` (52-55) | `LikelihoodObjects.MultiStage` |
| likelihoods/mutlistage_likelihood.py | `MultiStageLikelihood._split_f` (57-66) | `LikelihoodObjects.MultiStage` |
| likelihoods/mutlistage_likelihood.py | `MultiStageLikelihood._log_prob` (68-100) | `LikelihoodObjects.logProb` |
| likelihoods/mutlistage_likelihood.py | `MultiStageLikelihood._variational_expectations` (102-142) | `LikelihoodObjects.varExp` |
| likelihoods/mutlistage_likelihood.py | `MultiStageLikelihood.sample_y` (150-179) | `LikelihoodObjects.sampleY` |
| mean_function.py | `ZeroMeanFunction.__call__` (78-87) | `BatchedPosterior.tensorZeroMean`, `MeanFunction.zeroMean` |
| mean_function.py | `LinearMeanFunction.__call__` (105-114) | `BatchedPosterior.tensorLinearMean`, `MeanFunction.linearMean` |
| mean_function.py | `ImpulseMeanFunction.__init__` (167-193) | `BatchedMean.TActionMean`, `BatchedMean.batch`, `BatchedMean.init`, `BatchedMean.stateDim`, `BatchedMean.tensorImpulseMean`, `MeanFunction.impulseMean` … |
| mean_function.py | `ImpulseMeanFunction._a_k` (196-223) | `BatchedMean.actionSolve`, `BatchedMean.tensorImpulseMean`, `MeanFunction.actionSolve`, `MeanFunction.impulseMean` |
| mean_function.py | `ImpulseMeanFunction.__call__` (225-258) | `BatchedMean.impulse`, `BatchedMean.impulseState`, `BatchedMean.tensorImpulseMean`, `MeanFunction.impulseMean` |
| mean_function.py | `StepMeanFunction.__init__` (309-332) | `BatchedMean.TActionMean`, `BatchedMean.batch`, `BatchedMean.init`, `BatchedMean.stateDim`, `BatchedMean.tensorStepMean`, `MeanFunction.stepMean` … |
| mean_function.py | `StepMeanFunction._a_k` (335-345) | `BatchedMean.stepA`, `BatchedMean.tensorStepMean`, `MeanFunction.stepA`, `MeanFunction.stepMean`, `Shapes.actionsInit` |
| mean_function.py | `StepMeanFunction._b_k` (348-375) | `BatchedMean.actionSolve`, `BatchedMean.stepState`, `BatchedMean.tensorStepMean`, `MeanFunction.actionSolve`, `MeanFunction.stepMean` |
| mean_function.py | `StepMeanFunction.__call__` (377-412) | `BatchedMean.step`, `BatchedMean.stepState`, `BatchedMean.tensorStepMean`, `MeanFunction.stepMean` |
| models/gaussian_process_regression.py | `GaussianProcessRegression.__init__` (44-83) | `BatchedPosterior.TGPR`, `BatchedPosterior.init`, `GPR.GPR`, `PiecewiseModels.PWGPR` |
| models/gaussian_process_regression.py | `GaussianProcessRegression._kalman` (118-128) | `BatchedPosterior.kalman`, `GPR.kalman`, `PiecewiseModels.kalman` |
| models/gaussian_process_regression.py | `GaussianProcessRegression.loss` (130-134) | `BatchedPosterior.loss`, `GPR.loss`, `PiecewiseModels.loss` |
| models/gaussian_process_regression.py | `GaussianProcessRegression.posterior` (137-150) | `BatchedPosterior.posterior`, `GPR.posterior`, `PiecewiseModels.posterior` |
| models/gaussian_process_regression.py | `GaussianProcessRegression.log_likelihood` (152-160) | `BatchedPosterior.logLikelihood`, `GPR.logLikelihood`, `PiecewiseModels.logLikelihood` |
| models/iwvi.py | `ImportanceWeightedVI.__init__` (80-107) | `IWVI.IWVI`, `IWVI.init` |
| models/iwvi.py | `ImportanceWeightedVI.elbo` (109-141) | `IWVI.elbo` |
| models/iwvi.py | `ImportanceWeightedVI.dregs_objective` (143-173) | `IWVI.dregsObjective` |
| models/models.py | `MarkovFlowSparseModel.predict_state` (176-186) | `PredictDensity.SparseCVI.predictLogDensity` |
| models/models.py | `MarkovFlowSparseModel.predict_f` (188-204) | `PredictDensity.SparseCVI.predictLogDensity` |
| models/models.py | `MarkovFlowSparseModel.predict_log_density` (206-227) | `PredictDensity.PredictiveLikelihood`, `PredictDensity.PredictiveLikelihood.logDensities`, `PredictDensity.SparseCVI.predictLogDensity` |
| models/pep.py | `PowerExpectationPropagation.__init__` (73-97) | `PEP.PEP`, `PEP.init` |
| models/pep.py | `PowerExpectationPropagation.local_objective_gradients` (103-109) | `PEP.localObjectiveGradients` |
| models/pep.py | `PowerExpectationPropagation.mask_indices` (111-118) | `PEP.maskIndices` |
| models/pep.py | `PowerExpectationPropagation.compute_cavity_from_marginals` (120-148) | `PEP.cavityFromMarginals` |
| models/pep.py | `PowerExpectationPropagation.compute_cavity` (150-157) | `PEP.computeCavity` |
| models/pep.py | `PowerExpectationPropagation.compute_log_norm` (159-177) | `PEP.computeLogNorm`, `PEP.logNormaliser` |
| models/pep.py | `PowerExpectationPropagation.update_sites` (179-215) | `PEP.logNormaliser`, `PEP.updateSites`, `PEP.updates` |
| models/pep.py | `PowerExpectationPropagation.elbo` (217-221) | `PEP.elbo` |
| models/pep.py | `PowerExpectationPropagation.energy` (223-230) | `PEP.energy` |
| models/pep.py | `PowerExpectationPropagation.predict_log_density` (232-247) | `PredictDensity.PEP.predictLogDensity`, `PredictDensity.PredictiveLikelihood.logDensities` |
| models/pep.py | `gradient_correction` (250-261) | `PEP.gradientCorrection` |
| models/sparse_pep.py | `SparsePowerExpectationPropagation.__init__` (92-132) | `Parameters.SparsePEP.create`, `SparsePEP.SparsePEP`, `SparsePEP.init` |
| models/sparse_pep.py | `SparsePowerExpectationPropagation.posterior` (134-140) | `SparsePEP.posterior` |
| models/sparse_pep.py | `SparsePowerExpectationPropagation.back_project_nats` (154-162) | `SparsePEP.backProject` |
| models/sparse_pep.py | `SparsePowerExpectationPropagation.local_objective_gradients` (168-174) | `SparsePEP.localObjectiveGradients` |
| models/sparse_pep.py | `SparsePowerExpectationPropagation.fraction_sites` (176-195) | `SparsePEP.fractionSites` |
| models/sparse_pep.py | `SparsePowerExpectationPropagation.compute_posterior_ssm` (197-231) | `SparsePEP.computePosteriorSSM` |
| models/sparse_pep.py | `SparsePowerExpectationPropagation.dist_q` (234-238) | `SparsePEP.distQ` |
| models/sparse_pep.py | `SparsePowerExpectationPropagation.compute_marginals` (240-249) | `SparsePEP.computeMarginals` |
| models/sparse_pep.py | `SparsePowerExpectationPropagation.remove_cavity_from_marginals` (251-293) | `SparsePEP.removeCavityFromMarginals` |
| models/sparse_pep.py | `SparsePowerExpectationPropagation.compute_cavity_state` (295-302) | `SparsePEP.computeCavityState` |
| models/sparse_pep.py | `SparsePowerExpectationPropagation.compute_cavity` (304-314) | `SparsePEP.computeCavity` |
| models/sparse_pep.py | `SparsePowerExpectationPropagation.compute_new_sites` (316-380) | `SparsePEP.computeNewSites` |
| models/sparse_pep.py | `SparsePowerExpectationPropagation.compute_log_norm` (382-448) | `SparsePEP.computeLogNorm` |
| models/sparse_pep.py | `SparsePowerExpectationPropagation.compute_num_data_per_interval` (450-462) | `SparsePEP.numDataPerInterval` |
| models/sparse_pep.py | `SparsePowerExpectationPropagation.compute_fraction` (464-471) | `SparsePEP.computeFraction` |
| models/sparse_pep.py | `SparsePowerExpectationPropagation.update_sites` (473-487) | `SparsePEP.updateSites`, `SparsePEP.updates` |
| models/sparse_pep.py | `SparsePowerExpectationPropagation.energy` (489-495) | `SparsePEP.energy` |
| models/sparse_pep.py | `SparsePowerExpectationPropagation.dist_p` (507-511) | `SparsePEP.distP` |
| models/sparse_pep.py | `SparsePowerExpectationPropagation.classic_elbo` (520-542) | `SparsePEP.classicElbo` |
| models/sparse_pep.py | `SparsePowerExpectationPropagation.predict_log_density` (544-559) | `PredictDensity.PredictiveLikelihood.logDensities`, `PredictDensity.SparsePEP.predictLogDensity` |
| models/sparse_variational.py | `SparseVariationalGaussianProcess.__init__` (97-147) | `BatchedVariational.TSVGP`, `BatchedVariational.init`, `BatchedVariational.posterior`, `Parameters.SVGP.create`, `Parameters.Transform`, `Parameters.Transform.after` … |
| models/sparse_variational.py | `SparseVariationalGaussianProcess.elbo` (149-192) | `BatchedVariational.elbo`, `PiecewiseModels.elbo`, `SVGP.elbo`, `Stack.ScalarLikelihood.toVector`, `Stack.elbo` |
| models/sparse_variational.py | `SparseVariationalGaussianProcess.dist_p` (226-230) | `BatchedVariational.distP`, `PiecewiseModels.distP`, `SVGP.distP`, `Stack.distP` |
| models/sparse_variational.py | `SparseVariationalGaussianProcess.posterior` (240-248) | `BatchedVariational.posterior`, `PiecewiseModels.posterior`, `SVGP.posterior`, `Stack.posterior` |
| models/sparse_variational.py | `SparseVariationalGaussianProcess.loss` (250-260) | `BatchedVariational.loss`, `PiecewiseModels.loss`, `SVGP.loss`, `Stack.loss` |
| models/sparse_variational.py | `SparseVariationalGaussianProcess.predict_log_density` (262-270) | `BatchedVariational.predictLogDensity`, `PredictDensity.PredictiveLikelihood.logDensities`, `PredictDensity.SVGP.predictLogDensity`, `SVGP.predictLogDensityGaussian` |
| models/sparse_variational_cvi.py | `SparseCVIGaussianProcess.__init__` (97-137) | `Parameters.SparseCVI.create`, `SparseCVI.SparseCVI`, `SparseCVI.init` |
| models/sparse_variational_cvi.py | `SparseCVIGaussianProcess.dist_q` (140-174) | `SparseCVI.distQ` |
| models/sparse_variational_cvi.py | `SparseCVIGaussianProcess.update_sites` (176-221) | `SparseCVI.partitionSum`, `SparseCVI.updateSites` |
| models/sparse_variational_cvi.py | `SparseCVIGaussianProcess.loss` (223-230) | `SparseCVI.loss` |
| models/sparse_variational_cvi.py | `SparseCVIGaussianProcess.posterior` (233-239) | `SparseCVI.posterior` |
| models/sparse_variational_cvi.py | `SparseCVIGaussianProcess.classic_elbo` (270-292) | `SparseCVI.classicElbo` |
| models/sparse_variational_cvi.py | `SparseCVIGaussianProcess.dist_p` (302-306) | `SparseCVI.distP` |
| models/spatio_temporal_variational.py | `SparseSpatioTemporalKernel.__init__` (56-70) | `SpatioTemporal.copies`, `SpatioTemporal.sparseSpatioTemporalKernel` |
| models/spatio_temporal_variational.py | `SparseSpatioTemporalKernel.generate_emission_model` (72-85) | `SpatioTemporal.copyRows`, `SpatioTemporal.crossGram`, `SpatioTemporal.sparseSpatioTemporalKernel` |
| models/spatio_temporal_variational.py | `SparseSpatioTemporalKernel.state_to_space_conditional_projection` (87-106) | `SpatioTemporal.crossGram`, `SpatioTemporal.stateToSpaceProjection` |
| models/spatio_temporal_variational.py | `SpatioTemporalBase.__init__` (117-147) | `SpatioTemporal.init` |
| models/spatio_temporal_variational.py | `SpatioTemporalBase.space_time_predict_f` (149-183) | `SpatioTemporal.crossGram`, `SpatioTemporal.predictF`, `SpatioTemporal.spaceTimePredictF` |
| models/spatio_temporal_variational.py | `SpatioTemporalBase.loss` (185-192) | `SpatioTemporal.loss` |
| models/spatio_temporal_variational.py | `SpatioTemporalBase.elbo` (209-236) | `SpatioTemporal.elbo`, `SpatioTemporal.spaceTimeElbo` |
| models/spatio_temporal_variational.py | `SpatioTemporalBase.predict_log_density` (238-246) | `PredictDensity.PredictiveLikelihood.logDensities`, `SpatioTemporal.predictLogDensityGaussian` |
| models/spatio_temporal_variational.py | `SpatioTemporalBase.kernel` (249-253) | `SpatioTemporal.kernel` |
| models/spatio_temporal_variational.py | `SpatioTemporalSparseVariational.__init__` (310-344) | `SpatioTemporal.STSVGP`, `SpatioTemporal.init` |
| models/spatio_temporal_variational.py | `SpatioTemporalSparseVariational.dist_q` (347-348) | `SpatioTemporal.STSVGP` |
| models/spatio_temporal_variational.py | `SpatioTemporalSparseVariational.dist_p` (351-352) | `SpatioTemporal.STSVGP` |
| models/spatio_temporal_variational.py | `SpatioTemporalSparseVariational.posterior` (355-357) | `SpatioTemporal.STSVGP`, `SpatioTemporal.posterior` |
| models/spatio_temporal_variational.py | `SpatioTemporalSparseCVI.__init__` (401-439) | `SpatioTemporal.D`, `SpatioTemporal.STCVI`, `SpatioTemporal.init` |
| models/spatio_temporal_variational.py | `SpatioTemporalSparseCVI.posterior` (442-448) | `SpatioTemporal.posterior` |
| models/spatio_temporal_variational.py | `SpatioTemporalSparseCVI.dist_q` (451-485) | `SpatioTemporal.distQ` |
| models/spatio_temporal_variational.py | `SpatioTemporalSparseCVI.dist_p` (488-492) | `SpatioTemporal.distP` |
| models/spatio_temporal_variational.py | `SpatioTemporalSparseCVI.projection_inducing_states_to_observations` (494-507) | `SpatioTemporal.projection` |
| models/spatio_temporal_variational.py | `SpatioTemporalSparseCVI.update_sites` (509-552) | `SpatioTemporal.updateSites` |
| models/spatio_temporal_variational.py | `SpatioTemporalSparseCVI.local_objective_and_gradients` (554-576) | `SpatioTemporal.localGrads` |
| models/variational.py | `VariationalGaussianProcess.__init__` (80-127) | `BatchedVariational.TVGP`, `BatchedVariational.init`, `BatchedVariational.posterior`, `PiecewiseVariational.PWVGP`, `PiecewiseVariational.init`, `PiecewiseVariational.posterior` … |
| models/variational.py | `VariationalGaussianProcess.elbo` (129-152) | `BatchedVariational.elbo`, `BatchedVariational.likelihoodTerm`, `Likelihood.ScalarLikelihood.varExps`, `PiecewiseVariational.elbo`, `Stack.elbo`, `VGP.elbo` |
| models/variational.py | `VariationalGaussianProcess.dist_p` (194-198) | `BatchedVariational.distP`, `PiecewiseVariational.distP`, `Stack.distP`, `VGP.distP` |
| models/variational.py | `VariationalGaussianProcess.posterior` (208-216) | `BatchedVariational.posterior`, `PiecewiseVariational.posterior`, `Stack.posterior`, `VGP.posterior` |
| models/variational.py | `VariationalGaussianProcess.loss` (218-222) | `BatchedVariational.loss`, `PiecewiseVariational.loss`, `Stack.loss`, `VGP.loss` |
| models/variational_cvi.py | `GaussianProcessWithSitesBase.__init__` (69-103) | `BatchedVariational.tensorSitesInit`, `CVI.CVI`, `CVI.init`, `PEP.PEP`, `PEP.init`, `PEP.toBase` … |
| models/variational_cvi.py | `GaussianProcessWithSitesBase.dist_q` (106-135) | `CVI.distQ`, `PEP.distQ`, `PEP.toBase`, `PiecewiseVariational.distQ`, `PiecewiseVariational.emissions` |
| models/variational_cvi.py | `GaussianProcessWithSitesBase.posterior_kalman` (138-144) | `CVI.posteriorKalman`, `PEP.toBase`, `PiecewiseVariational.emissions`, `PiecewiseVariational.posteriorKalman` |
| models/variational_cvi.py | `GaussianProcessWithSitesBase.posterior` (147-153) | `CVI.posterior`, `PEP.toBase`, `PiecewiseVariational.posterior` |
| models/variational_cvi.py | `GaussianProcessWithSitesBase.log_likelihood` (155-161) | `CVI.elbo`, `PEP.toBase`, `PiecewiseVariational.elbo` |
| models/variational_cvi.py | `GaussianProcessWithSitesBase.time_points` (164-170) | `PEP.toBase`, `PredictDensity.PEP.predictLogDensity` |
| models/variational_cvi.py | `GaussianProcessWithSitesBase.conditioning_points` (173-179) | `PEP.toBase`, `PredictDensity.PEP.predictLogDensity` |
| models/variational_cvi.py | `GaussianProcessWithSitesBase.observations` (182-188) | `PEP.toBase`, `PredictDensity.PEP.predictLogDensity` |
| models/variational_cvi.py | `GaussianProcessWithSitesBase.kernel` (191-195) | `PEP.toBase` |
| models/variational_cvi.py | `GaussianProcessWithSitesBase.likelihood` (198-202) | `PEP.toBase` |
| models/variational_cvi.py | `GaussianProcessWithSitesBase.mean_function` (205-209) | `PEP.toBase` |
| models/variational_cvi.py | `GaussianProcessWithSitesBase.dist_p` (212-216) | `CVI.distP`, `PEP.toBase`, `PiecewiseVariational.distP` |
| models/variational_cvi.py | `GaussianProcessWithSitesBase.loss` (218-222) | `CVI.loss`, `PEP.toBase`, `PiecewiseVariational.loss` |
| models/variational_cvi.py | `CVIGaussianProcess.__init__` (297-319) | `CVI.CVI`, `CVI.init`, `PiecewiseVariational.PWCVI`, `PiecewiseVariational.init` |
| models/variational_cvi.py | `CVIGaussianProcess.local_objective_and_gradients` (332-349) | `CVI.localGradients` |
| models/variational_cvi.py | `CVIGaussianProcess.update_sites` (351-368) | `CVI.updateSites`, `CVI.updates`, `PiecewiseVariational.updateSites`, `PiecewiseVariational.updates` |
| models/variational_cvi.py | `CVIGaussianProcess.elbo` (370-379) | `CVI.elbo`, `PiecewiseVariational.elbo` |
| models/variational_cvi.py | `CVIGaussianProcess.classic_elbo` (381-404) | `CVI.classicElbo`, `PiecewiseVariational.classicElbo` |
| models/variational_cvi.py | `CVIGaussianProcess.predict_log_density` (406-420) | `PredictDensity.CVI.predictLogDensity`, `PredictDensity.PredictiveLikelihood.logDensities` |
| models/variational_cvi.py | `back_project_nats` (423-445) | `CVI.backProjectNats`, `Shapes.backProjectNatsCheck` |
| models/variational_cvi.py | `gradient_transformation_mean_var_to_expectation` (448-460) | `CVI.gradMeanVarToExpectation` |
| posterior.py | `PosteriorProcess.sample_state` (45-76) | `BatchedSampling.sampleState`, `Posterior.sampleF` |
| posterior.py | `ConditionalProcess.__init__` (181-205) | `BatchedPosterior.TCondProcess`, `PiecewiseModels.PWProcess`, `Posterior.CondProcess`, `Stack.StackProcess` |
| posterior.py | `ConditionalProcess.predict_state` (207-229) | `BatchedPosterior.predictState`, `PiecewiseModels.initialCovarianceAtFirst`, `PiecewiseModels.predictState`, `Posterior.predictState`, `Stack.predictState` |
| posterior.py | `ConditionalProcess.predict_f` (231-258) | `BatchedPosterior.predictF`, `PiecewiseModels.predictF`, `PiecewiseModels.predictFDiag`, `Posterior.predictF`, `Posterior.predictFDiag`, `Stack.predictF` … |
| posterior.py | `ConditionalProcess.sample_state_trajectories` (260-377) | `BatchedSampling.sampleStateTrajectories`, `IWVI.Draws`, `Posterior.sampleStateTrajectories`, `Stack.sampleStateTrajectories` |
| posterior.py | `ConditionalProcess.sample_f` (379-410) | `BatchedSampling.sampleF`, `Posterior.sampleF`, `Stack.sampleF` |
| posterior.py | `AnalyticPosteriorProcess.predict_y` (445-467) | `LikelihoodObjects.predictY`, `LikelihoodObjects.predictYDiag`, `Posterior.CondProcess.predictYGaussian` |
| posterior.py | `ImportanceWeightedPosteriorProcess.__init__` (478-502) | `IWVI.proposal` |
| posterior.py | `ImportanceWeightedPosteriorProcess._log_qu_density` (504-520) | `IWVI.logImportanceWeight` |
| posterior.py | `ImportanceWeightedPosteriorProcess.log_importance_weights` (522-580) | `IWVI.logImportanceWeight` |
| posterior.py | `ImportanceWeightedPosteriorProcess._iwvi_samples_and_weights` (582-621) | `IWVI.samplesAndWeights` |
| posterior.py | `ImportanceWeightedPosteriorProcess.sample_state_trajectories` (623-674) | `IWVI.sampleF` |
| posterior.py | `ImportanceWeightedPosteriorProcess.sample_f` (676-706) | `IWVI.sampleF`, `IWVI.weightedF` |
| posterior.py | `ImportanceWeightedPosteriorProcess.expected_value` (708-758) | `IWVI.expectedValue` |
| posterior.py | `_correct_mean_shape` (790-813) | `BatchedPosterior.TKernel.correctMeanShape`, `Stack.predictFDiag` |
| sde/drift.py | `LinearDrift.__init__` (28-36) | `SDE.LinearDrift` |
| sde/drift.py | `LinearDrift.set_from_ssm` (38-61) | `SDE.setFromSSM` |
| sde/drift.py | `LinearDrift.to_ssm` (63-108) | `SDE.LinearDriftObj`, `SDE.toSSM`, `SDE.toSSMChecked` |
| sde/sde.py | `SDE.__init__` (32-36) | `SDE.SDE` |
| sde/sde.py | `SDE.state_dim` (39-43) | `SDE.SDE` |
| sde/sde.py | `SDE.gradient_drift` (73-88) | `SDE.ScalarSDE` |
| sde/sde.py | `SDE.expected_drift` (90-110) | `SDE.Quadrature`, `SDE.expectedDrift` |
| sde/sde.py | `SDE.expected_gradient_drift` (112-129) | `SDE.Quadrature`, `SDE.expectedGradientDrift` |
| sde/sde.py | `OrnsteinUhlenbeckSDE.__init__` (139-148) | `SDE.ornsteinUhlenbeckSDE` |
| sde/sde.py | `OrnsteinUhlenbeckSDE.drift` (150-161) | `SDE.ornsteinUhlenbeckSDE` |
| sde/sde.py | `OrnsteinUhlenbeckSDE.diffusion` (163-174) | `SDE.ornsteinUhlenbeckSDE` |
| sde/sde.py | `DoubleWellSDE.__init__` (186-193) | `SDE.doubleWellSDE` |
| sde/sde.py | `DoubleWellSDE.drift` (195-206) | `SDE.doubleWellSDE` |
| sde/sde.py | `DoubleWellSDE.diffusion` (208-219) | `SDE.doubleWellSDE` |
| sde/sde_utils.py | `euler_maruyama` (29-84) | `SDE.emStep`, `SDE.eulerMaruyama` |
| sde/sde_utils.py | `handle_tensor_shape` (87-104) | `SDE.handleTensorShape` |
| sde/sde_utils.py | `linearize_sde` (107-158) | `SDE.linearDrift`, `SDE.linearize` |
| sde/sde_utils.py | `squared_drift_difference_along_Gaussian_path` (161-228) | `SDE.Quadrature`, `SDE.squaredDriftAccepts`, `SDE.squaredDriftDifference` |
| ssm_gaussian_transformations.py | `ssm_to_expectations` (32-89) | `BatchedVariational.tensorSsmToExpectations`, `Transformations.ssmToExpectations` |
| ssm_gaussian_transformations.py | `expectations_to_ssm_params` (93-178) | `BatchedVariational.tensorExpectationsToSSM`, `Transformations.expectationsToSSM` |
| ssm_gaussian_transformations.py | `ssm_to_naturals` (182-253) | `BatchedVariational.tensorSsmToNaturals`, `Transformations.ssmToNaturals` |
| ssm_gaussian_transformations.py | `ssm_to_naturals_no_smoothing` (257-329) | `BatchedVariational.tensorSsmToNaturalsNoSmoothing`, `Transformations.ssmToNaturalsNoSmoothing` |
| ssm_gaussian_transformations.py | `naturals_to_ssm_params` (333-511) | `BatchedVariational.solveTriangBandLeftT`, `BatchedVariational.tensorNaturalsToSSM`, `Transformations.naturalsToSSM` |
| ssm_gaussian_transformations.py | `naturals_to_ssm_params_no_smoothing` (515-593) | `BatchedVariational.tensorNaturalsToSSMNoSmoothing`, `Transformations.naturalsToSSMNoSmoothing` |
| ssm_natgrad.py | `SSMNaturalGradient.__init__` (61-92) | `BatchedNatGrad.TNatGrad`, `NatGrad.NatGrad`, `NatGrad.init` |
| ssm_natgrad.py | `SSMNaturalGradient.minimize` (95-109) | `BatchedNatGrad.minimize`, `BatchedNatGrad.moving`, `BatchedNatGrad.steps`, `NatGrad.init`, `NatGrad.steps` |
| ssm_natgrad.py | `SSMNaturalGradient._natgrad_step` (121-218) | `BatchedNatGrad.TTriple`, `BatchedNatGrad.assign`, `BatchedNatGrad.assignSSM`, `BatchedNatGrad.lr`, `BatchedNatGrad.map`, `BatchedNatGrad.minimize` … |
| state_space_model.py | `StateSpaceModel.__init__` (74-124) | `Batched.TSSM`, `Batched.init`, `Piecewise.toFin`, `Shapes.ssmInit`, `StateSpaceModel.SSM` |
| state_space_model.py | `StateSpaceModel.event_shape` (127-133) | `Batched.eventShape`, `Shapes.ssmEventShape` |
| state_space_model.py | `StateSpaceModel.batch_shape` (136-140) | `Batched.batch`, `Shapes.ssmBatchShape` |
| state_space_model.py | `StateSpaceModel.state_dim` (143-147) | `Shapes.ssmStateDim` |
| state_space_model.py | `StateSpaceModel.num_transitions` (150-154) | `Batched.numTransitions`, `Shapes.ssmNumTransitions` |
| state_space_model.py | `StateSpaceModel.initial_covariance` (176-182) | `Batched.initialCovariance`, `StateSpaceModel.initialCovariance` |
| state_space_model.py | `StateSpaceModel.concatenated_cholesky_process_covariance` (185-191) | `Batched.concatChol`, `StateSpaceModel.concatChol` |
| state_space_model.py | `StateSpaceModel.concatenated_state_offsets` (213-219) | `Batched.concatOffsets`, `Shapes.ssmConcatenatedOffsets`, `StateSpaceModel.concatOffsets` |
| state_space_model.py | `StateSpaceModel.marginal_means` (232-251) | `Batched.marginalMeans`, `StateSpaceModel.marginalMeans` |
| state_space_model.py | `StateSpaceModel.marginal_covariances` (254-262) | `Batched.marginalCovariances`, `StateSpaceModel.marginalCovariances` |
| state_space_model.py | `StateSpaceModel.covariance_blocks` (264-275) | `Batched.covarianceBlocks`, `StateSpaceModel.covarianceBlocks` |
| state_space_model.py | `StateSpaceModel.a_inv_block` (278-296) | `Batched.aInvBlock`, `Batched.identities`, `StateSpaceModel.aInvBlock` |
| state_space_model.py | `StateSpaceModel.sample` (298-324) | `Batched.sample`, `StateSpaceModel.sample` |
| state_space_model.py | `StateSpaceModel.subsequent_covariances` (326-341) | `Batched.subsequentCovariances`, `StateSpaceModel.subsequentCovariances` |
| state_space_model.py | `StateSpaceModel.log_det_precision` (343-373) | `Batched.logDetPrecision`, `StateSpaceModel.logDetPrecision` |
| state_space_model.py | `StateSpaceModel.create_non_trainable_copy` (375-394) | `StateSpaceModel.createNonTrainableCopy` |
| state_space_model.py | `StateSpaceModel.create_trainable_copy` (396-429) | `BatchedVariational.TSSM.createTrainableCopy`, `Parameters.triangular`, `StateSpaceModel.createTrainableCopy` |
| state_space_model.py | `StateSpaceModel._build_precision` (431-483) | `Batched.identities`, `Batched.precision`, `StateSpaceModel.precision` |
| state_space_model.py | `StateSpaceModel._log_pdf_factors` (485-513) | `Batched.logPdfFactors`, `Shapes.logPdfStatesCheck`, `StateSpaceModel.logPdfFactors` |
| state_space_model.py | `StateSpaceModel.log_pdf` (515-526) | `Batched.logPdf`, `StateSpaceModel.logPdf` |
| state_space_model.py | `StateSpaceModel.kl_divergence` (528-593) | `Batched.klDivergence`, `StateSpaceModel.klDivergence`, `Tensor.times` |
| state_space_model.py | `StateSpaceModel.normalizer` (595-609) | `Batched.normalizer`, `StateSpaceModel.normalizer` |
| state_space_model.py | `state_space_model_from_covariances` (613-664) | `Batched.tensorCholeskyOrZero`, `Batched.tensorSSMFromCovariances`, `StateSpaceModel.choleskyOrZero`, `StateSpaceModel.choleskyOrZeros`, `StateSpaceModel.ssmFromCovariances` |
| utils.py | `block_diag` (76-85) | `BatchedKernels.blockDiagT`, `Utils.blockDiag`, `Utils.splitSum`, `Utils.sumDim` |
| utils.py | `to_delta_time` (88-104) | `BatchedKernels.tensorToDeltaTime`, `Utils.toDeltaTime` |
| utils.py | `kronecker_product` (107-114) | `BatchedKernels.kronT`, `Utils.kron`, `Utils.kronRow`, `Utils.prodDim`, `Utils.splitProd` |
| utils.py | `augment_square_matrix` (117-136) | `BatchedStack.tensorAugmentSquare`, `Utils.augmentSquareMatrix` |
| utils.py | `augment_matrix` (139-156) | `BatchedStack.tensorAugmentMatrix`, `Utils.augmentMatrix`, `Utils.augmentVec` |
| utils.py | `batch_base_conditional` (159-257) | `Shapes.baseConditionalCheck`, `SpatioTemporal.QSqrt`, `SpatioTemporal.batchBaseConditional` |

**Not modelled** (attribute getters returning a stored field, name-scope and `tf.Module` plumbing, and what is noted):

- base.py: `auto_namescope_enabled` (59-61)
- emission_model.py: `EmissionModel.batch_shape` (54-59), `EmissionModel.num_data` (62-66), `EmissionModel.state_dim` (76-81), `EmissionModel.emission_matrix` (84-91), `ComposedPairEmissionModel.state_dim` (196-201), `ComposedPairEmissionModel.inner_dim` (204-208), `ComposedPairEmissionModel.inner_emission_matrix` (211-219), `ComposedPairEmissionModel.project_state_marginals_to_g` (221-239)
- kalman_filter.py: `GaussianSites.means` (363-367), `GaussianSites.precisions` (370-374), `GaussianSites.log_det_precisions` (377-379)
- kernels/matern.py: `_check_lengthscale_and_variance` (521-526)
- kernels/piecewise_stationary.py: `PiecewiseKernel.state_dim` (82-87)
- kernels/sde_kernel.py: `NonStationaryKernel.state_offsets` (524-536)
- likelihoods/multivariate_gaussian.py: `MultivariateGaussian.obs_dim` (57-61)
- likelihoods/mutlistage_likelihood.py: `MultiStageLikelihood._predict_log_density` (144-145), `MultiStageLikelihood._predict_mean_and_var` (147-148)
- mean_function.py: `ZeroMeanFunction.__init__` (71-76), `LinearMeanFunction.__init__` (96-103)
- models/gaussian_process_regression.py: `GaussianProcessRegression.time_points` (86-92), `GaussianProcessRegression.observations` (95-101), `GaussianProcessRegression.kernel` (104-108), `GaussianProcessRegression.mean_function` (111-115)
- models/models.py: `MarkovFlowModel.log_prior_density` (57-64), `MarkovFlowModel.predict_state` (86-96), `MarkovFlowModel.predict_f` (98-114), `MarkovFlowSparseModel.log_prior_density` (142-149)
- models/pep.py: `PowerExpectationPropagation.local_objective` (99-101)
- models/sparse_pep.py: `SparsePowerExpectationPropagation.mask_indices` (142-152), `SparsePowerExpectationPropagation.local_objective` (164-166), `SparsePowerExpectationPropagation.loss` (497-504), `SparsePowerExpectationPropagation.kernel` (514-518)
- models/sparse_variational.py: `SparseVariationalGaussianProcess.time_points` (195-202), `SparseVariationalGaussianProcess.kernel` (205-209), `SparseVariationalGaussianProcess.likelihood` (212-216), `SparseVariationalGaussianProcess.mean_function` (219-223), `SparseVariationalGaussianProcess.dist_q` (233-237)
- models/sparse_variational_cvi.py: `SparseCVIGaussianProcess.local_objective_and_gradients` (241-258), `SparseCVIGaussianProcess.local_objective` (260-268), `SparseCVIGaussianProcess.kernel` (295-299), `SparseCVIGaussianProcess.likelihood` (309-313)
- models/spatio_temporal_variational.py: `SpatioTemporalBase.posterior` (195-197), `SpatioTemporalBase.dist_q` (200-202), `SpatioTemporalBase.dist_p` (205-207), `SpatioTemporalBase.inducing_time` (256-260), `SpatioTemporalBase.inducing_space` (263-267), `SpatioTemporalSparseCVI.local_objective` (578-586)
- models/variational.py: `VariationalGaussianProcess.time_points` (155-161), `VariationalGaussianProcess.observations` (164-170), `VariationalGaussianProcess.kernel` (173-177), `VariationalGaussianProcess.likelihood` (180-184), `VariationalGaussianProcess.mean_function` (187-191), `VariationalGaussianProcess.dist_q` (201-205)
- models/variational_cvi.py: `CVIGaussianProcess.local_objective` (321-330)
- posterior.py: `AnalyticPosteriorProcess.__init__` (424-443), `ImportanceWeightedPosteriorProcess.predict_state` (760-770), `ImportanceWeightedPosteriorProcess.predict_f` (772-786)
- ssm_natgrad.py: `SSMNaturalGradient._natgrad_steps` (111-119), `SSMNaturalGradient.get_config` (220-232), `SSMNaturalGradient._resource_apply_dense` (234-238), `SSMNaturalGradient._resource_apply_sparse` (240-244)
- state_space_model.py: `StateSpaceModel.cholesky_process_covariances` (157-164), `StateSpaceModel.cholesky_initial_covariance` (167-173), `StateSpaceModel.state_offsets` (194-201), `StateSpaceModel.initial_mean` (204-210), `StateSpaceModel.state_transitions` (222-229)
- utils.py: `tf_scope_fn_decorator` (31-48), `tf_scope_class_decorator` (51-73)

## 6. Findings: where the code does not do what one would expect

Each line with a theorem name is *proved* of the model (a witness or an exact characterisation of the wrong behaviour).

1. `utils.batch_base_conditional` with a full `q_sqrt` uses `L·w` for `Lᵀ·w` (utils.py:244) — `C43_base_conditional_full_wrong`.
2. `Product.feedback_matrix` is the Kronecker product, not the Kronecker sum, of the children's — `C26_product_feedback_is_wrong`; consequently a `StepMeanFunction` on a product kernel is wrong — `C31_step_product_wrong`; a step mean on a kernel with singular feedback (Constant) raises — `C31_step_singular_raises`.
3. Combining kernels with state means loses them for `ConcatKernel`s — `C29_sum_loses_state_mean`; `conditional_predict` ignores a kernel's state mean — `C22_state_mean_dropped`.
4. Jitter accumulates in combined kernels — `C27_jitter_accumulates`.
5. `ImportanceWeightedVI.__init__` ignores `initial_distribution` (iwvi.py:99) — `C38_init_ignores_initial_distribution`.
6. `PowerExpectationPropagation.update_sites(None)` changes nothing — `C37_update_none`; duplicate indices — `C37_duplicate_indices`; its energy mixes cavity and marginal — `C37_energy`; powers `alpha ≠ 1` give the wrong Gaussian site, and general likelihoods ignore `alpha` — `C37_gaussian_alpha`.
7. CVI, sparse CVI, sparse PEP ignore the mean function — `C34_mean_function_ignored`, `C36_mean_function_ignored`, `C47_mean_function_ignored`.
8. `SparsePowerExpectationPropagation.update_sites` takes its gradients at power 1 whatever `alpha` — part of `C47_update`; hence with a Gaussian likelihood it *is* sparse CVI with rate `alpha·lr` — `C47_gaussian_cvi`. (Read, not modelled: `loss` calls a method `elbo` that does not exist; `posterior` is a method there, so the inherited `predict_f`/`predict_state` fail; `mask_indices` uses attributes that do not exist.)
9. `CVIGaussianProcess.elbo()` is not a lower bound away from its fixed points — `C34_elbo_not_a_bound`.
10. `euler_maruyama` uses each grid time one step late (starts at time 0) — `C41_euler_maruyama_shifted`; `LinearDrift.to_ssm` changes the drift object — `C41_to_ssm_changes_drift`.
11. `KalmanFilterWithSparseSites` adds up the observations of duplicate indices — `C20_duplicate_indices`.
12. `PiecewiseKernel`: unsorted times get another time's transition — `C30_unsorted_times`; an interval crossing a change point uses the left kernel only — `C30_crossing_uses_left_kernel`; times beyond the sentinels raise — `C30_out_of_range`.
13. Block tri-diagonal matrices with no blocks and state space models are accepted / refused in undocumented cases — `C42_block_tri_no_blocks_accepted`, `C42_batch_mismatch_accepted`, `C42_scalar_mean_accepted`, `C42_block_tri_vector_accepted`, `C42_right_hand_side_refused`, `C42_kalman_emission_unchecked`, `C42_kalman_sites`, `C42_check_input_shapes`.
14. The Constant kernel: extrapolation halves the mean — `C22_constant_extrapolation_halves`; with zero jitter it raises — `C22_constant_no_jitter_raises`.
15. `SSMNaturalGradient` momentum: the squared norm used for scaling can be negative — `C39_momentum_norm_negative`.
16. `predict_y` with the default arguments and several outputs broadcasts wrongly — `C40_predict_y_default`.
17. `MultiStageLikelihood` gives log probability 0 to non-counts below 2 — `C40_multistage_invalid_counts`.
18. Spatio-temporal `space_time_predict_f` leaves out the temporal kernel variance in the predictive variance, so that the `elbo` can exceed the log evidence — `C43_predict`, `C43_elbo_not_a_bound`.
19. `StackKernel.feedback_matrix` pads with the identity where its documentation says zeros — `C29_stack_feedback_padding`.
20. With several outputs `predict_log_density` is the sum of single-output log densities, not the log of the joint integral its documentation describes — `C48_outputs_not_joint`.
21. `cyclic_reduction_conditional_statistics` slices the state axis instead of the time axis (conditionals.py:376): `F` loses its first column (it is empty for a one-dimensional state), and one `F` and `G` is returned for every explained point — `C49_returned`. (Also, the intended slices look swapped: it is the first `G` and the last `F` that refer to the artificial times.) The function is not used or tested in the repository.
22. The triangular transform of the variational factors silently drops the upper part of a non-triangular factor, and does not keep a factor non-singular — `C53_triangular`.
23. `IndependentMultiOutputStack.__add__` / `__mul__` keep only the left operand's jitter, so `a + b` and `b + a` differ — `C55_add`, `C55_mul`.
24. A Kalman filter (and `GaussianProcessRegression`) over a stack of two or more kernels cannot work: the constructor demands a `[num_kernels, num_kernels]` noise factor, and the posterior precision then contracts it with an emission matrix of output dimension one — `C42_stack_kalman`.
25. A model over a `PiecewiseKernel` is the piecewise process only if its times step onto every change point they pass, and if queries and minibatches are sorted (`C57_prior`, `C57_predict_state`; otherwise `C30_crossing_uses_left_kernel`, `C30_unsorted_times`): the code checks neither. The process starts with mean zero even if the kernels have state means (`C57_prior`), and predicting at an empty vector of times raises (`C57_no_queries`), unlike with a stationary kernel.
26. `CVIGaussianProcess` and `PowerExpectationPropagation` document `input_data` as `batch_shape + [num_data, output_dim]`, but the site constructor accepts `[N, 1]` only: every non-empty batch shape and every output dimension other than one is rejected — `C64_sites_reject_batches`.
27. Sampling from a posterior process over a stack with zero jitter raises as soon as a new time equals a conditioning time (or another new time) of a child whose state is smaller than the stack's: the padded process covariance over the zero step is `blockdiag(0, 1)`, which `cholesky_or_zero` neither recognises as zero nor can factor; with a single kernel, or with children of equal state dimension, the same call works — `C55_sampling_returns_iff`, `C66_sampling_returns_iff`.
28. `StackKernel.feedback_matrix` is documented as padded with zeros to match state dimensions, but the code calls `augment_square_matrix` without `fill_zeros`, so the padding is the identity — `C66_constants`. (Nothing else in the stack reads the padded part: transitions are padded with zeros by each child.)
29. `StepMeanFunction` over an `IndependentMultiOutputStack` of two or more kernels: the feedback matrices `[num_kernels, D, D]` are broadcast to `batch_shape + [num_actions, D, D]`, which aligns the kernel axis with the axis of the actions. With another number of actions than kernels every call raises (`C67_stack_step_raises`); with as many actions as kernels the feedback matrix of kernel `k` is silently used for action `k` of every kernel, and the values are wrong (`C67_stack_step_wrong`). The values of both mean functions over a stack have one column per kernel, where a mean function of a stack must have one, so neither can be the `mean_function` of a model over such a stack (`C67_stack_not_a_mean_function`).
30. `update_sites` of `SpatioTemporalSparseCVI` (and of `SparseCVIGaussianProcess`) adds the data terms of a minibatch unscaled, although `num_data` is documented as "relevant when feeding in external minibatches" and the elbo is scaled by it (`C72_num_data_ignored`, `C72_st_cvi_objective`). With a Gaussian likelihood random minibatches of `p` out of `N` data lead on average to the sites of the posterior in which every datum counts `p/N` times (`C72_cvi_gaussian_runs`, `C72_cvi_gaussian_tempered`, and `C72_st_cvi_*`).
31. `PiecewiseKernel` documents `batch_shape` for all its methods, but `tf.unique_with_counts` accepts vectors only, `tf.searchsorted` compares the number of rows and `tf.dynamic_partition` flattens: with any batch axes the methods that gather, and with them `state_space_model`, raise (`C73_batches_raise`, `C73_many_raise`); the remaining methods drop batch axes of size one (`C73_single_batch`). Every model over a piecewise kernel is therefore restricted to times of shape `[n]`.

Read, not modelled: GPR's default `chol_obs_covariance` is `float32` (`tf.eye`); `ImportanceWeightedPosteriorProcess.sample_state_trajectories` calls `tf.random.categorical` with a rank that need not be 2; `Product` with several outputs fails its own shape assertion; `LEG.process_covariances` omits the jitter that `transition_statistics` includes; `expected_drift` evaluates the drift at time 0 always; SVGP's and sparse PEP's `predict_log_density` ignore `full_output_cov`; the other `predict_log_density`s, with `full_output_cov=True`, pass covariance matrices where the likelihood expects variances.

## 7. Testing the theorems against wrong programs

`seeded/LOG.jsonl` has one line per edit of the model (in a scratch copy): definition, edit, English claim broken, the
declarations that stopped compiling and the property theorems whose proof depends on one of them. Edits that survived led
to new theorems (`theorems_tightened`): `C46_copies`, `C29_stack_succeeds`.

