{
 "claims": [
  {
   "property": "C01",
   "status": "proved",
   "theorems": [
    "MF.C01_constructor",
    "MF.C01_to_dense_lower",
    "MF.C01_to_dense_symmetric",
    "MF.C01_to_dense_symmetric_general"
   ],
   "note": "Model: `_convert_to_band` at index level (row-major reshapes), band contracts. Proof: div/mod arithmetic on positions."
  },
  {
   "property": "C02",
   "status": "proved",
   "theorems": [
    "MF.C02_dense_mult"
   ],
   "note": "Model: `dense_mult` through flatten, `product_band_mat`, unflatten. Proof: the band of C01 unpacks to the dense matrix."
  },
  {
   "property": "C03",
   "status": "proved",
   "theorems": [
    "MF.C03_solve"
   ],
   "note": "Model: `solve` through `solve_triang_mat`. Proof: nonsingularity of triangular matrices with non-zero diagonal; uniqueness."
  },
  {
   "property": "C04",
   "status": "proved",
   "theorems": [
    "MF.C04_cholesky",
    "MF.C04_cholesky_raises"
   ],
   "note": "Model: `cholesky` through `cholesky_band`. Proof: existence and uniqueness of the Cholesky factor, no fill-in by block induction; both directions of success."
  },
  {
   "property": "C05",
   "status": "proved",
   "theorems": [
    "MF.C05_block_diagonal_of_inverse",
    "MF.C05_abs_log_det"
   ],
   "note": "Model: `inverse_from_cholesky_band`, diagonal product. Proof: triangular determinants."
  },
  {
   "property": "C06",
   "status": "proved",
   "theorems": [
    "MF.C06_add"
   ],
   "note": "Model: the four cases of `__add__`. Proof: case analysis with C01."
  },
  {
   "property": "C07",
   "status": "proved",
   "theorems": [
    "MF.C07_upper_diagonal_lower",
    "MF.C07_not_posdef_raises",
    "MF.C07_no_sub_diagonal"
   ],
   "note": "Model: the backward loop of `upper_diagonal_lower`. Proof: induction over the loop; Schur complements stay positive definite."
  },
  {
   "property": "C08",
   "status": "proved",
   "theorems": [
    "MF.C08_marginal_means",
    "MF.C08_no_transitions"
   ],
   "note": "Model: `marginal_means` = solve of a unit bidiagonal system. Proof: uniqueness by induction in time; the mean of the sampling law."
  },
  {
   "property": "C09",
   "status": "proved",
   "theorems": [
    "MF.C09_covariances",
    "MF.C09_marginals"
   ],
   "note": "Model: `covariance_blocks` through the inverse factor. Proof: blocks of the joint covariance recursion."
  },
  {
   "property": "C10",
   "status": "proved",
   "theorems": [
    "MF.C10_precision",
    "MF.C10_joint_cov_exists"
   ],
   "note": "Model: `precision`, `a_inv_block` etc. Proof: A⁻ᵀQ⁻¹A⁻¹; congruence of positive definite matrices."
  },
  {
   "property": "C11",
   "status": "proved",
   "theorems": [
    "MF.C11_log_pdf"
   ],
   "note": "Model: `log_pdf`. Proof: change of variables for the affine map from noise to trajectory; density of a Gaussian measure."
  },
  {
   "property": "C12",
   "status": "proved",
   "theorems": [
    "MF.C12_sample"
   ],
   "note": "Model: `sample` as function of the noise. Proof: pushforward of iid standard normals is `gaussLaw` with the model's moments."
  },
  {
   "property": "C13",
   "status": "proved",
   "theorems": [
    "MF.C13_kl_divergence",
    "MF.C13_dense_formula"
   ],
   "note": "Model: `kl_divergence`. Proof: equals Mathlib's `klDiv` of the trajectory laws."
  },
  {
   "property": "C14",
   "status": "proved",
   "theorems": [
    "MF.C14_normalizer"
   ],
   "note": "Model: `normalizer`. Proof: log-partition of the exponential family; log_pdf identity."
  },
  {
   "property": "C15",
   "status": "proved",
   "theorems": [
    "MF.C15_from_covariances",
    "MF.C15_from_covariances_raises",
    "MF.C15_no_transitions"
   ],
   "note": "Model: zero/positive definite branch of `state_space_model_from_covariances`. Proof: case split."
  },
  {
   "property": "C16",
   "status": "proved",
   "theorems": [
    "MF.C16_projection",
    "MF.C16_expectations",
    "MF.C16_model_round_trip",
    "MF.C16_expectations_round_trip"
   ],
   "note": "Model: `ssm_to_expectations`, `expectations_to_ssm_params`. Proof: moments algebra; recovered model has the same law."
  },
  {
   "property": "C17",
   "status": "proved",
   "theorems": [
    "MF.C17_naturals",
    "MF.C17_model_round_trip",
    "MF.C17_naturals_round_trip",
    "MF.C17_improper_raises",
    "MF.C17_no_smoothing",
    "MF.C17_no_smoothing_round_trip"
   ],
   "note": "Model: `ssm_to_naturals`, `naturals_to_ssm_params`, both 'no smoothing' variants. Proof: C07 factorisation, uniqueness; success iff proper."
  },
  {
   "property": "C18",
   "status": "proved",
   "theorems": [
    "MF.C18_posterior"
   ],
   "note": "Model: `_k_inv_post`, `posterior_state_space_model`. Proof: completing the square; `IsBayesPosterior` measure identity."
  },
  {
   "property": "C19",
   "status": "proved",
   "theorems": [
    "MF.C19_log_likelihood"
   ],
   "note": "Model: `log_likelihood`. Proof: determinant lemma and Woodbury; evidence of the law."
  },
  {
   "property": "C20",
   "status": "proved",
   "theorems": [
    "MF.C20_sites",
    "MF.C20_improper_sites",
    "MF.C20_univariate_sites",
    "MF.C20_sparse_sites",
    "MF.C20_duplicate_indices"
   ],
   "note": "Model: sites and `sparse_to_dense` scatter. Proof: finite sums."
  },
  {
   "property": "C21",
   "status": "proved",
   "theorems": [
    "MF.C21_bridge",
    "MF.C21_succeeds",
    "MF.C21_precision",
    "MF.C21_all"
   ],
   "note": "Model: `_conditional_statistics_from_transitions`, both variants. Proof: Gaussian conditioning (`IsBridge`)."
  },
  {
   "property": "C22",
   "status": "proved",
   "theorems": [
    "MF.C22_neighbours",
    "MF.C22_predict_state",
    "MF.C22_at_training",
    "MF.C22_succeeds",
    "MF.C22_constant_extrapolation_halves",
    "MF.C22_constant_no_jitter_raises",
    "MF.C22_state_mean_dropped"
   ],
   "note": "Model: `conditional_predict`, `pairwise_marginals`, `CondProcess.predictState`. Proof: searchsorted characterisation, bridge algebra."
  },
  {
   "property": "C23",
   "status": "proved",
   "theorems": [
    "MF.C23_prior_is_kernel",
    "MF.C23_interior",
    "MF.C23_with_ends",
    "MF.C23_bayes",
    "MF.C23_prior"
   ],
   "note": "Model: as C22 with the kernel's prior. Proof: law of total covariance; identity of measures `IsPredictive`, incl. joint over several new points."
  },
  {
   "property": "C24",
   "status": "proved",
   "theorems": [
    "MF.C24_interior",
    "MF.C24_with_ends",
    "MF.C24_conditioning_law",
    "MF.C24_given_conditioning",
    "MF.C24_succeeds",
    "MF.C24_sample_f"
   ],
   "note": "Model: `sample_state_trajectories` with argsort/gather. Proof: law of the prior-sample-plus-correction is the predictive law."
  },
  {
   "property": "C25",
   "status": "proved",
   "theorems": [
    "MF.C25_projection",
    "MF.C25_law",
    "MF.C25_composed",
    "MF.C25_stack",
    "MF.C25_marginals"
   ],
   "note": "Model: `project_state_*`, composed emission. Proof: matrix algebra; positivity."
  },
  {
   "property": "C26",
   "status": "proved",
   "theorems": [
    "MF.C26_transitions_solve_sde",
    "MF.C26_transitions_eq_exp",
    "MF.C26_transitions_group",
    "MF.C26_sum",
    "MF.C26_product_feedback_is_wrong"
   ],
   "note": "Model: transition matrices and feedback matrices of the leaf kernels, incl. LatentExponentiallyGenerated. Proof: exp/trig identities, HasDerivAt."
  },
  {
   "property": "C27",
   "status": "proved",
   "theorems": [
    "MF.C27_process_covariance_psd",
    "MF.C27_process_covariance_pd",
    "MF.C27_stationary",
    "MF.C27_state_mean_invariant",
    "MF.C27_jitter_accumulates"
   ],
   "note": "Model: `process_covariances`, `transition_statistics`. Proof: PSD through an integral-free monotonicity argument on the semigroup; jitter accounting."
  },
  {
   "property": "C28",
   "status": "proved",
   "theorems": [
    "MF.C28_output_law",
    "MF.C28_succeeds",
    "MF.C28_matern12",
    "MF.C28_ornsteinUhlenbeck",
    "MF.C28_matern32",
    "MF.C28_matern52",
    "MF.C28_harmonicOscillator",
    "MF.C28_constant",
    "MF.C28_constructors",
    "MF.C28_restriction",
    "MF.C28_state_mean"
   ],
   "note": "Model: `state_space_model`, constructors. Proof: induction along the chain; covariance functions in `Spec/Kernel`."
  },
  {
   "property": "C29",
   "status": "proved",
   "theorems": [
    "MF.C29_stack_succeeds",
    "MF.C29_stack_feedback_padding",
    "MF.C29_add",
    "MF.C29_mul",
    "MF.C29_sum",
    "MF.C29_product",
    "MF.C29_independent",
    "MF.C29_factor_analysis",
    "MF.C29_stack",
    "MF.C29_sum_loses_state_mean"
   ],
   "note": "Model: Sum, Product (one output), IndependentMultiOutput, FactorAnalysis, nested to any depth (`Builds`); StackKernel over such kernels. Proof: block-diagonal/Kronecker algebra by induction over kernel trees."
  },
  {
   "property": "C30",
   "status": "proved",
   "theorems": [
    "MF.C30_segment",
    "MF.C30_split_indices",
    "MF.C30_sorted_times",
    "MF.C30_any_order",
    "MF.C30_state_space_model",
    "MF.C30_composes",
    "MF.C30_out_of_range",
    "MF.C30_crossing_uses_left_kernel",
    "MF.C30_unsorted_times",
    "MF.C30_succeeds"
   ],
   "note": "Model: `PiecewiseKernel` with lists, partitions, gathers. Proof: counting change points; position by position."
  },
  {
   "property": "C31",
   "status": "proved",
   "theorems": [
    "MF.C31_zero",
    "MF.C31_linear",
    "MF.C31_impulse_transitions",
    "MF.C31_impulse",
    "MF.C31_impulse_jump",
    "MF.C31_unsorted_actions",
    "MF.C31_step",
    "MF.C31_step_response_unique",
    "MF.C31_step_leaf",
    "MF.C31_step_singular_raises",
    "MF.C31_feedback_invertible",
    "MF.C31_step_product_wrong"
   ],
   "note": "Model: all mean functions. Proof: solve of the bidiagonal system = superposition; HasDerivAt of the piecewise solution."
  },
  {
   "property": "C32",
   "status": "proved",
   "theorems": [
    "MF.C32_dense_is_bayes",
    "MF.C32_log_likelihood",
    "MF.C32_posterior",
    "MF.C32_samples"
   ],
   "note": "Model: `GaussianProcessRegression`. Proof: C18 + C19 + C28 composed, dense GP formulas."
  },
  {
   "property": "C33",
   "status": "proved",
   "theorems": [
    "MF.C33_prior",
    "MF.C33_elbo",
    "MF.C33_posterior_exists",
    "MF.C33_gaussian",
    "MF.C33_init"
   ],
   "note": "Model: `VariationalGaussianProcess`. Proof: chain of `klDiv`; any `ExactLikelihood`."
  },
  {
   "property": "C34",
   "status": "proved",
   "theorems": [
    "MF.C34_dist_q",
    "MF.C34_kalman",
    "MF.C34_gradient",
    "MF.C34_update",
    "MF.C34_mean_function_ignored",
    "MF.C34_classic_elbo",
    "MF.C34_k_steps",
    "MF.C34_updates_succeed",
    "MF.C34_exact_sites",
    "MF.C34_one_step",
    "MF.C34_converges",
    "MF.C34_elbo_not_a_bound"
   ],
   "note": "Model: `CVIGaussianProcess`. Proof: invariants over update histories; exact posterior after one full step; witness that `elbo` is no bound elsewhere."
  },
  {
   "property": "C35",
   "status": "proved",
   "theorems": [
    "MF.C35_elbo",
    "MF.C35_bound",
    "MF.C35_partition",
    "MF.C35_equal_batches",
    "MF.C35_with_replacement",
    "MF.C35_without_replacement",
    "MF.C35_predict_log_density",
    "MF.C35_init"
   ],
   "note": "Model: `SparseVariationalGaussianProcess`. Proof: bound via the predictive law; averages over partitions."
  },
  {
   "property": "C36",
   "status": "proved",
   "theorems": [
    "MF.C36_dist_q",
    "MF.C36_one_interval",
    "MF.C36_update",
    "MF.C36_totals",
    "MF.C36_order",
    "MF.C36_reachable",
    "MF.C36_init",
    "MF.C36_classic_elbo",
    "MF.C36_gaussian_optimal",
    "MF.C36_mean_function_ignored"
   ],
   "note": "Model: `SparseCVIGaussianProcess`. Proof: fibre sums; optimality of the Gaussian fixed point."
  },
  {
   "property": "C37",
   "status": "proved",
   "theorems": [
    "MF.C37_cavity",
    "MF.C37_leave_out",
    "MF.C37_cavity_exists",
    "MF.C37_update",
    "MF.C37_update_none",
    "MF.C37_duplicate_indices",
    "MF.C37_log_norm",
    "MF.C37_moment_matching",
    "MF.C37_ep_update",
    "MF.C37_gaussian_exact",
    "MF.C37_gaussian_alpha",
    "MF.C37_schedule",
    "MF.C37_gaussian_regression",
    "MF.C37_energy",
    "MF.C37_init",
    "MF.C37_gaussian_objective"
   ],
   "note": "Model: `PowerExpectationPropagation`, PEP likelihoods (C37_gaussian_objective: the Gaussian objective as a log expectation, with its derivatives). Proof: rational identities; induction over schedules of site indices."
  },
  {
   "property": "C38",
   "status": "proved",
   "theorems": [
    "MF.C38_weights_normalised",
    "MF.C38_objective_bounds",
    "MF.C38_estimate",
    "MF.C38_dregs",
    "MF.C38_importance_weights",
    "MF.C38_bound",
    "MF.C38_objective_consistent",
    "MF.C38_resampling_consistent",
    "MF.C38_expected_value_consistent",
    "MF.C38_init_ignores_initial_distribution"
   ],
   "note": "Model: `ImportanceWeightedVI` and its posterior. Proof: self-normalised weights, Jensen, change of measure, DREGs."
  },
  {
   "property": "C39",
   "status": "proved",
   "theorems": [
    "MF.C39_step",
    "MF.C39_momentum_step",
    "MF.C39_moving_averages",
    "MF.C39_zero_rate",
    "MF.C39_gradient_of_kl",
    "MF.C39_conjugate",
    "MF.C39_conjugate_one_step",
    "MF.C39_vgp_gaussian",
    "MF.C39_momentum_norm_negative"
   ],
   "note": "Model: `SSMNaturalGradient` step with and without momentum. Proof: naturals/expectations round trips; chain rule identity."
  },
  {
   "property": "C40",
   "status": "proved",
   "theorems": [
    "MF.C40_multistage_normalised",
    "MF.C40_multistage_samples",
    "MF.C40_multistage_invalid_counts",
    "MF.C40_multistage_variational_expectations",
    "MF.C40_mvg_log_density",
    "MF.C40_mvg_variational_expectations",
    "MF.C40_mvg_predict_density",
    "MF.C40_mvg_predict_mean_var",
    "MF.C40_predict_y",
    "MF.C40_predict_y_default"
   ],
   "note": "Model: `MultivariateGaussian`, `MultiStageLikelihood`, sampling. Proof: tsum and integrals."
  },
  {
   "property": "C41",
   "status": "proved",
   "theorems": [
    "MF.C41_euler_maruyama",
    "MF.C41_euler_maruyama_shifted",
    "MF.C41_euler_maruyama_linear_law",
    "MF.C41_drift_roundtrip",
    "MF.C41_drift_roundtrip_general",
    "MF.C41_to_ssm_changes_drift",
    "MF.C41_handle_shape",
    "MF.C41_drift_shapes",
    "MF.C41_linearize_optimal",
    "MF.C41_scalar_views",
    "MF.C41_linearize_ou",
    "MF.C41_linearize_double_well",
    "MF.C41_drift_difference_is_kl",
    "MF.C41_drift_difference_linear"
   ],
   "note": "Model: `sde`, `sde_utils`, `LinearDrift`. Proof: induction over the grid; laws; quadrature exact for the drift divergence."
  },
  {
   "property": "C42",
   "status": "proved",
   "theorems": [
    "MF.C42_state_space_model_exact",
    "MF.C42_state_space_model",
    "MF.C42_state_space_model_documented",
    "MF.C42_batch_mismatch_accepted",
    "MF.C42_scalar_mean_accepted",
    "MF.C42_event_shape",
    "MF.C42_check_compatible",
    "MF.C42_log_pdf_states",
    "MF.C42_block_tri_exact",
    "MF.C42_block_tri",
    "MF.C42_block_tri_no_blocks_accepted",
    "MF.C42_block_tri_vector_accepted",
    "MF.C42_right_hand_side_sound",
    "MF.C42_right_hand_side_complete",
    "MF.C42_right_hand_side_refused",
    "MF.C42_flatten_round_trip",
    "MF.C42_emission",
    "MF.C42_stack_emission",
    "MF.C42_project_state",
    "MF.C42_kalman_filter_exact",
    "MF.C42_kalman_filter",
    "MF.C42_kalman_emission_unchecked",
    "MF.C42_stack_kalman",
    "MF.C42_sites",
    "MF.C42_kalman_sites",
    "MF.C42_drop_batch",
    "MF.C42_leg",
    "MF.C42_multivariate_gaussian",
    "MF.C42_check_input_shapes",
    "MF.C42_actions",
    "MF.C42_back_project_nats",
    "MF.C42_base_conditional"
   ],
   "note": "Model: shape checks of all constructors on arbitrary shape lists. Proof: exact characterisation (iff) of what is accepted."
  },
  {
   "property": "C43",
   "status": "proved",
   "theorems": [
    "MF.C43_base_conditional",
    "MF.C43_base_conditional_full",
    "MF.C43_base_conditional_full_wrong",
    "MF.C43_cvi_dist_q",
    "MF.C43_projection",
    "MF.C43_cvi_gradients",
    "MF.C43_cvi_update",
    "MF.C43_cvi_reachable",
    "MF.C43_cvi_init",
    "MF.C43_cvi_gaussian",
    "MF.C43_cvi_elbo",
    "MF.C43_predict_exact",
    "MF.C43_elbo_value",
    "MF.C43_elbo",
    "MF.C43_bound",
    "MF.C43_init",
    "MF.C43_svgp_bound",
    "MF.C43_predict_log_density",
    "MF.C43_elbo_not_a_bound",
    "MF.C43_kernel",
    "MF.C43_prior",
    "MF.C43_predict"
   ],
   "note": "Model: spatio-temporal kernel, predictions, ELBO, CVI. Proof: Kronecker algebra; witnesses for the wrong variance. Limits: minibatching is covered by the scale factor only."
  },
  {
   "property": "C44",
   "status": "proved",
   "theorems": [
    "MF.C44_to_delta_time"
   ],
   "note": "Model: `to_delta_time`. Proof: telescoping."
  },
  {
   "property": "C45",
   "status": "proved",
   "theorems": [
    "MF.C45_state_psd",
    "MF.C45_formulas",
    "MF.C45_laws"
   ],
   "note": "Model: posterior `predict_f`, `predict_y`. Proof: matrix algebra on top of C22/C25."
  },
  {
   "property": "C46",
   "status": "proved",
   "theorems": [
    "MF.C46_copies"
   ],
   "note": "Model: `create_trainable_copy`, `create_non_trainable_copy`. Proof: laws are equal; factors unchanged."
  },
  {
   "property": "C47",
   "status": "proved",
   "theorems": [
    "MF.C47_fraction",
    "MF.C47_dist_q",
    "MF.C47_init",
    "MF.C47_cavity",
    "MF.C47_leave_out",
    "MF.C47_cavity_exists",
    "MF.C47_update",
    "MF.C47_log_norm",
    "MF.C47_energy",
    "MF.C47_gaussian_updates",
    "MF.C47_gaussian_cvi",
    "MF.C47_gaussian_optimal",
    "MF.C47_gaussian_regression",
    "MF.C47_mean_function_ignored"
   ],
   "note": "Model: `SparsePowerExpectationPropagation`. Proof: marginals of a tilted Gaussian (removing a site commutes with marginalisation), evidence chain rule, induction over updates. Limits: closed forms need data between the first and last inducing point; outside, `C47_cavity` states what is computed."
  },
  {
   "property": "C48",
   "status": "proved",
   "theorems": [
    "MF.C48_gaussian_contract",
    "MF.C48_svgp",
    "MF.C48_sites",
    "MF.C48_exact",
    "MF.C48_regression",
    "MF.C48_outputs_not_joint"
   ],
   "note": "Model: `predict_log_density` of SVGP, CVI, sparse CVI, PEP, sparse PEP; the likelihood's own `predict_log_density` by contract (Gaussian: closed form, proved exact). Proof: C23 predictive law, marginals of Gaussians, evidence chain rule. Limits: test times inside the range of the conditioning times."
  },
  {
   "property": "C49",
   "status": "proved",
   "theorems": [
    "MF.C49_raises",
    "MF.C49_bridge",
    "MF.C49_conditional_statistics",
    "MF.C49_law",
    "MF.C49_returned"
   ],
   "note": "Model: `cyclic_reduction_conditional_statistics` with its final slices. Proof: bridge statistics (C21), residuals in different intervals are uncorrelated, affine maps of Gaussians."
  },
  {
   "property": "C50",
   "status": "proved",
   "theorems": [
    "MF.C50_extrapolation",
    "MF.C50_code",
    "MF.C50_matern12",
    "MF.C50_mixing"
   ],
   "note": "Model: `predict_state` with `APPROX_INF` as a parameter (the code is the instance 1e10, by `rfl`). Proof: exponential decay of the transitions from strict contraction of the stationary covariance; Loewner monotonicity of the innovation covariance bounds its inverse; entrywise big-O calculus; exact linear predictor at the ends and in between. Limits: jitter zero (C45 covers what jitter does)."
  },
  {
   "property": "C51",
   "status": "proved",
   "theorems": [
    "MF.C51_log_likelihood",
    "MF.C51_predict",
    "MF.C51_translation",
    "MF.C51_reversal",
    "MF.C51_units",
    "MF.C51_same_covariance"
   ],
   "note": "Model: as C32. Proof: the dense formulas (C32) under relabelling and scaling; stationarity and reversibility of the covariance functions from C28; non-vacuity with the Ornstein-Uhlenbeck twin of a Matern 1/2 kernel. Limits: queries in the closed range of the data, as in C32."
  },
  {
   "property": "C52",
   "status": "proved",
   "theorems": [
    "MF.C52_sequential",
    "MF.C52_chain_rule",
    "MF.C52_more_data",
    "MF.C52_bounds",
    "MF.C52_affine"
   ],
   "note": "Model: as C32. Proof: block inverse and Schur complement: the dense formulas for all data are the dense formulas for the second part with the posterior given the first as the prior; Loewner order. Limits: queries in the closed range of the data."
  },
  {
   "property": "C53",
   "status": "proved",
   "theorems": [
    "MF.C53_ordered",
    "MF.C53_kernel_parameters",
    "MF.C53_triangular",
    "MF.C53_sparse_models",
    "MF.C53_site_models"
   ],
   "note": "Model: `gpflow.Parameter` with the transforms the library chooses (`ordered()` = inverted tfp Ordered, softplus, FillTriangular; contracts), histories as lists of updates, the three sparse constructors with their parameter. Proof: cumulative sums of exponentials are strictly increasing; induction over histories. Limits: real arithmetic (softplus does not underflow)."
  },
  {
   "property": "C54",
   "status": "proved",
   "theorems": [
    "MF.C54_refine",
    "MF.C54_best",
    "MF.C54_sparse_cvi",
    "MF.C54_data_times",
    "MF.C54_exact_regression"
   ],
   "note": "Uses the models of C35, C36, C32. Proof: extend q by the prior's conditional to the larger set (Gaussian algebra keeps the KL and the predictions), project onto chains by the library's own expectations-to-SSM conversion (same pair marginals, so same predictions; Pythagoras for the KL, `C16_projection`), then the ELBO identity. Limits: real arithmetic; predictions outside the old range are not compared (there the code uses far away artificial end points)."
  },
  {
   "property": "C55",
   "status": "proved",
   "theorems": [
    "MF.C55_prior",
    "MF.C55_predict",
    "MF.C55_elbo",
    "MF.C55_bound",
    "MF.C55_vgp",
    "MF.C55_partition",
    "MF.C55_init",
    "MF.C55_add",
    "MF.C55_mul",
    "MF.C55_scalar_likelihood",
    "MF.C55_multistage_likelihood",
    "MF.C55_sampling_returns_iff",
    "MF.C55_samples"
   ],
   "note": "Model/Stack: the batch dimension of the stack is a family over Fin R, each entry the padded child of C29 with its own times; operations on batch entries are independent (TensorFlow contract). Proof: one batch entry is the child's process with independent standard normal padding (law of the padded state space model, conditional statistics of block diagonal chains); products of measures, KL of product measures is the sum; the ELBO identity of C35 for a joint likelihood. Limits: jitter zero, queries between the first and the last inducing point, at least two inducing points, batch shape in front of the kernel index ()."
  },
  {
   "property": "C56",
   "status": "proved",
   "theorems": [
    "MF.C56_gradient",
    "MF.C56_same_bound",
    "MF.C56_step",
    "MF.C56_steps",
    "MF.C56_fixed_point",
    "MF.C56_optimum",
    "MF.C56_sparse_gradient",
    "MF.C56_sparse_same_bound",
    "MF.C56_sparse_step",
    "MF.C56_sparse_steps",
    "MF.C56_sparse_fixed_point"
   ],
   "note": "Uses the models of C33-C36 and C39. Proof: the KL term has gradient θ(q) - θ(p) (C39's duality between log-partition derivatives), the expected log likelihood depends on the expectation parameters through two linear functionals per datum (chain rule with C34_gradient; for the sparse model the functionals are those of the pair of neighbouring inducing states, the rest of the variance is constant); uniqueness of gradients; induction over steps."
  },
  {
   "property": "C57",
   "status": "proved",
   "theorems": [
    "MF.C57_prior",
    "MF.C57_consistent",
    "MF.C57_first_interval",
    "MF.C57_same_kernel",
    "MF.C57_predict_state",
    "MF.C57_no_queries",
    "MF.C57_log_likelihood",
    "MF.C57_posterior",
    "MF.C57_svgp",
    "MF.C57_conditional_statistics",
    "MF.C57_svgp_init"
   ],
   "note": "Model/PiecewiseModels (C57_conditional_statistics: the statistics returned to the user, against the predictions of any q, in Props/PiecewiseStatistics): the list-valued methods of the piecewise kernel (C30) inside conditional statistics, predict_state, predict_f, Kalman regression and the sparse variational model. Spec/PiecewiseProcess: transitions as linear Gaussian channels composed over the intervals, with Lebesgue time spent in each. Proof: Chapman-Kolmogorov for the channels (time is additive, intervals are visited in order), bridge conditionals of a general (non-stationary) Gauss-Markov process (Lemmas/MarkovBridge), then the arguments of C32 and C35. Limits: jitter zero, sorted queries within the range of the conditioning times, batch shape ()."
  },
  {
   "property": "C58",
   "status": "proved",
   "theorems": [
    "MF.C58_pointwise",
    "MF.C58_continuous",
    "MF.C58_derivative",
    "MF.C58_predict_f",
    "MF.C58_predict_f_derivative",
    "MF.C58_smooth_kernels",
    "MF.C58_matern32",
    "MF.C58_matern52"
   ],
   "note": "Uses the models of C22/C23. Spec/PredictSmooth: one function of the query time evaluated by predict_state. Proof: a closed form of predict_state on the grid augmented by the two far ends, in which the query time enters only through the prior covariance with the grid (projection times grid covariance is the cross covariance; the grid covariance is invertible for strictly increasing times and kernels with process noise); transitions are continuous (induction over kernel expressions), and the prior covariance is differentiable in directions the driving noise does not enter, also where its two branches meet, by the Lyapunov equation."
  },
  {
   "property": "C59",
   "status": "proved",
   "theorems": [
    "MF.C59_constructors",
    "MF.C59_prior",
    "MF.C59_log_likelihood",
    "MF.C59_posterior",
    "MF.C59_predict_state",
    "MF.C59_predict_f"
   ],
   "note": "Uses the models of C21-C23, C26-C29 and C32, with the jitter as a parameter. Spec/Jitter: a family of kernels that differ in their jitter only. Proof: the joint covariance of a chain is linear in (initial covariance, noises), so jitter adds ε times the covariance of the chain driven by unit noise; the dense formulas (C18, C19) and the bridge statistics (C21) are continuous where the innovation covariance is invertible, which the noise model or the success of the jitter-free call gives. Missing: predict_f for noise-free kernels away from the data times (the jitter-free limit is 0/0 there)."
  },
  {
   "property": "C60",
   "status": "proved",
   "theorems": [
    "MF.C60_gradient",
    "MF.C60_smooth",
    "MF.C60_predict",
    "MF.C60_covariances",
    "MF.C60_leg_constant",
    "MF.C60_matern"
   ],
   "note": "Uses the models of C23, C32. Proof: the log likelihood equals the dense Gaussian log density (C32); Jacobi's formula for the determinant, the derivative of the inverse and of the quadratic form give the gradient; smoothness of determinant and inverse as rational functions of the entries (Cramer); covariance functions by composition. Missing: gradients through the stochastic objectives (quadrature and automatic differentiation are outside the model)."
  },
  {
   "property": "C61",
   "status": "proved",
   "theorems": [
    "MF.C61_interpolation",
    "MF.C61_uninformative"
   ],
   "note": "Uses the models of C23, C32. Proof: predictions equal the dense posterior for every noise scale (C32); the covariance of the data is positive definite because the state space model is non-degenerate and the emissions have independent rows, so the inverse is continuous at zero noise; for large noise the inverse tends to zero."
  },
  {
   "property": "C62",
   "status": "proved",
   "theorems": [
    "MF.C62_tensors_are_families",
    "MF.C62_state_space_model",
    "MF.C62_block_tri_constructor",
    "MF.C62_block_tri_operations",
    "MF.C62_block_tri_add",
    "MF.C62_block_tri_factorisations",
    "MF.C62_moments",
    "MF.C62_log_pdf",
    "MF.C62_sample",
    "MF.C62_divergence",
    "MF.C62_from_covariances",
    "MF.C62_emission",
    "MF.C62_kalman_filter",
    "MF.C62_kalman_filter_with_sites",
    "MF.C62_posterior_bayes",
    "MF.C62_log_likelihood_evidence"
   ],
   "note": "Model/Tensor: TensorFlow tensors with run-time shapes, broadcasting, reshape in row-major order, slices, concat, matmul, einsum with ellipses, batched Cholesky and banded ops. Model/Batched: block_tri_diag.py, state_space_model.py, emission_model.py and kalman_filter.py again on these tensors, with every axis number, reshape and shape assertion. Spec/Batched: what it means that a tensor holds one value per batch index and that a batched call is the family of the calls for the elements, failures included. Proof: each tensor op acts per batch index (induction on the batch shape for broadcasting and row-major positions); the methods follow by composition, the while loop by induction. Kernels, conditionals, posteriors and GP regression: C63."
  },
  {
   "property": "C63",
   "status": "proved",
   "theorems": [
    "MF.C63_kernels",
    "MF.C63_leg",
    "MF.C63_set_state_mean",
    "MF.C63_sum_and_multi_output",
    "MF.C63_product",
    "MF.C63_factor_analysis",
    "MF.C63_one_kernel",
    "MF.C63_state_space_model",
    "MF.C63_conditional_statistics",
    "MF.C63_conditional_predict",
    "MF.C63_pairwise_marginals",
    "MF.C63_predict_state",
    "MF.C63_predict_f",
    "MF.C63_mean_functions",
    "MF.C63_gpr_init",
    "MF.C63_gpr_init_default",
    "MF.C63_gpr_init_raises",
    "MF.C63_gpr_log_likelihood",
    "MF.C63_gpr_posterior",
    "MF.C63_gpr_evidence",
    "MF.C63_gpr_predictions"
   ],
   "note": "Model/BatchedKernels and Model/BatchedPosterior: the kernels, conditionals.py, ConditionalProcess.predict_state / predict_f, the zero and linear mean functions and GaussianProcessRegression again on raw tensors (tile, pad, block_diag, kronecker, expm, searchsorted, gather with batch_dims). Spec/BatchedKernels: a kernel object on tensors is the typed kernel at every index of times of every shape. Proof: every tensor op acts per index; lists of children by induction; the sequence of new time points is one more batch axis of the batched Cholesky; C62 for the state space model and filter. C63_gpr_evidence and C63_gpr_predictions combine it with C32. Sampling: C65. Not covered: StackKernel and piecewise kernels on tensors."
  },
  {
   "property": "C64",
   "status": "proved",
   "theorems": [
    "MF.C64_expectations",
    "MF.C64_naturals",
    "MF.C64_naturals_no_smoothing",
    "MF.C64_model_round_trips",
    "MF.C64_naturals_round_trip",
    "MF.C64_trainable_copy",
    "MF.C64_vgp_init",
    "MF.C64_vgp",
    "MF.C64_vgp_bound",
    "MF.C64_svgp_init",
    "MF.C64_svgp",
    "MF.C64_svgp_bound",
    "MF.C64_sites_reject_batches"
   ],
   "note": "Model/BatchedVariational: the six transformations, create_trainable_copy, VariationalGaussianProcess and SparseVariationalGaussianProcess on raw tensors, including the banded subset inverse and triangular solves of naturals_to_ssm_params per batch element. Spec/BatchedVariational: HoldsTriple, HoldsVGP, HoldsSVGP. Proof: every tensor op acts per index, the sequential scan of the emission means by induction over the time axis; predictions by C63, Kullback-Leibler divergences by C62. C64_model_round_trips, C64_naturals_round_trip, C64_vgp_bound, C64_svgp_bound combine it with C16, C17, C33, C35. ssm_to_naturals is covered for at least one transition (with none the zero padding of the code broadcasts). C64_sites_reject_batches: the site shape check on the run-time shapes. Not covered: batched likelihood objects; the likelihood is applied at every index by contract."
  },
  {
   "property": "C65",
   "status": "proved",
   "theorems": [
    "MF.C65_trajectories",
    "MF.C65_sample_state",
    "MF.C65_sample_f",
    "MF.C65_trajectories_law",
    "MF.C65_gpr_samples"
   ],
   "note": "Model/BatchedSampling: sample_state_trajectories, sample_state and sample_f on raw tensors: argsort along the time axis, the double argsort that undoes the sorting, broadcast of indices over the sample axes, gather with batch_dims. Spec/BatchedSampling: what a tensor of draws or samples holds at every sample and batch index, and the joint law of all draws. Proof: every op acts per index; searchsorted, conditional statistics and StateSpaceModel.sample by C62 and C63; C24 and C32 give the law per element, and a product of maps of a product measure is the product of the laws. Not covered: StackKernel on tensors."
  },
  {
   "property": "C66",
   "status": "proved",
   "theorems": [
    "MF.C66_constructor",
    "MF.C66_constants",
    "MF.C66_rejects_other_batch_shapes",
    "MF.C66_state_space_model",
    "MF.C66_predict_state",
    "MF.C66_predict_f",
    "MF.C66_predict_law",
    "MF.C66_trajectories",
    "MF.C66_sample_f",
    "MF.C66_vgp_init",
    "MF.C66_vgp",
    "MF.C66_vgp_bound",
    "MF.C66_svgp_init",
    "MF.C66_svgp",
    "MF.C66_svgp_bound",
    "MF.C66_default_distribution",
    "MF.C66_sampling_returns_iff",
    "MF.C66_samples_law"
   ],
   "note": "Model/BatchedStack: IndependentMultiOutputStack on raw tensors (slices of the times per child, padding, tf.stack along a new axis, shape assertions), the stack branches of the emission model, of _correct_mean_shape and of the batch shape checks in Model/BatchedKernels, Model/BatchedPosterior and Model/BatchedSampling. Spec/BatchedStack: the kernel index is the innermost batch index. Proof: the stacked kernel acts at index r as the padded child r for every batch shape, so the theorems C62 to C65 with batch shape bs + [R] apply; the transposes of the stack emission model and of the mean are computed per index; then C55 per batch element. Exceptions are not identified, since the children raise in another order."
  },
  {
   "property": "C67",
   "status": "proved",
   "theorems": [
    "MF.C67_ignores_times",
    "MF.C67_impulse",
    "MF.C67_step",
    "MF.C67_unsorted",
    "MF.C67_impulse_response",
    "MF.C67_impulse_transitions",
    "MF.C67_step_response",
    "MF.C67_other_batch_raises",
    "MF.C67_shapes_raise",
    "MF.C67_gpr_evidence",
    "MF.C67_stack_impulse",
    "MF.C67_stack_step_raises",
    "MF.C67_stack_not_a_mean_function",
    "MF.C67_stack_step_wrong"
   ],
   "note": "Model/BatchedMean: the two constructors with their shape assertion, _a_k / _b_k with the raw block bidiagonal solve, searchsorted, batched gathers, the broadcast of the feedback matrix over the actions, and the projection through the emission model, on raw tensors. Proof: each step acts per batch index (lemmas of C62 to C64), so the call is the family of the calls of the typed mean functions of C31, whose response theorems then apply at every index; the result is a mean function in the sense of C63 and C64 that may differ between batch elements. ImpulseMeanFunction passes time_points[..., :-1] as transition times, which is modelled as it is; C67_ignores_times shows that no kernel reads them. Stacks: the padded coordinates never reach the outputs (slice_impulse)."
  },
  {
   "property": "C68",
   "status": "proved",
   "theorems": [
    "MF.C68_step",
    "MF.C68_stationary",
    "MF.C68_momentum_first",
    "MF.C68_total_gradient",
    "MF.C68_vgp",
    "MF.C68_cvi",
    "MF.C68_sparse_cvi"
   ],
   "note": "Model as C39, C34, C36 and C56. Spec/NatGrad: total gradient (chain rule along every differentiable curve of expectation parameters). Proof: the curve of expectation parameters that belongs to the line of natural parameters theta - t g is differentiable (derivative of the inverse of a positive definite matrix), its velocity pairs with g to minus the Fisher quadratic form, which is negative unless g = 0; the line stays inside the open cone of proper natural parameters for small t; so the loss decreases to first order. The losses of C56 are shown to have total gradients (the KL part by a squeeze between two linear bounds, the likelihood part by the chain rule), and CVI updates are natural gradient steps by C56. No bound on the rate is computed; it depends on the state."
  },
  {
   "property": "C69",
   "status": "proved",
   "theorems": [
    "MF.C69_gradient",
    "MF.C69_unbiased",
    "MF.C69_average_step",
    "MF.C69_progress",
    "MF.C69_gaussian"
   ],
   "note": "Model as C35 (sparse variational GP with mean function, several outputs, num_data scaling) and C39 (natural gradient steps). Proof: each marginal is an affine image of the pair of inducing states around the datum, so its mean and variance are functions of the expectation parameters with known total derivatives; summed over data and outputs and combined with the KL gradient of C56. Unbiasedness is linearity of the gradient together with the partition identity of C35. Progress by the descent lemma of C68. Gaussian case: the expected log likelihood is affine in the expectation parameters, so the objective is a constant minus a KL divergence to the Gaussian whose natural parameters are the fixed target."
  },
  {
   "property": "C70",
   "status": "proved",
   "theorems": [
    "MF.C70_step",
    "MF.C70_steps",
    "MF.C70_momentum_step",
    "MF.C70_gradient",
    "MF.C70_vgp",
    "MF.C70_vgp_gaussian",
    "MF.C70_svgp"
   ],
   "note": "Model/BatchedNatGrad: minimize and _natgrad_step on raw tensors: creation of the moving averages in the first call, sums over all axes in the norm, broadcasting, shape checks of Variable.assign, the triangular transform. Spec/BatchedNatGrad: gradient of a function of the three tensors. Proof: each tensor operation acts per batch index (lemmas of C62 and C64), so without momentum the call is the family of the typed steps of C39; along any line of tensors the batched loss is the sum of the typed losses near the start (the conversion succeeds in a neighbourhood), so a batch gradient is a family of gradients; progress by C68 and C69 with the smallest of the finitely many rate bounds."
  },
  {
   "property": "C71",
   "status": "proved",
   "theorems": [
    "MF.C71_kernel_sde",
    "MF.C71_random_start_law",
    "MF.C71_random_start",
    "MF.C71_fixed_start",
    "MF.C71_gaussian_process",
    "MF.C71_ornstein_uhlenbeck",
    "MF.C71_linearize_ou"
   ],
   "note": "Spec/Refinement: convergence in law (bounded continuous test functions), refining homogeneous grids, noise factor of a stationary linear SDE. Proof: euler_maruyama of a linear SDE is exactly a state space model (C41; here also from a random start), so the values read off are Gaussian; the powers of 1 + hF converge to exp(tF) (telescoping, local error o(h)), the Lyapunov equation turns the covariance recursion into P - E^k (P - P0) E^kT plus a second-order remainder that vanishes; means, covariances and cross covariances converge to those of the model the kernel builds (C26, C28), and Gaussian laws converge when their moments do (characteristic functions and Levy's theorem of Mathlib). Drift and noise matrices exist for every kernel expression (transitions are a differentiable group, process covariances are positive semi-definite). One SDE at a time; strong (pathwise) convergence and nonlinear drifts are not claimed."
  },
  {
   "property": "C72",
   "status": "proved",
   "theorems": [
    "MF.C72_cvi_average",
    "MF.C72_cvi_partition",
    "MF.C72_cvi_gaussian_runs",
    "MF.C72_cvi_gaussian_tempered",
    "MF.C72_st_objective",
    "MF.C72_st_cvi_objective",
    "MF.C72_st_cvi_average",
    "MF.C72_st_cvi_partition",
    "MF.C72_st_cvi_gaussian_runs",
    "MF.C72_st_cvi_gaussian_tempered",
    "MF.C72_num_data_ignored"
   ],
   "note": "Spec/Minibatch: unbiased estimates over partitions, draws with replacement and shuffles. Proof: every prediction is made one input at a time, so elbo and update_sites on selected data are sums of per-datum terms; averages over all minibatches and over all sequences of minibatches by double counting and induction on the length; the limit of the averaged sites is p/N times the exact ones, and the sites-to-posterior theorems of C36 and C43 give the tempered posterior."
  },
  {
   "property": "C73",
   "status": "proved",
   "theorems": [
    "MF.C73_constructor",
    "MF.C73_dimensions",
    "MF.C73_unbatched",
    "MF.C73_initial_covariance",
    "MF.C73_state_space_model",
    "MF.C73_batches_raise",
    "MF.C73_many_raise",
    "MF.C73_single_batch"
   ],
   "note": "Model/BatchedPiecewise: the class on raw tensors, with the contracts of tf.searchsorted, tf.dynamic_partition, tf.unique_with_counts, tf.gather and the packing of lists of tensors. Spec/BatchedPiecewise: tensors holding lists of numbers, vectors and matrices. Proof: every op on a tensor holding a list is the list operation of the model of C30 (induction over the list of partitions; the partitions add up to the number of times); the failures follow from the shape of the indices alone, for arbitrary kernels."
  },
  {
   "property": "C74",
   "status": "proved",
   "theorems": [
    "MF.C74_training_marginals",
    "MF.C74_vgp_elbo",
    "MF.C74_vgp_gaussian",
    "MF.C74_vgp_init",
    "MF.C74_cvi_dist_q",
    "MF.C74_cvi_kalman",
    "MF.C74_cvi_update",
    "MF.C74_cvi_classic_elbo",
    "MF.C74_cvi_k_steps",
    "MF.C74_cvi_updates_succeed",
    "MF.C74_cvi_exact_sites",
    "MF.C74_cvi_one_step",
    "MF.C74_cvi_init"
   ],
   "note": "Model/PiecewiseVariational: `VariationalGaussianProcess` and `CVIGaussianProcess` with the list-valued methods of a piecewise kernel. Proof: the prior at the data times taken twice is supported on the diagonal and the predictive law is absolutely continuous with respect to it, so predictions at the data times are the marginals of q; the rest as for C33 and C34, with the moments and emissions of C57."
  },
  {
   "property": "C75",
   "status": "proved",
   "theorems": [
    "MF.C75_gradient",
    "MF.C75_cvi",
    "MF.C75_cvi_init",
    "MF.C75_piecewise_cvi",
    "MF.C75_sparse_cvi",
    "MF.C75_spatio_temporal",
    "MF.C75_natgrad",
    "MF.C75_svgp_natgrad"
   ],
   "note": "No new model. Proof: `N(m, w) = N(m, v) * N(0, w - v)` and Jensen's inequality make the variational expectation of a concave function decrease with the variance, hence its derivative is never positive (wherever it exists; where it does not, Mathlib's `deriv` and the claim are 0); sites with nonpositive second parameters are kept by convex combinations (induction over the history), and prior precision minus twice such sites is positive definite. Natural gradient steps: the new natural parameters are a convex combination of proper ones."
  },
  {
   "property": "C76",
   "status": "proved",
   "theorems": [
    "MF.C76_site",
    "MF.C76_pep",
    "MF.C76_pep_init",
    "MF.C76_sparse_pep"
   ],
   "note": "No new model. Proof: two independent copies of the cavity times the likelihood, rotated to half-sum and half-difference, give the variance as the average of a function of the difference under an even, decreasing density: a strictly concave log density makes it smaller than the cavity variance (Lemmas/LogConcavePEP). With C37's moments the second derivative of the log normaliser is (V - v)/v^2 < 0 and the site is -V^-1 + v^-1 over 2, negative; induction over the schedule with C37_cavity_exists, C37_update, C47_cavity_exists, C47_update."
  },
  {
   "property": "C77",
   "status": "proved",
   "theorems": [
    "MF.C77_vgp",
    "MF.C77_svgp",
    "MF.C77_cvi",
    "MF.C77_sparse_cvi",
    "MF.C77_vgp_exists",
    "MF.C77_svgp_exists",
    "MF.C77_cvi_exists",
    "MF.C77_sparse_cvi_exists"
   ],
   "note": "No new model. Proof: along the optimal coupling of two Gaussians (square roots of the covariances) the average of a concave function is concave, which gives a tangent inequality for variational expectations; a transport inequality bounds the weighted cost of that coupling by the divergence when the precision is that of the prior plus rank one terms, as it is at a stationary point (C56, C69) (Lemmas/ElboConcave, Lemmas/GlobalOptimum). Existence: the sublevel sets of the loss in (mean, covariance) are compact (tangent inequality for the likelihood terms, trace minus log determinant for the covariance) (Lemmas/OptimumExists). CVI: fixed points are stationary points (C56)."
  },
  {
   "property": "C78",
   "status": "proved",
   "theorems": [
    "MF.C78_vgp",
    "MF.C78_predict",
    "MF.C78_exists",
    "MF.C78_cvi",
    "MF.C78_same_covariance",
    "MF.C78_inducing"
   ],
   "note": "No new model; the bound of a law of function values and the conditioned Gaussian process are in Spec/FullGaussian. Proof: at the optimum dist_q has the natural parameters of the prior plus one site per output (C56), so its divergence from the prior is that of the outputs and its optimality conditions are those of the dense problem, where the tangent and transport inequalities of C77 hold for every Gaussian (Lemmas/FullGaussian). Predictions: dist_q is the Bayes posterior of the prior for the quadratic sites, in state space and in function space; posteriors are unique (C23). Inducing points: data processing inequality."
  },
  {
   "property": "C79",
   "status": "proved",
   "theorems": [
    "MF.C79_best",
    "MF.C79_cvi",
    "MF.C79_exists",
    "MF.C79_fixed_q",
    "MF.C79_cvi_best"
   ],
   "note": "No new model. Proof: the largest bound is squeezed between the bounds of two Gaussian laws (Lemmas/Envelope): below, the bound at the moved hyperparameters of the old optimal law; above, by the tangent inequality of C77 at the old optimum, the free energy of the old Gaussian sites; both are differentiable with the same derivative, by completing squares and traces. Fixed dist_q: the difference of best and fixed bound has a minimum. CVI: elbo() is the evidence of the Gaussian sites; at a fixed point the sites are the gradients of the variational expectations, so the chain rule cancels the motion of the marginals in classic_elbo()."
  },
  {
   "property": "C80",
   "status": "proved",
   "theorems": [
    "MF.C80_update",
    "MF.C80_history",
    "MF.C80_results",
    "MF.C80_training",
    "MF.C80_translation",
    "MF.C80_reversal",
    "MF.C80_units",
    "MF.C80_same_covariance",
    "MF.C80_pep_update",
    "MF.C80_pep_history",
    "MF.C80_pep_energy",
    "MF.C80_pep_training",
    "MF.C80_pep_translation",
    "MF.C80_pep_reversal",
    "MF.C80_pep_units",
    "MF.C80_pep_same_covariance"
   ],
   "note": "No new model. Proof: eliminating the state, the site-updated chain is positive definite exactly if Gram inverse plus site precisions is (Schur complements), its law at the data is the Gaussian with that precision, and its divergence from the prior is that of the function values; so marginals, cavities, objectives and predictions are functions of the Gram matrix, the cross covariances and the sites, relabelled by a permutation. Induction over the calls."
  },
  {
   "property": "C81",
   "status": "proved",
   "theorems": [
    "MF.C81_converges",
    "MF.C81_predictions",
    "MF.C81_training"
   ],
   "note": "No new model; SmoothVarExp is a hypothesis on the likelihood. Proof: with the state eliminated (C80), update_sites() moves the sites theta to theta + r (target(theta) - theta); the derivative of the bound along that direction is a positive definite quadratic form of it (Fisher metric; Schur product), so on the compact superlevel set of the start a Taylor bound gives ascent for small r; the increments are summable, limit points are fixed, the fixed point is unique and globally optimal (C77), so the run converges. Missing: an explicit value of the learning rate."
  },
  {
   "property": "C82",
   "status": "proved",
   "theorems": [
    "MF.C82_vgp",
    "MF.C82_svgp",
    "MF.C82_sparse_cvi"
   ],
   "note": "No new model. Proof: in natural parameters a step of rate gamma on the gradient of C56/C69 is x + gamma (target(x) - x); the derivative of the bound along that direction is its squared Fisher length (plus the squared asymmetry, zero on the path), target keeps precisions positive definite and block tridiagonal because the variance derivatives are nonpositive (C75), superlevel sets of the bound are compact (KL controls mean, covariance and determinant; tangent lines control the likelihood), fixed points are unique and globally optimal (C77), so the ascent lemma of C81 applies. Predictions are continuous in the moments. Sparse CVI by C56. Missing: momentum, minibatches that change between steps, an explicit rate."
  },
  {
   "property": "C83",
   "status": "proved",
   "theorems": [
    "MF.C83_svgp_gradient",
    "MF.C83_svgp_converges",
    "MF.C83_svgp_stationary",
    "MF.C83_gradient",
    "MF.C83_vgp_converges",
    "MF.C83_vgp_stationary",
    "MF.C83_same_bound",
    "MF.C83_step",
    "MF.C83_steps",
    "MF.C83_cvi_converges",
    "MF.C83_fixed_point",
    "MF.C83_cvi_optimum"
   ],
   "note": "Model/PiecewiseVariational.lean, Model/NatGrad.lean; Props/PiecewiseTraining.lean. The bound over a piecewise kernel as KL minus variational expectations of linear functionals of the states (C57/C74: predictions at the data are the marginals of q), so that the gradient theorem of C56, the stationarity theorem of C77 and the convergence theorem of C82, all stated on state space models, apply; the CVI update is the natural gradient step because both change the natural parameters by the same sites. Predictions are continuous in the moments of the states. Props/PiecewiseSparseTraining.lean does the same for the sparse variational GP, whose predictions are linear in the pair of inducing states around a datum; the predictive variances are positive because a zero variance for one q would be one for the prior, whose variances at all times are positive definite."
  },
  {
   "property": "C84",
   "status": "proved",
   "theorems": [
    "MF.C84_runs",
    "MF.C84_mean",
    "MF.C84_scatter",
    "MF.C84_converges",
    "MF.C84_constant",
    "MF.C84_averaging_rates",
    "MF.C84_running_average",
    "MF.C84_one_epoch",
    "MF.C84_cyclic",
    "MF.C84_objective",
    "MF.C84_predict"
   ],
   "note": "Model/SVGP.lean, Model/NatGrad.lean; Spec/StochasticTraining.lean (the training loop, the average over all sequences of minibatches, the optimum), Lemmas/StochasticTraining.lean, Lemmas/HullBound.lean, Props/StochasticNatGrad.lean. C69: the objective of a minibatch is a constant minus the KL divergence to its optimum, so one step moves the natural parameters the fraction gamma towards that optimum. The minibatch objective is an average of single datum objectives, hence (uniqueness of gradients) so are the natural parameters of the optima; averages over sequences split off the last minibatch, and the cross terms vanish. The recursion for the scatter gives the limits (a Robbins-Monro lemma). For the objective: all iterates lie in the convex hull of finitely many proper natural parameters, which is compact, so their moments are bounded and the KL divergence is at most a constant times the distance of the natural parameters."
  }
 ]
}