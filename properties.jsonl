{"id": "C01", "title": "to_dense places every block where the documentation says", "statement": "For a LowerTriangularBlockTriDiagonal built from diagonal blocks D_k and sub-diagonal blocks S_k, to_dense() is the square matrix whose (k,k) block is the lower triangle of D_k, whose (k+1,k) block is S_k and whose every other entry is zero; for a SymmetricBlockTriDiagonal it is the symmetric matrix with the same lower part (so, for symmetric D_k, exactly D_k on the diagonal, S_k below and S_k^T above). Supplying a sub-diagonal to a matrix with a single block is rejected.", "quantifier": "every number of blocks, every block size, every real block contents, with and without a sub-diagonal, symmetric and lower", "why_tests_cant": "The construction goes through two reshapes, transposes and a banded storage whose index arithmetic depends on both sizes; tests sample a handful of sizes, the claim is about all of them.", "anchors": ["markovflow/block_tri_diag.py:BlockTriDiagonal.__init__", "markovflow/block_tri_diag.py:BlockTriDiagonal._convert_to_band", "markovflow/block_tri_diag.py:BlockTriDiagonal.to_dense"]}
{"id": "C02", "title": "dense_mult is multiplication by the dense matrix", "statement": "dense_mult(v) equals to_dense() times v and dense_mult(v, transpose_left=True) equals the transpose of to_dense() times v, reshaped back to blocks.", "quantifier": "every block tri-diagonal matrix (symmetric or lower, with or without sub-diagonal) and every right-hand side", "why_tests_cant": "Equality of two linear maps for all sizes and real entries; a numeric test sees finitely many matrices.", "anchors": ["markovflow/block_tri_diag.py:BlockTriDiagonal.dense_mult", "markovflow/block_tri_diag.py:BlockTriDiagonal._flatten_right", "markovflow/block_tri_diag.py:BlockTriDiagonal._unflatten_right"]}
{"id": "C03", "title": "solve inverts dense_mult", "statement": "For a lower block tri-diagonal matrix with non-zero diagonal entries, solve(v) is the unique w with dense_mult(w)=v, and solve(v, transpose_left=True) the unique w with dense_mult(w, transpose_left=True)=v.", "quantifier": "every such matrix of every size and every right-hand side", "why_tests_cant": "Universally quantified two-sided inverse law.", "anchors": ["markovflow/block_tri_diag.py:LowerTriangularBlockTriDiagonal.solve"]}
{"id": "C04", "title": "cholesky of a symmetric block tri-diagonal matrix is exact, banded and fails exactly when it must", "statement": "If the dense matrix is positive definite, .cholesky does not raise and returns a lower block bi-diagonal matrix L, with positive diagonal, with L L^T = to_dense(); no entry of the true Cholesky factor is lost by storing only the band. If the dense matrix is not positive definite, .cholesky raises.", "quantifier": "every symmetric block tri-diagonal matrix of every size", "why_tests_cant": "The no-fill-in fact and the absence of failure are claims about all positive definite matrices of all sizes.", "anchors": ["markovflow/block_tri_diag.py:SymmetricBlockTriDiagonal.cholesky", "markovflow/block_tri_diag.py:_banded_to_block_tri"]}
{"id": "C05", "title": "block_diagonal_of_inverse and abs_log_det describe the matrix they factor", "statement": "For lower L with non-zero diagonal, block_diagonal_of_inverse() returns the diagonal blocks of (L L^T)^-1 (as full symmetric blocks) and abs_log_det() = log |det L|.", "quantifier": "every such L of every size", "why_tests_cant": "identities over all matrices and sizes", "anchors": ["markovflow/block_tri_diag.py:LowerTriangularBlockTriDiagonal.block_diagonal_of_inverse", "markovflow/block_tri_diag.py:LowerTriangularBlockTriDiagonal.abs_log_det"]}
{"id": "C06", "title": "addition of block tri-diagonal matrices is matrix addition", "statement": "(a + b).to_dense() = a.to_dense() + b.to_dense(), for symmetric and for lower matrices, in each of the four cases where either operand has no sub-diagonal.", "quantifier": "every pair of matrices of the same sizes", "why_tests_cant": "all sizes, all contents, all optional-argument combinations", "anchors": ["markovflow/block_tri_diag.py:LowerTriangularBlockTriDiagonal.__add__", "markovflow/block_tri_diag.py:SymmetricBlockTriDiagonal.__add__"]}
{"id": "C07", "title": "upper_diagonal_lower factorises every positive definite matrix", "statement": "For a positive definite symmetric block tri-diagonal K with a sub-diagonal, upper_diagonal_lower() never fails (every pivot is positive definite) and returns (U^T, chol_D) with U D U^T = K, where U^T is unit lower block bi-diagonal and D = chol_D chol_D^T block diagonal.", "quantifier": "every positive definite symmetric block tri-diagonal matrix, by induction on the number of blocks", "why_tests_cant": "The backward loop has as many iterations as blocks; positivity of all Schur complements is an inductive fact.", "anchors": ["markovflow/block_tri_diag.py:SymmetricBlockTriDiagonal.upper_diagonal_lower"]}
{"id": "C08", "title": "marginal means obey the state recursion", "statement": "marginal_means of a state space model is the sequence m_0 = initial_mean, m_{k+1} = A_k m_k + b_k, and it is the expectation of the random state trajectory defined by the model.", "quantifier": "every state space model with at least one transition (with none the call raises), of every state dimension", "why_tests_cant": "the implementation solves a banded linear system rather than iterating; agreement for all lengths needs induction", "anchors": ["markovflow/state_space_model.py:StateSpaceModel.marginal_means", "markovflow/state_space_model.py:StateSpaceModel.a_inv_block"]}
{"id": "C09", "title": "marginal and subsequent covariances are those of the trajectory", "statement": "marginal_covariances are P_0 and A_k P_k A_k^T + Q_k, and covariance_blocks() additionally returns Cov(x_{k+1}, x_k) = A_k P_k; they are the second moments of the random trajectory.", "quantifier": "every non-degenerate state space model of every length and dimension", "why_tests_cant": "computed through precision, banded Cholesky and sparse inverse subset; the equality is for all inputs", "anchors": ["markovflow/state_space_model.py:StateSpaceModel.marginal_covariances", "markovflow/state_space_model.py:StateSpaceModel.covariance_blocks", "markovflow/state_space_model.py:StateSpaceModel.subsequent_covariances"]}
{"id": "C10", "title": "precision is the inverse of the joint covariance", "statement": "precision.to_dense() is symmetric positive definite and is the two-sided inverse of the joint covariance of the trajectory; log_det_precision() is its log determinant. The Cholesky of the precision never raises.", "quantifier": "every non-degenerate state space model of every length and dimension", "why_tests_cant": "matrix identity for all sizes", "anchors": ["markovflow/state_space_model.py:StateSpaceModel._build_precision", "markovflow/state_space_model.py:StateSpaceModel.log_det_precision", "markovflow/gauss_markov.py:GaussMarkovDistribution.precision"]}
{"id": "C11", "title": "log_pdf is the log density of the trajectory's law", "statement": "exp(log_pdf(x)) is the density, with respect to Lebesgue measure, of the distribution that sample() draws from; it equals the dense multivariate Gaussian log density with the model's mean and covariance.", "quantifier": "every non-degenerate state space model and every state trajectory", "why_tests_cant": "a density claim is about a whole measure", "anchors": ["markovflow/state_space_model.py:StateSpaceModel.log_pdf", "markovflow/state_space_model.py:StateSpaceModel._log_pdf_factors"]}
{"id": "C12", "title": "sample draws from the model", "statement": "Feeding iid standard normal noise to sample() gives a random trajectory whose law is the multivariate Gaussian with the model's marginal means and joint covariance: x_0 = mu_0 + L_0 e_0, x_{k+1} = A_k x_k + b_k + L_{k+1} e_{k+1}.", "quantifier": "every state space model, every noise draw", "why_tests_cant": "tests can only check a histogram; the claim is about the distribution", "anchors": ["markovflow/state_space_model.py:StateSpaceModel.sample"]}
{"id": "C13", "title": "kl_divergence is the Kullback-Leibler divergence", "statement": "kl_divergence(q, p) equals the dense Gaussian KL divergence between the two trajectory laws, is never negative, and is zero exactly when the two models define the same distribution.", "quantifier": "every pair of non-degenerate state space models of equal shape", "why_tests_cant": "non-negativity over all pairs is an inequality no finite sample settles", "anchors": ["markovflow/state_space_model.py:StateSpaceModel.kl_divergence"]}
{"id": "C14", "title": "normalizer is the log-partition function", "statement": "normalizer() is the log of the integral of exp(theta . T(x)) for the natural parameters of the model; equivalently log_pdf(x) = -normalizer() + mu^T P x - x^T P x / 2.", "quantifier": "every non-degenerate state space model and every trajectory", "why_tests_cant": "identity over all inputs", "anchors": ["markovflow/state_space_model.py:StateSpaceModel.normalizer"]}
{"id": "C15", "title": "building from covariances keeps the covariances", "statement": "state_space_model_from_covariances returns a model whose initial covariance and process covariances are exactly those given, for positive definite covariances and for exactly zero ones, and raises for other non-positive-definite input.", "quantifier": "all inputs, any mixture of zero and positive definite process covariances", "why_tests_cant": "case analysis over all mixtures; error branch", "anchors": ["markovflow/state_space_model.py:state_space_model_from_covariances"]}
{"id": "C16", "title": "expectation-parameter conversions are mutually inverse", "statement": "ssm_to_expectations gives (E x, E x x^T diagonal blocks, E x_{k+1} x_k^T), and expectations_to_ssm_params recovers the original model's parameters from them (Cholesky factors up to sign of columns, i.e. the covariances are recovered exactly).", "quantifier": "every non-degenerate state space model", "why_tests_cant": "round trip for all inputs", "anchors": ["markovflow/ssm_gaussian_transformations.py:ssm_to_expectations", "markovflow/ssm_gaussian_transformations.py:expectations_to_ssm_params"]}
{"id": "C17", "title": "natural-parameter conversions are mutually inverse", "statement": "ssm_to_naturals gives (P mu, -P diagonal blocks / 2, -P sub-diagonal blocks) and naturals_to_ssm_params inverts it: model to naturals to model, and naturals to model to naturals, whenever the naturals describe a proper distribution; no intermediate Cholesky raises. The 'no smoothing' pair is likewise inverse.", "quantifier": "every non-degenerate state space model; every natural parameter whose precision is positive definite", "why_tests_cant": "round trip for all inputs", "anchors": ["markovflow/ssm_gaussian_transformations.py:ssm_to_naturals", "markovflow/ssm_gaussian_transformations.py:naturals_to_ssm_params", "markovflow/ssm_gaussian_transformations.py:ssm_to_naturals_no_smoothing", "markovflow/ssm_gaussian_transformations.py:naturals_to_ssm_params_no_smoothing"]}
{"id": "C18", "title": "the Kalman posterior is exact Bayesian conditioning", "statement": "KalmanFilter.posterior_state_space_model() has precision K^-1 + G^T R^-1 G and mean mu + K G^T (G K G^T + R)^-1 (y - G mu), i.e. the textbook linear-Gaussian posterior, and no intermediate Cholesky raises.", "quantifier": "every prior model, emission model, observation noise and data set", "why_tests_cant": "equality of a banded sweep with dense conditioning for all lengths", "anchors": ["markovflow/kalman_filter.py:BaseKalmanFilter.posterior_state_space_model", "markovflow/kalman_filter.py:BaseKalmanFilter._k_inv_post"]}
{"id": "C19", "title": "the Kalman log likelihood is the marginal likelihood", "statement": "log_likelihood() = log N(y; G mu, G K G^T + R).", "quantifier": "every prior model, emission model, observation noise and data set", "why_tests_cant": "identity through matrix determinant and inversion lemmas for all sizes", "anchors": ["markovflow/kalman_filter.py:BaseKalmanFilter.log_likelihood"]}
{"id": "C20", "title": "Gaussian sites and sparse sites agree with the dense filter", "statement": "KalmanFilterWithSites with sites (nat1, nat2) behaves as a filter observing -nat1/(2 nat2) with noise -1/(2 nat2); KalmanFilterWithSparseSites over a grid with distinct observed indices gives the posterior and likelihood of a filter that observes only those indices.", "quantifier": "every grid, every set of distinct observed indices, every site parameters with negative nat2", "why_tests_cant": "all index sets and all sizes", "anchors": ["markovflow/kalman_filter.py:KalmanFilterWithSites", "markovflow/kalman_filter.py:KalmanFilterWithSparseSites"]}
{"id": "C21", "title": "conditional statistics are Gaussian bridges", "statement": "conditional_statistics gives P = [D, E] and T such that for a Markov chain x_- -> x -> x_+ built from the kernel's transitions, x | x_-, x_+ is Gaussian with mean D x_- + E x_+ and covariance T; the inverse-precision variant satisfies T T_inv = I.", "quantifier": "all transitions and positive definite process noises", "why_tests_cant": "identity over all inputs", "anchors": ["markovflow/conditionals.py:_conditional_statistics", "markovflow/conditionals.py:conditional_statistics"]}
{"id": "C22", "title": "conditional_predict uses the two neighbouring states and is consistent at them", "statement": "For sorted training times, each new time is associated with the neighbours x_- (last training point strictly before it) and x_+ (first training point not before it), with the prior's stationary extension at the two ends; predicting at a training time returns that time's marginal exactly.", "quantifier": "all sorted training times, all query times", "why_tests_cant": "all interleavings of query and training times", "anchors": ["markovflow/conditionals.py:conditional_predict", "markovflow/conditionals.py:base_conditional_predict", "markovflow/conditionals.py:pairwise_marginals"]}
{"id": "C23", "title": "interpolated predictions equal marginals of the refined model", "statement": "The marginal predicted at a new time from the pairwise marginals of a chain equals the marginal of the chain with that time point inserted: mean P[mu_-;mu_+], covariance T + P Sigma P^T, for the prior as well as for any posterior with the same bridging conditionals.", "quantifier": "all chains, all insertion positions", "why_tests_cant": "law of total covariance for all inputs", "anchors": ["markovflow/conditionals.py:base_conditional_predict", "markovflow/posterior.py:ConditionalProcess.predict_state"]}
{"id": "C24", "title": "posterior samples at new times follow the conditional", "statement": "sample_state_trajectories-style conditional samples (prior sample plus correction) have mean D x_- + E x_+ and covariance T given the conditioning states.", "quantifier": "all conditioning samples", "why_tests_cant": "distributional claim", "anchors": ["markovflow/posterior.py:ConditionalProcess.sample_state_trajectories", "markovflow/posterior.py:ConditionalProcess.sample_f"]}
{"id": "C25", "title": "emission models project states linearly", "statement": "project_state_to_f is H x; project_state_covariance_to_f with full_output_cov is H S H^T and without it is the diagonal of H S H^T; ComposedPairEmissionModel composes; projection of a PSD covariance is PSD with non-negative diagonal.", "quantifier": "all states, covariances and emission matrices", "why_tests_cant": "identity over all inputs", "anchors": ["markovflow/emission_model.py:EmissionModel.project_state_to_f", "markovflow/emission_model.py:EmissionModel.project_state_covariance_to_f", "markovflow/emission_model.py:ComposedPairEmissionModel"]}
{"id": "C26", "title": "kernel state transitions solve the kernel's own SDE", "statement": "For OrnsteinUhlenbeck, Matern12, Matern32, Matern52, HarmonicOscillator and Constant, state_transitions(dt) = A(dt) satisfies A(0) = I, A(s+t) = A(s) A(t) and dA/dt = F A with F = feedback_matrix.", "quantifier": "all positive hyperparameters, all time gaps", "why_tests_cant": "functional equation over all reals", "anchors": ["markovflow/kernels/matern.py", "markovflow/kernels/periodic.py", "markovflow/kernels/constant.py", "markovflow/kernels/sde_kernel.py"]}
{"id": "C27", "title": "kernel process covariances are valid and make the process stationary", "statement": "process_covariances(dt) is symmetric positive semi-definite for dt >= 0 (positive definite for dt > 0 for the Matern family), vanishes at dt = 0, equals P_inf - A P_inf A^T when jitter = 0, satisfies Q(s+t) = A(t) Q(s) A(t)^T + Q(t), and the steady state covariance is invariant.", "quantifier": "all positive hyperparameters and all non-negative gaps", "why_tests_cant": "an inequality over a continuum", "anchors": ["markovflow/kernels/sde_kernel.py:StationaryKernel.process_covariances", "markovflow/kernels/matern.py", "markovflow/kernels/sde_kernel.py:SDEKernel.process_covariances"]}
{"id": "C28", "title": "a kernel's state space model has the textbook covariance function", "statement": "For any sorted time points, the covariance between outputs at t_i and t_j of the state space model built by a kernel (jitter 0) is the kernel's covariance function k(|t_i - t_j|): sigma^2 exp(-r/l) for Matern12, the 3/2 and 5/2 formulas, sigma^2 cos(2 pi r/T) for HarmonicOscillator, sigma^2 for Constant; in particular it does not depend on which other time points are present (dropping or inserting a time point changes nothing).", "quantifier": "all sorted time sequences, all hyperparameters", "why_tests_cant": "all numbers and placements of time points", "anchors": ["markovflow/kernels/sde_kernel.py:SDEKernel.state_space_model", "markovflow/kernels/matern.py", "markovflow/kernels/periodic.py"]}
{"id": "C29", "title": "combined kernels combine covariances", "statement": "Sum has covariance k1 + k2, Product k1 * k2, IndependentMultiOutput is block diagonal across outputs, StackKernel evaluates children independently, FactorAnalysisKernel mixes with its weights; the combined transitions and noises remain valid.", "quantifier": "all lists of child kernels, all times", "why_tests_cant": "all lists and all reals", "anchors": ["markovflow/kernels/sde_kernel.py:Sum", "markovflow/kernels/sde_kernel.py:Product", "markovflow/kernels/sde_kernel.py:IndependentMultiOutput", "markovflow/kernels/sde_kernel.py:StackKernel", "markovflow/kernels/sde_kernel.py:FactorAnalysisKernel"]}
{"id": "C30", "title": "piecewise kernels use the kernel of the interval each time falls in", "statement": "PiecewiseKernel.split_time_indices returns, for every time, the number of change points not after it; for sorted times the assembled transitions, covariances and offsets are, position by position, those of the kernel active at that time.", "quantifier": "all change points, all sorted time sequences", "why_tests_cant": "all interleavings of times and change points", "anchors": ["markovflow/kernels/piecewise_stationary.py"]}
{"id": "C31", "title": "mean functions solve the forced SDE", "statement": "ImpulseMeanFunction gives sum over actions before t of H exp(F (t - t_k)) u_k, StepMeanFunction gives the continuous solution of dx/dt = F x + u(t) from zero, LinearMeanFunction gives c t, ZeroMeanFunction gives 0.", "quantifier": "all action times and magnitudes, all query times", "why_tests_cant": "ODE solution over a continuum", "anchors": ["markovflow/mean_function.py"]}
{"id": "C32", "title": "GaussianProcessRegression is exact GP regression", "statement": "log_likelihood() is the dense GP marginal likelihood of the data for the kernel's covariance plus observation noise, and the posterior is the dense GP posterior at the training times, including the effect of the mean function.", "quantifier": "all data sets with sorted times", "why_tests_cant": "end-to-end composition for all sizes", "anchors": ["markovflow/models/gaussian_process_regression.py", "markovflow/kalman_filter.py"]}
{"id": "C33", "title": "variational objectives are lower bounds", "statement": "For a Gaussian likelihood, the ELBO of VariationalGaussianProcess never exceeds the log marginal likelihood, the gap is KL(q || posterior), and equality holds exactly at the posterior.", "quantifier": "all q, all data", "why_tests_cant": "inequality over all distributions", "anchors": ["markovflow/models/variational.py:VariationalGaussianProcess.elbo"]}
{"id": "C34", "title": "CVI reaches the exact posterior for Gaussian likelihoods", "statement": "After k CVI site updates with learning rate r, sites = (1-r)^k initial + (1-(1-r)^k) exact; with r = 1 one step gives the exact posterior and the ELBO equals the log marginal likelihood.", "quantifier": "all k, r, data and initial sites", "why_tests_cant": "all histories of updates", "anchors": ["markovflow/models/variational_cvi.py"]}
{"id": "C35", "title": "sparse variational objective scales minibatches without bias", "statement": "The SVGP ELBO on a minibatch scaled by num_data/batch_size averages, over minibatches forming a partition, to the full-data ELBO; the KL term is unscaled.", "quantifier": "all partitions of all data sets", "why_tests_cant": "all schedules of minibatches", "anchors": ["markovflow/models/sparse_variational.py"]}
{"id": "C36", "title": "sparse CVI adds up data contributions per inducing interval", "statement": "The site update assigns each datum to its inducing interval and sums the contributions: totals are conserved, intervals without data get zero gradient, order of the data does not matter.", "quantifier": "all data sets, all inducing grids", "why_tests_cant": "all assignments of data to intervals", "anchors": ["markovflow/models/sparse_variational_cvi.py"]}
{"id": "C37", "title": "power EP moment matching is exact for Gaussian likelihoods", "statement": "With alpha = 1 the PEP site update for a Gaussian likelihood is the exact site (y/s, -1/(2s)) whatever the cavity; damping interpolates; the cavity removes exactly fraction alpha of each site.", "quantifier": "all cavities, data, histories", "why_tests_cant": "all update histories", "anchors": ["markovflow/models/pep.py", "markovflow/likelihoods/likelihoods.py"]}
{"id": "C38", "title": "importance weights are normalised and the IWVI bound is monotone in structure", "statement": "Normalised importance weights are positive and sum to one, expected_value is the weighted average of the samples and the expectation of a resampled sample_f. elbo is the log of the mean weight and lies between the average and the largest log weight. The weights are density ratios of the unnormalised posterior to the law of the samples, so their mean is the evidence; averaged over the samples the objective equals the SVGP bound for one sample, does not decrease with the number of samples and never exceeds log p(y); elbo converges almost surely to log p(y), expected_value and resampling to the posterior expectations. dregs_objective uses the same weights. (As coded, initial_distribution is ignored.)", "quantifier": "all numbers of samples, all weights, all q, kernels, data between the inducing points, exact likelihoods, almost all sample sequences", "why_tests_cant": "inequality over all reals", "anchors": ["markovflow/models/iwvi.py", "markovflow/posterior.py:ImportanceWeightedPosteriorProcess"]}
{"id": "C39", "title": "a natural gradient step moves natural parameters along the expectation gradient", "statement": "SSMNaturalGradient.minimize without momentum maps the natural parameters theta of the distribution to theta - gamma dL/deta exactly (eta the expectation parameters), and raises exactly when the result is not a proper Gaussian; rate 0 leaves the distribution unchanged. With momentum it moves by the debiased, norm-scaled moving average of the gradients, whose closed form over any number of calls is the exponentially weighted sum. For a conjugate loss (a KL divergence up to a constant) dL/deta is the difference of natural parameters, every call with rate in [0,1] succeeds, never increases the loss and contracts geometrically to the optimum; in particular one step of rate 1 on a VGP with Gaussian likelihood gives the exact GP regression posterior. (Negative: the norm used with momentum double-counts the off-diagonal block, so can be negative and make the first call fail although all gradients are right.)", "quantifier": "all models, gradients, rates, momentum parameters and numbers of calls", "why_tests_cant": "identity over all inputs", "anchors": ["markovflow/ssm_natgrad.py:SSMNaturalGradient", "markovflow/ssm_gaussian_transformations.py"]}
{"id": "C40", "title": "likelihood objects are normalised and agree with their sampling", "statement": "MultiStageLikelihood's probabilities over the counts 0,1,2,... sum to one for every latent value, follow the documented decision tree, and its sampler draws each count with exactly the probability log_prob assigns; its variational expectations are Gaussian expectations of log_prob whenever those of the two component likelihoods are. MultivariateGaussian(chol): log_probability_density is the normalised Gaussian density with the covariance built from the lower triangle of chol; variational_expectations is the exact expectation of it under N(m,S); predict_density succeeds and is the log of the expected density; predict_mean_and_var and predict_y(full_output_cov=True) are the law of latent plus independent noise. Negative: non-count values below 2 get log probability 0; predict_y with the default full_output_cov=False adds the whole [o,o] covariance to [p,o] variances, so for o>1 it raises or returns wrong variances.", "quantifier": "all latent values, data, link functions with values in (0,1)/(0,inf), positive semi-definite latent covariances, noise factors with nonzero diagonal", "why_tests_cant": "infinite sums and integrals", "anchors": ["markovflow/likelihoods/mutlistage_likelihood.py", "markovflow/likelihoods/multivariate_gaussian.py"]}
{"id": "C41", "title": "SDE tools: Euler-Maruyama, linear drifts, linearisation and the drift divergence", "statement": "euler_maruyama(sde, x0, grid) returns x0 followed by the iterates x + f(x,t) dt + sqrt(dt) L e along 0, grid[0], ..., grid[-2]; for a linear SDE its output has exactly the law of the state space model LinearDrift.to_ssm builds. set_from_ssm followed by to_ssm on a grid of the same step gives back the model, and conversely. linearize_sde at Gaussian marginals q gives the unique linear drift minimising squared_drift_difference_along_Gaussian_path along q; for Ornstein-Uhlenbeck it is the SDE itself. squared_drift_difference_along_Gaussian_path, at the marginals of the linear drift's own model, is exactly the KL divergence between the two discretised path laws (and equals StateSpaceModel.kl_divergence for a linear p). Negative: a grid starting at 0 shifts the output by one step; to_ssm mutates the drift so that squared_drift_difference then fails.", "quantifier": "all drifts, diffusions, grids, noise, numbers of steps, Gaussian paths; for the scalar statements all differentiable / square integrable drifts", "why_tests_cant": "all grid lengths, all drifts; optimality over an infinite set; equality of a divergence between path laws", "anchors": ["markovflow/sde/drift.py", "markovflow/sde/sde.py", "markovflow/sde/sde_utils.py"]}
{"id": "C42", "title": "constructors accept exactly the documented shapes", "statement": "For tensors of the documented ranks, the StateSpaceModel, BlockTriDiagonal and KalmanFilter constructors succeed exactly when the documented relations between shapes hold, and raise otherwise; for other ranks the accepted shapes are exactly the documented ones plus those that a broadcasting comparison of shape vectors lets through (a finding: e.g. a batched mean with unbatched matrices is accepted, then event_shape raises). The same for emission models, Gaussian sites, right-hand sides of solve, likelihood argument checks, mean functions and the LEG kernel.", "quantifier": "all shapes of all ranks", "why_tests_cant": "all shape combinations", "anchors": ["markovflow/state_space_model.py:StateSpaceModel.__init__", "markovflow/block_tri_diag.py:BlockTriDiagonal.__init__", "markovflow/kalman_filter.py:KalmanFilter.__init__", "markovflow/block_tri_diag.py:BlockTriDiagonal._assert_compatible_right_shape", "markovflow/emission_model.py:EmissionModel.__init__", "markovflow/emission_model.py:StackEmissionModel.__init__", "markovflow/kalman_filter.py:UnivariateGaussianSitesNat.__init__", "markovflow/kalman_filter.py:KalmanFilterWithSites.__init__", "markovflow/gauss_markov.py:check_compatible", "markovflow/likelihoods/likelihoods.py:check_input_shapes"]}
{"id": "C43", "title": "spatio-temporal models are sparse variational Gaussian processes in space and time", "statement": "SparseSpatioTemporalKernel's outputs are the values at the inducing points of the GP with covariance ks(x,x')kt(t,t'). batch_base_conditional returns mean and variance of \u222bq(g2)p(g1|g2) without q_sqrt or with a diagonal one (with a full q_sqrt the variance is wrong: L w instead of L^T w). space_time_predict_f returns the mean of f(x,t) under q(u)p(f|u) for every q; its variance equals that of the model exactly if residual + |L w|^2 = kt(t,t) residual + |L^T w|^2 (e.g. one inducing point and kt(t,t)=1; with kt(t,t)=2 elbo exceeds the log evidence). When the variances are right, elbo is log p(y) - KL(q-process || posterior) and predict_log_density the log predictive density. The CVI variant's dist_q is prior times sites, update_sites is the natural gradient step, the constructor starts at the prior, and for a Gaussian likelihood with learning rate one a single update reaches p(u)\u220fN(y; m + E[f|u], \u03c3\u00b2).", "quantifier": "all spatial covariance functions, inducing points, one-output temporal kernel expressions with noise, q, data times within the inducing range, likelihoods, mean functions, histories of updates", "why_tests_cant": "identities between laws for all inputs and all q", "anchors": ["markovflow/models/spatio_temporal_variational.py", "markovflow/utils.py:batch_base_conditional"]}
{"id": "C44", "title": "time differences are checked", "statement": "to_delta_time returns consecutive differences, raises when any difference is negative, and the differences sum to last minus first.", "quantifier": "all time sequences of all lengths", "why_tests_cant": "all lengths and contents", "anchors": ["markovflow/utils.py:to_delta_time"]}
{"id": "C45", "title": "predicted observations add the mean function and the noise exactly once", "statement": "predict_f(t) has mean H mu_state(t) + m(t) and covariance H S H^T; predict_y adds the likelihood variance to the variance of predict_f.", "quantifier": "all posteriors, mean functions and query times", "why_tests_cant": "identity over all inputs", "anchors": ["markovflow/posterior.py"]}
{"id": "C46", "title": "copies of a state space model are the same distribution", "statement": "create_non_trainable_copy() returns a model with the same trajectory distribution; so does create_trainable_copy() for lower triangular Cholesky factors (the documented input), every tensor then being unchanged; the trainable copy always has lower triangular factors, whatever was passed in.", "quantifier": "every state space model", "why_tests_cant": "equality of measures, for every parameter value", "anchors": ["markovflow/state_space_model.py:StateSpaceModel.create_trainable_copy", "markovflow/state_space_model.py:StateSpaceModel.create_non_trainable_copy"]}
{"id": "C47", "title": "sparse power expectation propagation", "statement": "dist_q of SparsePowerExpectationPropagation is the Bayes posterior of the prior at the inducing points given the interval sites; compute_cavity removes the fraction alpha/c of an interval's site (c data in the interval) and, between the first and last inducing point, equals what the model would predict with that site raised to the power 1 - alpha/c; update_sites moves every interval's site to (1 - alpha*lr)*old + alpha*lr*(sum of its data's new sites); compute_log_norm and energy are the stated log expectations; with a Gaussian likelihood the updates coincide with sparse CVI's and converge geometrically to the best variational distribution, and with one datum per interval at the inducing points energy() is the log evidence after one step.", "quantifier": "every kernel of the library, inducing points, data, sites, alpha, learning rate and number of updates", "why_tests_cant": "equalities of Gaussian measures and of histories of updates, for all inputs", "anchors": ["markovflow/models/sparse_pep.py:SparsePowerExpectationPropagation.dist_q", "markovflow/models/sparse_pep.py:SparsePowerExpectationPropagation.compute_cavity", "markovflow/models/sparse_pep.py:SparsePowerExpectationPropagation.update_sites", "markovflow/models/sparse_pep.py:SparsePowerExpectationPropagation.energy"]}
{"id": "C48", "title": "predict_log_density is the log predictive density under the model's own posterior process", "statement": "For every model with predict_log_density (SVGP, CVI, PEP, sparse CVI, sparse PEP), at queries inside the range of the conditioning points the returned value per datum is log \u222b p(y|f) q(f) df (summed over outputs) where q(f) is the marginal of the process q(u)p(f|u); when q is the exact posterior given observations y this is log p(y*,y) - log p(y), so with Gaussian noise CVI after one or more steps of learning rate one, and PEP with power and learning rate one after any schedule visiting every datum, return the log predictive density of Gaussian process regression.", "quantifier": "every kernel, data set, likelihood with exact predict_log_density, variational distribution or sites, query times, update schedule", "why_tests_cant": "an identity of integrals over all queries, kernels and histories of updates", "anchors": ["markovflow/models/models.py:MarkovFlowSparseModel.predict_log_density", "markovflow/models/variational_cvi.py:CVIGaussianProcess.predict_log_density", "markovflow/models/pep.py:PowerExpectationPropagation.predict_log_density", "markovflow/models/sparse_variational.py:SparseVariationalGaussianProcess.predict_log_density", "markovflow/models/sparse_pep.py:SparsePowerExpectationPropagation.predict_log_density"]}
{"id": "C49", "title": "Cyclic reduction statistics describe the explained states given the conditioning states", "statement": "For explained and conditioning times that alternate (starting with an explained one) the cyclic reduction statistics F, G, L computed for a kernel satisfy: L is lower triangular with positive diagonal, and jointly the states at the conditioning times (extended by -1e10 and 1e10) and at the explained times follow the prior exactly when each explained state is drawn, independently given the conditioning ones, from N(-L^-T (G^T x_left + F^T x_right), (L L^T)^-1); projections and covariances agree with those of conditional_statistics. Unsorted times or wrong numbers of times raise. The matrices actually returned are F without its first column and G without the columns from num_conditioning on.", "quantifier": "every number of time points, every alternating pair of time grids within +-1e10, every kernel of the library with non-degenerate noise (every kernel at all for the pointwise statement), every state dimension", "why_tests_cant": "an identity between probability laws for every grid and kernel; the function has no test in the repository", "anchors": ["markovflow/conditionals.py:cyclic_reduction_conditional_statistics", "markovflow/conditionals.py:_conditional_statistics_from_transitions"]}
{"id": "C50", "title": "Extrapolation is exact up to an exponentially small error", "statement": "predict_state pins the process at two far away pseudo times -APPROX_INF and APPROX_INF. For every kernel expression with non-degenerate noise (jitter 0) and every posterior chain there are a rate kappa > 0 and a constant B such that for every value inf of APPROX_INF larger by one than all conditioning times, and every list of query times within (-inf, inf), before, between or after the conditioning times and in any order, the call returns and its means and covariances differ from those of the exact predictive q(u) p(s|u), in which there are no pseudo times, by at most B exp(-kappa (inf - |t|)). For Matern12 with lengthscale l the mean at t beyond the last conditioning time t_n differs from exp(-(t - t_n)/l) mu_n by at most exp(-2 (1e10 - t)/l) |mu_n|. The reason: the covariance function of every such kernel satisfies |k(t,t')| <= B exp(-kappa |t - t'|).", "quantifier": "every kernel expression of the library with non-degenerate noise, every nondegenerate posterior chain, every sorted conditioning grid, all query times and every value of the constant", "why_tests_cant": "a uniform error bound with rate over all query times and grids; tests compare a few predictions in floating point", "anchors": ["markovflow/conditionals.py:_conditional_statistics", "markovflow/base.py:APPROX_INF", "markovflow/posterior.py:ConditionalProcess.predict_state"]}
{"id": "C51", "title": "Regression depends on the data and the covariance function only", "statement": "GaussianProcessRegression.log_likelihood() and the posterior's predict_f do not depend on the origin of time (all times shifted, for kernels with constant emission), on its direction (one output), on the units (times multiplied by a, observations, mean function and noise factor by s, kernel parameters converted: predictions convert, log_likelihood changes by -N*o*log s), or on the expression by which a kernel with a given covariance function is built (order of a sum, OrnsteinUhlenbeck for Matern12, another state dimension). In general: two models whose residuals, kernel covariances and noise at the (re-ordered) data times agree up to factors s, s^2, s^2 give log likelihoods that differ by N*o*log|s| and predictions that agree up to the same factors.", "quantifier": "every valid regression model (kernel expression with noise, jitter zero, strictly increasing times), every shift, unit, permutation and every query in the range of the data", "why_tests_cant": "metamorphic relations over all data sets, kernels and units; tests compare a few numbers in floating point", "anchors": ["markovflow/models/gaussian_process_regression.py:GaussianProcessRegression", "markovflow/kernels/matern.py", "markovflow/kernels/sde_kernel.py:StationaryKernel"]}
{"id": "C52", "title": "Learning from more data is sequential conditioning", "statement": "Let g' have the data of g and u further ones. The posterior of g' is the posterior process of g conditioned on the further data (in any order, interleaved or not), and log_likelihood of g' is that of g plus the joint log predictive density of the further data; for one datum (t, y) in the range of the data this is the log density of y under the Gaussian returned by g's predict_f at t plus the observation noise. Hence predictive covariances never increase with more data, whatever the values observed, are at most the prior's k(t,t), at a data time at most the noise of one observation; they do not depend on the observations, of which the predictive mean is an affine function.", "quantifier": "every pair of valid regression models one of which has the data of the other, every query in the range of the data", "why_tests_cant": "relations between two runs over all data sets and all ways of splitting them; tests look at one", "anchors": ["markovflow/models/gaussian_process_regression.py:GaussianProcessRegression", "markovflow/kalman_filter.py:KalmanFilter", "markovflow/posterior.py:AnalyticPosteriorProcess.predict_f"]}
{"id": "C53", "title": "Parameters stay valid under any training history", "statement": "Inducing inputs of the sparse models can be set (constructor or assignment) exactly when strictly increasing, are shown unchanged, and after any history of assignments (including ones that raise) and optimiser steps on the unconstrained variable they are strictly increasing, so that the prior at them can always be built and is non-degenerate; every strictly increasing sequence is reachable. Kernel hyperparameters: the constructors accept exactly the values the transform can represent, and after any history the current values are ones the constructor accepts. Cholesky factors of trainable state space models and of MultivariateGaussian: always lower triangular, so their square is a covariance; the upper part of a given matrix is silently dropped; non-singularity is not kept.", "quantifier": "every finite history of assignments and optimiser steps, every number of inducing points, every kernel expression with noise", "why_tests_cant": "ranges over all training histories", "anchors": ["markovflow/base.py:ordered", "markovflow/models/sparse_variational.py:SparseVariationalGaussianProcess.__init__", "markovflow/models/sparse_variational_cvi.py:SparseCVIGaussianProcess.__init__", "markovflow/models/sparse_pep.py:SparsePowerExpectationPropagation.__init__", "markovflow/kernels/matern.py", "markovflow/state_space_model.py:StateSpaceModel.create_trainable_copy"]}
{"id": "C54", "title": "More inducing points never hurt, and enough of them are exact", "statement": "SparseVariationalGaussianProcess: for every q on the inducing points and every larger strictly increasing set of inducing points there is a q' on the larger set with identical predict_state, predict_f and marginal predictions at every time between the first and the last old inducing point, and whose elbo on every minibatch of such times (any likelihood, any num_data) is the old elbo plus a non-negative gap, namely the KL divergence between the old model's states at the new points and q'; so the best objective is monotone in the set of inducing points. With a Gaussian likelihood one sparse-CVI step of learning rate one on the larger set is at least as good as every q on the smaller one. If the inducing points include all the data times (data in any order, with repetitions), elbo = log p(y) - KL(q || posterior of the inducing states) for every likelihood; and with a Gaussian likelihood one sparse-CVI step then reproduces GaussianProcessRegression on the same data: same log marginal likelihood, same predictions.", "quantifier": "every kernel expression with noise, every non-degenerate q, every pair of nested inducing sets, every likelihood, every minibatch in range", "why_tests_cant": "quantifies over all variational distributions and all nested inducing sets", "anchors": ["markovflow/models/sparse_variational.py:SparseVariationalGaussianProcess.elbo", "markovflow/models/sparse_variational_cvi.py:SparseCVIGaussianProcess.update_sites", "markovflow/models/gaussian_process_regression.py:GaussianProcessRegression.log_likelihood", "markovflow/ssm_gaussian_transformations.py:expectations_to_ssm_params", "markovflow/posterior.py:ConditionalProcess.predict_state"]}
{"id": "C55", "title": "Models over a stack of kernels are models of independent latent processes", "statement": "With an IndependentMultiOutputStack of R kernels (each child with its own time points): the prior is the product of the children's Gaussian processes (padding coordinates are independent of everything and do not reach the outputs); predict_f of a posterior process returns, for every output, the mean (with mean function) and variance of independent processes that follow q at their conditioning times and the child's prior conditional in between, and full_output_cov is the diagonal matrix of the same variances; sample_state_trajectories and sample_f fed with independent standard normal draws return joint samples of these processes, and they return exactly when, for every child with a smaller state than the stack, the new times are distinct and differ from the child's conditioning times (otherwise they raise: the padded process covariance over a zero step is neither zero nor positive definite); elbo of the sparse and the dense variational model equals (scaled) expected joint log likelihood minus the sum of the KL divergences, log p(y) = elbo + KL(q-processes || posterior) for likelihoods that couple the outputs (multi-stage, or a scalar likelihood per output), so elbo is a lower bound, tight exactly at the posterior, and size-weighted minibatch objectives average to the full objective. The sum and the product of two stacks are stacks of the summed and multiplied processes, with the left operand's jitter.", "quantifier": "every number of kernels, all noisy kernel expressions as children, all inducing times per child, every non-degenerate q per child, every exact joint likelihood, every minibatch and partition", "why_tests_cant": "quantifies over all stacks, children, posteriors, likelihoods and data", "anchors": ["markovflow/kernels/sde_kernel.py:IndependentMultiOutputStack", "markovflow/kernels/sde_kernel.py:StackKernel", "markovflow/emission_model.py:StackEmissionModel", "markovflow/posterior.py:ConditionalProcess.predict_f", "markovflow/models/sparse_variational.py:SparseVariationalGaussianProcess.elbo", "markovflow/models/variational.py:VariationalGaussianProcess.elbo", "markovflow/likelihoods/mutlistage_likelihood.py:MultiStageLikelihood", "markovflow/posterior.py:ConditionalProcess.sample_f"]}
{"id": "C56", "title": "CVI site updates are natural gradient steps, for any likelihood", "statement": "For a likelihood whose variational expectation is differentiable: the gradient of a variational GP's loss() in the expectation parameters of dist_q exists and equals the natural parameters of dist_q minus those of the prior times one Gaussian site per output, whose parameters are the derivatives of the variational expectation. Hence one update_sites() of a CVI model with learning rate r gives the same dist_q, parameter by parameter, as one SSMNaturalGradient step with gamma = r (no momentum) on the loss() of the variational GP that has the same dist_q, and fails exactly when that fails; the same holds for any number of steps. update_sites() leaves the law of dist_q unchanged if and only if dist_q is a stationary point of the bound; the best dist_q is left unchanged. The same holds for the sparse CVI model and the sparse variational GP, each step on its own minibatch.", "quantifier": "every kernel expression with noise, every strictly increasing time grid or inducing grid, every data set (any order and position within the stand-in times for the sparse model) and sequence of minibatches, every differentiable likelihood, every site values for which dist_q exists, every learning rate, every number of steps", "why_tests_cant": "an identity between two algorithms that must hold at every state along every history and for every likelihood; tests compare a few iterates with one likelihood in floating point", "anchors": ["markovflow/models/variational_cvi.py:CVIGaussianProcess.update_sites", "markovflow/models/sparse_variational_cvi.py:SparseCVIGaussianProcess.update_sites", "markovflow/ssm_natgrad.py:SSMNaturalGradient._natgrad_step", "markovflow/models/variational.py:VariationalGaussianProcess.elbo", "markovflow/models/sparse_variational.py:SparseVariationalGaussianProcess.elbo", "markovflow/models/variational_cvi.py:gradient_transformation_mean_var_to_expectation"]}
{"id": "C57", "title": "Models with a piecewise kernel are Gaussian process models of one non-stationary process", "statement": "A PiecewiseKernel describes one Gauss-Markov process: started at the first time with mean zero and the active kernel's stationary covariance, it relaxes with the dynamics of kernel i for the time spent in interval i, one interval after the other. If no time step passes a change point, state_space_model has exactly the law of that process (state means included), and refining the grid of times does not change the law at the old times. Gaussian process regression with such a kernel has, as log likelihood and as predictions at sorted times within the range of the data, the dense Gaussian process formulas for that process's covariance function; the sparse variational model's elbo is the expected log likelihood under q(u) p(s|u) minus the KL divergence and bounds the log evidence of that Gaussian process from below. On a time axis that stays in one interval the covariance function is that interval's kernel; with equal kernels the change points have no effect. Predicting at no times raises.", "quantifier": "every non-empty sorted vector of change points (repeated ones allowed), all kernel expressions (with noise throughout, for predictions), every strictly increasing grid of times that steps onto the change points it passes, every observation vector, noise factor, mean function, variational state space model, likelihood with exact expectations, and every sorted vector of query times within the range", "why_tests_cant": "equality of an O(n) recursion with a non-stationary process over all grids and change points; the repository's tests compare a few fixed grids in floating point", "anchors": ["markovflow/kernels/piecewise_stationary.py:PiecewiseKernel", "markovflow/conditionals.py:_conditional_statistics", "markovflow/conditionals.py:conditional_predict", "markovflow/posterior.py:ConditionalProcess.predict_state", "markovflow/posterior.py:ConditionalProcess.predict_f", "markovflow/models/gaussian_process_regression.py:GaussianProcessRegression", "markovflow/models/sparse_variational.py:SparseVariationalGaussianProcess"]}
{"id": "C58", "title": "Predictions are continuous in the query time and derivative components are predicted as derivatives", "statement": "predict_state evaluates one function of the query time, whatever other queries are in the same call, and that function (means and covariances) is continuous everywhere between -1e10 and 1e10, also at the conditioning times and beyond the first and last one; predict_f is continuous if the mean function is. For kernels whose state carries derivatives the predicted mean of a derivative component is the derivative of the predicted mean: for Matern32 the second component is d/dt of the first, for Matern52 each component is d/dt of the one before, and d/dt of the variances and covariances are those of the differential equation; predict_f of such kernels and of their sums is differentiable with derivative H F x.", "quantifier": "every posterior process (any marginals at the conditioning times) over any kernel expression with process noise, any strictly increasing conditioning times, any query times in range, all lengthscales and variances", "why_tests_cant": "tests compare predictions at finitely many queries; continuity and differentiability, in particular across the conditioning times where the code switches the interval, are statements about all query times", "anchors": ["markovflow/posterior.py: ConditionalProcess.predict_state, predict_f", "markovflow/conditionals.py: conditional_predict, _conditional_statistics", "markovflow/kernels/matern.py: Matern32, Matern52"]}
{"id": "C59", "title": "Jitter perturbs results by an amount that vanishes with it", "statement": "Every kernel constructor accepts every jitter >= 0 and the kernels differ in nothing else. With any positive jitter the state space model of every kernel expression exists at any non-decreasing time points (also repeated times and noise-free kernels, where jitter 0 may fail), and its outputs have the kernel's covariance plus jitter times a positive semidefinite matrix that does not depend on the jitter: jitter only adds variance. As the jitter tends to 0 the log likelihood of GPR tends to the dense log marginal likelihood, the posterior mean and covariance at the data tend to the dense posterior, predict_state of a given posterior tends to the prediction without jitter, and predict_f of the GPR posterior tends to the dense posterior at every query in range.", "quantifier": "every kernel expression (any constructors, any nesting), any jitter, any non-decreasing data times (strictly increasing and process noise for predict_f), any observations, mean function and noise", "why_tests_cant": "tests run with one jitter value and a tolerance; that the error vanishes with the jitter and that variance only grows is a statement about all jitter values, kernels and data sets", "anchors": ["markovflow/kernels/sde_kernel.py: jitter_matrix, initial_covariance, transition_statistics, StationaryKernel", "markovflow/models/gaussian_process_regression.py: log_likelihood, posterior", "markovflow/conditionals.py: _conditional_statistics_from_transitions"]}
{"id": "C60", "title": "The log likelihood has the textbook gradient and everything is smooth in the hyperparameters", "statement": "As the kernel hyperparameters, the mean function and the observation noise of a GPR model vary along a differentiable curve, log_likelihood() is differentiable with derivative 1/2 a' C' a - 1/2 tr(C^-1 C') + a' m' (C the covariance of the observations, C' its derivative, a = C^-1 (y - m)), and loss() has the negative derivative: a gradient-based optimiser sees the gradient of the exact marginal likelihood although the code never forms C. log_likelihood and predict_f are as smooth, jointly in all hyperparameters, as the covariance function, mean and noise factor; the covariance functions of all kernels and of their sums, products, independent stacks and concatenations are smooth on the whole valid range of their parameters, so the log likelihood of a Matern model is an infinitely differentiable (analytic) function of lengthscale, variance and noise level.", "quantifier": "every kernel expression, every curve (or open set of a normed space) of valid hyperparameters, every strictly increasing grid of times, all observations, queries within the data range", "why_tests_cant": "tests check the gradient at a few points against finite differences or GPflow; differentiability and the closed form of the derivative are statements about all parameter values and data sets", "anchors": ["markovflow/models/gaussian_process_regression.py: GaussianProcessRegression.log_likelihood, loss", "markovflow/kalman_filter.py: log_likelihood", "markovflow/kernels: Matern12, Matern32, Matern52, OrnsteinUhlenbeck, HarmonicOscillator, combinations"]}
{"id": "C61", "title": "Observation noise limits: interpolation and return to the prior", "statement": "Scale the Cholesky factor of the observation covariance of a GPR model by s > 0. posterior and predict_f succeed for every s. As s tends to 0, predict_f at every query within the data tends to the noise-free conditional of the Gaussian process, which at a data time has the observation as mean and zero covariance (the model interpolates); as s tends to infinity, predict_f tends to the prior mean and covariance.", "quantifier": "every kernel expression with process noise (for interpolation: emission matrices with independent rows), strictly increasing times, all observations, mean functions and noise factors, all queries within the data range", "why_tests_cant": "tests use one noise level; a limit is a statement about all of them", "anchors": ["markovflow/models/gaussian_process_regression.py: GaussianProcessRegression.posterior", "markovflow/kalman_filter.py: posterior_state_space_model", "markovflow/posterior.py: predict_f"]}
{"id": "C62", "title": "Batching: a batched call is the family of the calls for the batch elements", "statement": "Give the block tri-diagonal matrices, StateSpaceModel, state_space_model_from_covariances, EmissionModel or the Kalman filters tensors with any leading batch shape. Then every operation (to_dense, dense_mult, solve, cholesky, upper_diagonal_lower, block_diagonal_of_inverse, abs_log_det, +; marginal means and covariances, precision, log_pdf, sample, kl_divergence, normalizer; projections; posterior_state_space_model) returns a tensor or object whose part at every batch index is the result of the same operation on the inputs at that index, independently of the other elements; it raises exactly when the operation raises for one of the elements. Samples and states may have further leading sample axes. log_likelihood of a Kalman filter is the sum over the batch of the log marginal likelihoods.", "quantifier": "every batch shape of any rank without empty axes, every sample shape, every number of time points, state dimension and output dimension, all tensors of the documented shapes, all draws", "why_tests_cant": "tests use two or three fixed batch shapes, often with equal dimensions, so that a wrong axis, reshape order or broadcast can go unnoticed; the claim is about all ranks and sizes", "anchors": ["markovflow/block_tri_diag.py: BlockTriDiagonal, LowerTriangularBlockTriDiagonal, SymmetricBlockTriDiagonal", "markovflow/state_space_model.py: StateSpaceModel, state_space_model_from_covariances", "markovflow/emission_model.py: EmissionModel", "markovflow/kalman_filter.py: KalmanFilter, KalmanFilterWithSites"]}
{"id": "C63", "title": "Batching of kernels, conditionals, predictions and GP regression", "statement": "Give a kernel (any basic kernel, or a sum, product, independent multi-output or factor analysis combination of kernels with any state dimensions), the conditional functions, a ConditionalProcess or a GaussianProcessRegression time points and observations with any leading batch shape. Every method (state_transitions, transition_statistics, process_covariances, state_offsets, initial mean and covariance, generate_emission_model, state_space_model; conditional_statistics, conditional_predict, pairwise_marginals; predict_state, predict_f; posterior) returns tensors whose part at every batch index is the result of the same call on the times and data at that index, which may all be different; it raises exactly when the call raises for one of the elements. log_likelihood of a batched regression is the sum over the batch of the log marginal likelihoods, and predict_f of its posterior is the GP posterior of every element given its own data. Mismatched batch shapes of data, or a batched noise factor, are rejected by the constructor.", "quantifier": "every batch shape of any rank without empty axes, every number of training and new times, every list of children and every state and output dimension, all hyperparameters, times and observations", "why_tests_cant": "tests use one or two fixed batch shapes, usually with the same times in every element; the insertion indices and gathers, the tiling of emission matrices and the broadcasting of steady-state covariances have to be right for every rank and for different times per element", "anchors": ["markovflow/kernels/sde_kernel.py: SDEKernel, StationaryKernel, ConcatKernel, Sum, Product, IndependentMultiOutput, FactorAnalysisKernel", "markovflow/kernels/matern.py", "markovflow/kernels/periodic.py", "markovflow/kernels/constant.py", "markovflow/kernels/latent_exp_generated.py", "markovflow/conditionals.py", "markovflow/posterior.py: ConditionalProcess", "markovflow/models/gaussian_process_regression.py"]}
{"id": "C64", "title": "Batching of the parameter transformations and of the variational models", "statement": "Give ssm_to_expectations, expectations_to_ssm_params, ssm_to_naturals, naturals_to_ssm_params, the two no_smoothing variants, create_trainable_copy, VariationalGaussianProcess or SparseVariationalGaussianProcess inputs with any leading batch shape. Each transformation returns, at every batch index, the transformation of the model (or parameters) there, and raises exactly when it raises for one of them; so the round trips between models, natural and expectation parameters hold on the whole batch. A variational model built from a batch of data (or inducing inputs) and an optional batched initial distribution is one model per batch element; its posterior and predictive log densities are those of the elements, its ELBO is the sum of their ELBOs and its loss minus that. The batched ELBO is a lower bound on the sum of the log evidences of the elements, equal to it exactly when the variational distribution of every element is its posterior. The site based models (CVIGaussianProcess, PowerExpectationPropagation) accept observations of shape [N, 1] only and reject every batch.", "quantifier": "every batch shape of any rank without empty axes, every number of time points, inducing points and minibatch points, every state and output dimension, every likelihood, all models, parameters, times and observations", "why_tests_cant": "tests convert one or two batched models and never compare a batched objective with the sum over its elements; per-element correctness for every shape, the point at which a batched call raises, and the evidence bound with its equality case are statements about all shapes and values", "anchors": ["markovflow/ssm_gaussian_transformations.py: ssm_to_expectations, expectations_to_ssm_params, ssm_to_naturals, naturals_to_ssm_params, ssm_to_naturals_no_smoothing, naturals_to_ssm_params_no_smoothing", "markovflow/state_space_model.py: StateSpaceModel.create_trainable_copy", "markovflow/models/variational.py: VariationalGaussianProcess", "markovflow/models/sparse_variational.py: SparseVariationalGaussianProcess", "markovflow/models/variational_cvi.py: GaussianProcessWithSitesBase"]}
{"id": "C65", "title": "Posterior sampling with batch and sample axes", "statement": "Call sample_state_trajectories, sample_state or sample_f of a posterior process with a batch of conditioning points of any leading shape and any sample_shape. At every sample index and batch index the result is the sample that the process of that batch element makes from its own normal draws, and the call raises exactly when it raises for one of the elements. With independent standard normal draws, the trajectories of different samples and of different batch elements are therefore independent, and each has the predictive law of its element: states at the conditioning times from its distribution, states at the new times from the prior given these. The samples of sample_f of a batch of GP regressions are independent draws from the GP posteriors of the elements given their own data.", "quantifier": "every batch shape and sample shape of any rank without empty axes, every number of data points and of new time points in any order, every state and output dimension, every kernel, all values of the draws, and all events of the joint law of the whole result", "why_tests_cant": "tests draw a few samples and compare first and second moments up to sampling error; independence between samples and batch elements and the equality of laws are statements about measures, and per-element correctness must hold for every shape", "anchors": ["markovflow/posterior.py: ConditionalProcess.sample_state_trajectories, ConditionalProcess.sample_f, PosteriorProcess.sample_state", "markovflow/state_space_model.py: StateSpaceModel.sample", "markovflow/models/gaussian_process_regression.py: GaussianProcessRegression.posterior"]}
{"id": "C66", "title": "Stacks of kernels on raw tensors with any batch shape", "statement": "Build an IndependentMultiOutputStack from R kernels with any state dimensions and use it with times of shape batch_shape + [R, N]: state_space_model, predict_state, predict_f (with and without full_output_cov), sample_state_trajectories and sample_f give, at every batch element and kernel, what child r gives with its own times, distribution and mean function, and raise exactly when the call for one batch element raises. With independent standard normal draws the outputs of sample_f are, jointly over samples, batch elements and kernels, independent draws of the children's processes; sample_f returns exactly when no batch element has, for a child with a smaller state than the stack, a repeated new time or a new time equal to a conditioning time. Times whose last batch axis is not R are rejected. VariationalGaussianProcess and SparseVariationalGaussianProcess built on such a stack, with observations of shape batch_shape + [N, R], hold one model per batch element; their objective is the sum of the objectives of the elements, hence a lower bound of the summed log evidence with the summed KL divergences as the gap, and predict_f gives at every batch element the marginals of independent processes.", "quantifier": "every batch shape of any rank without empty axes, every number of kernels and of data points, children of any state dimensions, every sample shape, every likelihood given by a log density and its exact variational expectations, all values", "why_tests_cant": "the kernel axis is mixed with the batch axes by transposes, paddings and reshapes whose correctness depends on every axis length; tests use one batch shape and kernels with a few dimensions, where transposed or broadcast axes can agree by accident", "anchors": ["markovflow/kernels/sde_kernel.py: StackKernel, IndependentMultiOutputStack", "markovflow/emission_model.py: StackEmissionModel", "markovflow/posterior.py: ConditionalProcess, _correct_mean_shape", "markovflow/models/variational.py: VariationalGaussianProcess", "markovflow/models/sparse_variational.py: SparseVariationalGaussianProcess"]}
{"id": "C67", "title": "Impulse and step mean functions with batches of actions", "statement": "Build an ImpulseMeanFunction or StepMeanFunction from action times of shape batch_shape + [num_actions], perturbations of shape batch_shape + [num_actions, state_dim] and any kernel. Called with query times of the same batch shape, in any order, it returns at every batch element the values of the mean function of that element's own actions: for sorted actions the (projected) response of the state to the impulses strictly before the query, respectively the solution from rest of dx/dt = F x + u(t) with the piecewise constant input of that element; it raises exactly when the call raises for one of the elements, in particular when one element's action times are unsorted or, for steps, the feedback matrix is singular. Queries of a batch shape with another number of elements raise, and so do constructor calls whose action times and perturbations disagree. Used as the mean function of a batched GaussianProcessRegression, each element has its own response as prior mean. Over a stack of kernels the impulse mean function gives the impulse means of all children as columns.", "quantifier": "every batch shape of any rank without empty axes, every number of actions and queries, every kernel expression (basic kernels, sums, products, multi-output, factor analysis, stacks), all values", "why_tests_cant": "the batch axes pass through searchsorted, gathers, a batched bidiagonal solve and broadcasts whose alignment depends on the axis lengths; tests use single sequences or one shape", "anchors": ["markovflow/mean_function.py: ImpulseMeanFunction, StepMeanFunction", "markovflow/posterior.py: ConditionalProcess.predict_f, _correct_mean_shape", "markovflow/kernels/sde_kernel.py: StackKernel.feedback_matrix"]}
{"id": "C68", "title": "Small enough natural gradient steps and CVI updates make progress", "statement": "Take any loss of the distribution that is totally differentiable in the expectation parameters, at a dist_q where its gradient is not zero. Then there is a positive bound such that SSMNaturalGradient.minimize without momentum, with any positive rate below it, succeeds (dist_q stays a proper Gaussian) and strictly decreases the loss; where the gradient is zero no rate changes dist_q. The first call of a fresh optimiser with momentum also strictly decreases the loss for small rates, provided the number it uses as squared norm is not negative. In particular, for every likelihood with differentiable variational expectation: steps of small rate on a variational GP strictly increase elbo(), and update_sites() of a CVI model, and of a sparse CVI model on any minibatch, with small learning rate strictly increases classic_elbo() (of that minibatch), unless dist_q is a fixed point for every learning rate.", "quantifier": "every loss that depends on the law only and is totally differentiable, every non-degenerate dist_q, every kernel expression with noise, grid, data set and minibatch, every differentiable likelihood, every site values for which dist_q exists, every rate below a bound that depends on the state", "why_tests_cant": "a test sees one rate at one state; that a descent step exists at every state where the gradient does not vanish needs the sign of the Fisher information and differentiability", "anchors": ["markovflow/ssm_natgrad.py: SSMNaturalGradient._natgrad_steps, _natgrad_step", "markovflow/models/variational.py: VariationalGaussianProcess.elbo, loss", "markovflow/models/variational_cvi.py: CVIGaussianProcess.update_sites, classic_elbo", "markovflow/models/sparse_variational_cvi.py: SparseCVIGaussianProcess.update_sites, classic_elbo"]}
{"id": "C69", "title": "Natural gradients of the sparse variational GP: several outputs, mean function and minibatch scaling", "statement": "The gradient of SparseVariationalGaussianProcess.loss((X, Y)) in the expectation parameters of dist_q is, for any number of outputs, any mean function and any num_data, the natural parameters of dist_q minus those of the prior times one Gaussian factor per datum and output on the pair of inducing states around the datum, raised to the power num_data / minibatch size. The minibatch gradients of any partition of the data, weighted by the minibatch sizes, average to the gradient of the full objective, whatever the likelihood; and if the natural gradient steps on all the minibatches succeed from the same dist_q, the step on the full data succeeds and its natural parameters are the average of theirs. Small enough steps strictly increase elbo((X, Y)) unless the gradient is zero. With a Gaussian likelihood there is a best distribution q*, elbo of any q is that of q* minus KL(q || q*), one step of rate 1 reaches q* from anywhere, and rates in [0, 1] approach it geometrically.", "quantifier": "every kernel expression with noise, number of outputs, mean function, inducing grid, data set, num_data, partition into minibatches, non-degenerate dist_q, differentiable likelihood and rate", "why_tests_cant": "unbiasedness and optimality are statements about every partition and every variational distribution; a test compares a few", "anchors": ["markovflow/models/sparse_variational.py: SparseVariationalGaussianProcess.elbo, loss", "markovflow/ssm_natgrad.py: SSMNaturalGradient._natgrad_steps, _natgrad_step"]}
{"id": "C70", "title": "Natural gradients on batches of distributions", "statement": "Call SSMNaturalGradient.minimize with a dist_q of any batch shape. Without momentum a call, and any sequence of calls, is one optimisation per batch element, and raises exactly when it raises for one of them. With momentum the moving averages of the gradients are kept per element but the squared norm is summed over the whole batch, so all elements move with one common effective rate; the call succeeds exactly when the norm average is not negative and all the new natural parameters are proper. If the loss of the batch is the sum of the losses of the elements, its gradient tensors hold the gradients of the elements. Hence, for a batched VariationalGaussianProcess and SparseVariationalGaussianProcess with differentiable likelihood, small enough steps strictly increase elbo() unless all gradients vanish; and with a Gaussian likelihood one step of rate 1 gives the exact posterior of every element, and elbo() becomes the sum of the log marginal likelihoods.", "quantifier": "every batch shape, every batch of non-degenerate distributions, gradients, optimiser states and hyperparameters, every kernel expression, data and differentiable likelihood", "why_tests_cant": "the independence of batch elements has to hold for every shape and all values; a test compares a few", "anchors": ["markovflow/ssm_natgrad.py: SSMNaturalGradient.minimize, _natgrad_step", "markovflow/models/variational.py: VariationalGaussianProcess.loss", "markovflow/models/sparse_variational.py: SparseVariationalGaussianProcess.loss"]}
{"id": "C71", "title": "Refining the Euler\u2013Maruyama grid converges to the kernel's exact model", "statement": "Every kernel expression of the library (basic kernels, sums, products, multi-output and factor kernels; jitter zero) is a linear SDE dx = F x dt + L dB, with F its own feedback matrix for the basic kernels. Simulating that SDE with euler_maruyama on homogeneous grids whose step tends to zero, from a fixed or a Gaussian random start, and reading the values at any finite set of times, converges in law to the trajectory, from the same start, of the state space model that the kernel builds on these times; started from the kernel's initial distribution, the outputs converge in law to the Gaussian process with the textbook covariance function. In particular euler_maruyama of OrnsteinUhlenbeckSDE(decay, q), and linearize_sde of it, converge to the OrnsteinUhlenbeck(decay, q) kernel.", "quantifier": "all kernel expressions, all drift and noise matrices representing them, all finite sets of times, all starts (fixed or Gaussian), all sequences of homogeneous grids with step tending to zero, all bounded continuous test functions", "why_tests_cant": "A statement about a limit of distributions over infinitely many grids; a test can only compare Monte Carlo averages on a few grids.", "anchors": ["markovflow/sde/sde_utils.py:euler_maruyama", "markovflow/sde/sde_utils.py:linearize_sde", "markovflow/sde/sde.py:OrnsteinUhlenbeckSDE", "markovflow/kernels/matern.py:OrnsteinUhlenbeck", "markovflow/kernels/sde_kernel.py:StationaryKernel.state_space_model"]}
{"id": "C72", "title": "Training on minibatches: objectives are unbiased, CVI site updates are not rescaled", "statement": "With num_data set to the number of data, elbo of SpatioTemporalSparseVariational and of SpatioTemporalSparseCVI on a minibatch averages to the full-data elbo: over every partition into minibatches (weighted by size), over all draws with replacement and over all shuffles. update_sites of SparseCVIGaussianProcess and SpatioTemporalSparseCVI on minibatches: over a partition the data contributions add up to those of the full update, but no minibatch is scaled up and num_data plays no part, so the average over random minibatches of p out of N data of the updated sites is (1-r) theta + (p/N) r G where the full update gives (1-r) theta + r G. With a Gaussian likelihood and learning rate in (0,1] any sequence of minibatch updates succeeds, and the average of the sites over all sequences of T random minibatches tends, as T grows, to p/N times the exact sites; a model with these sites has as dist_q the tempered posterior in which every datum counts p/N times.", "quantifier": "all kernels, data sets, mean functions, likelihoods (Gaussian for the long-run statement), minibatch sizes, partitions, starting sites with negative semidefinite second parameters, all sequences of minibatches of any length", "why_tests_cant": "The average runs over exponentially many minibatch sequences of unbounded length and over all data sets; a test sees a few noisy runs.", "anchors": ["markovflow/models/spatio_temporal_variational.py:SpatioTemporalBase.elbo", "markovflow/models/spatio_temporal_variational.py:SpatioTemporalSparseCVI.update_sites", "markovflow/models/sparse_variational_cvi.py:SparseCVIGaussianProcess.update_sites"]}
{"id": "C73", "title": "Piecewise kernels: plain times work, batches of times do not", "statement": "A PiecewiseKernel can be used with times of shape [n] only. (a) The constructor builds the kernel from a non-empty list of kernels with the same output and state dimension, and a non-negative jitter, and raises an assertion error otherwise. (b) For times (and time steps) without batch axes, split_time_indices, steady_state_covariances, feedback_matrices, state_means, state_transitions, state_offsets, generate_emission_model, transition_statistics, initial_covariance and state_space_model return, on tensors, the results of the mathematical model of C30, or raise the same exception. (c) For times with any batch axes, although the documentation promises batch_shape, steady_state_covariances, feedback_matrices, state_means, transition_statistics, initial_covariance and state_space_model raise, whatever the kernels, change points and times. (d) For times with a number of batch elements other than one, split_time_indices, state_transitions, state_offsets and generate_emission_model raise as well. (e) For batch axes of size one, state_transitions, state_offsets and generate_emission_model return the results of the unbatched times and drop the batch axes.", "quantifier": "all lists of stationary kernels on tensors, all vectors of change points, all tensors of times and time steps of any rank and shape", "why_tests_cant": "The repository tests the class on one vector of times; whether every method works, or fails, for every shape and every content of the times is a statement about all tensors.", "anchors": ["markovflow/kernels/piecewise_stationary.py:PiecewiseKernel", "markovflow/kernels/sde_kernel.py:SDEKernel.state_space_model"]}
{"id": "C74", "title": "Variational and CVI models over a piecewise kernel", "statement": "With a PiecewiseKernel, predicting at the conditioning times returns the marginals of the variational distribution. VariationalGaussianProcess.elbo() satisfies log p(y) = elbo + KL(q || posterior), p(y) being the evidence under the Gaussian process with the covariance function of the piecewise process; with a Gaussian likelihood this is GaussianProcessRegression's log likelihood for the same kernel. CVIGaussianProcess.dist_q is the piecewise prior times the sites (or it raises), posterior_kalman has the same law, update_sites() moves each site towards the gradient at the marginal of dist_q, classic_elbo() is log p(y) - KL, and with a Gaussian likelihood k updates give (1-r)^k initial + (1-(1-r)^k) exact, reaching the exact posterior in one step for r = 1.", "quantifier": "every piecewise kernel over kernel expressions with noise, any number of change points and data, every strictly increasing data times with no change point strictly inside a transition, every non-degenerate q, every likelihood with exact variational expectations, every site values, learning rate and number of updates", "why_tests_cant": "identities between integrals, KL divergences and the evidence for every kernel, every set of change points, every q and any number of updates", "anchors": ["markovflow/models/variational.py: VariationalGaussianProcess", "markovflow/models/variational_cvi.py: CVIGaussianProcess", "markovflow/kernels/piecewise_stationary.py: PiecewiseKernel", "markovflow/posterior.py: ConditionalProcess"]}
{"id": "C75", "title": "With a log-concave likelihood the variational updates never break down", "statement": "Suppose the likelihood's log density log p(y | f) is concave in f (Gaussian, Poisson, ...) and its variational expectation is the Gaussian integral it stands for. Then: (1) the variational expectation does not increase with the variance, so the second natural gradient of every datum is never positive; (2) CVIGaussianProcess.update_sites with a learning rate r in [0, 1], from any sites whose second parameters are not positive (in particular from a newly built model), succeeds any number of times; dist_q exists after every call, and after N calls the precision of a site is at least (1 - r)^N times the initial one; for a new model and r < 1, posterior_kalman, elbo(), loss() and classic_elbo() return after any number of calls; the same holds over a piecewise kernel; (3) SparseCVIGaussianProcess.update_sites on any history of minibatches, and SpatioTemporalSparseCVI.update_sites on any history of minibatches of any sizes at times between the first and the last inducing time, succeed and dist_q exists after every call; (4) natural gradient steps without momentum, of any rate in [0, 1], on the loss of the variational GP and of the sparse variational GP (any history of minibatches, any num_data, any number of outputs, any mean function) never raise, from any non-degenerate dist_q.", "quantifier": "all log-concave likelihoods with exact variational expectations, all admissible kernels, data, minibatch histories, learning rates in [0, 1], starting points and numbers of steps", "why_tests_cant": "a failed Cholesky factorisation shows up only at particular data, rates and iterations; tests run a few steps on one data set and cannot show that no history of updates ever reaches a site or step that makes the posterior precision indefinite", "anchors": ["markovflow/models/variational_cvi.py: CVIGaussianProcess.update_sites, dist_q, elbo, classic_elbo, local_objective_and_gradients", "markovflow/models/sparse_variational_cvi.py: SparseCVIGaussianProcess.update_sites, dist_q", "markovflow/models/spatio_temporal_variational.py: SpatioTemporalSparseCVI.update_sites, dist_q", "markovflow/models/variational.py: VariationalGaussianProcess.elbo", "markovflow/models/sparse_variational.py: SparseVariationalGaussianProcess.elbo", "markovflow/ssm_natgrad.py: SSMNaturalGradient.minimize"]}
{"id": "C76", "title": "With a strictly log-concave likelihood power EP never breaks down", "statement": "Suppose the likelihood is PEPGaussian, or PEPScalarLikelihood with the exact predict_log_density of a likelihood whose log density log p(y | f) is, at the observations, strictly concave in f and bounded above (Poisson at counts, ...). Then: (1) at every cavity of positive variance the second derivative of the log normaliser is negative, so the division in the moment matching step is by a nonzero number, and the new site has positive precision; (2) PowerExpectationPropagation with a power in (0, 1] and a learning rate in [0, 1], over a kernel with positive variance at the data times, from any sites whose second parameters are not positive: every call of any schedule of update_sites (any indices, none twice in one call, or none at all) succeeds; afterwards dist_q, the cavities (with positive variances) and energy() exist, and no site with positive precision has lost it; from a newly built model posterior_kalman and elbo() exist too after any schedule; (3) SparsePowerExpectationPropagation with a power and a learning rate in [0, 1], on any history of batches of any sizes between the first and the last inducing time: every update_sites succeeds, dist_q exists after it, and so do the cavities and energy of every further batch.", "quantifier": "all such likelihoods, admissible kernels, data, powers and learning rates, starting sites, schedules of indices and histories of batches", "why_tests_cant": "a negative site precision, a division by zero or a failed Cholesky factorisation of a cavity arises only at particular data, powers and orders of the updates; tests run a few sweeps on one data set and cannot show that no schedule reaches one", "anchors": ["markovflow/models/pep.py: PowerExpectationPropagation.update_sites, compute_cavity, gradient_correction, energy, elbo", "markovflow/models/sparse_pep.py: SparsePowerExpectationPropagation.update_sites, compute_new_sites, compute_cavity, energy", "markovflow/likelihoods/likelihoods.py: PEPScalarLikelihood, PEPGaussian"]}
{"id": "C77", "title": "With a log-concave likelihood the variational objective has exactly one optimum, and it is the fixed point of update_sites", "statement": "Suppose the likelihood's log density log p(y | f) is concave in f (Gaussian, Poisson, Bernoulli, ...), its variational expectation is the exact average under N(m, v) and differentiable, and every row of the emission matrix at the data is nonzero. Then: (1) among all non-degenerate Gaussian Markov distributions there is one whose elbo() (variational GP, any number of outputs and any mean function; sparse variational GP, any minibatch and num_data, data anywhere) is at least that of every other, and every other distribution whose bound is equal is the same law; (2) the gradient of loss() in the expectation parameters of dist_q is zero exactly at that distribution: there are no other stationary points, saddle points or local optima; (3) for CVI and sparse CVI with a nonzero learning rate, update_sites() leaves dist_q unchanged exactly when classic_elbo() is this largest bound; sites with this property exist, and all sites with this property have the same dist_q.", "quantifier": "all log-concave likelihoods with exact differentiable variational expectations, admissible kernels, data, minibatches, mean functions, current distributions and sites", "why_tests_cant": "A claim about every Gaussian Markov distribution (an infinite set of competitors) and every starting point; an optimiser run that converges shows one stationary point, not that there are no others.", "anchors": ["markovflow/models/variational.py: VariationalGaussianProcess.elbo, loss", "markovflow/models/sparse_variational.py: SparseVariationalGaussianProcess.elbo, loss", "markovflow/models/variational_cvi.py: CVIGaussianProcess.update_sites, classic_elbo", "markovflow/models/sparse_variational_cvi.py: SparseCVIGaussianProcess.update_sites, classic_elbo"]}
{"id": "C78", "title": "The optimal Markov approximation loses nothing: it is the optimal Gaussian approximation of the Gaussian process, whatever the state-space representation", "statement": "Suppose the likelihood is log-concave with exact differentiable variational expectations and the Gram matrix of the kernel's covariance function at the (distinct, sorted) data times is positive definite. When dist_q has the largest elbo() among Gaussian Markov distributions (C77), then: (1) elbo() is the textbook lower bound of the law of the function values at the data, and no Gaussian law of these values, with any mean and any positive definite covariance matrix, Markov or not, has a larger bound, and only the same law has an equal one; such an optimum exists; (2) predict_f within the range of the data is the Gaussian process prior conditioned on that law: m(t) + k(t,X) k(X,X)^-1 (mu - m(X)) with covariance k(t,t) - k(t,X) k(X,X)^-1 k(X,t) + k(t,X) k(X,X)^-1 S k(X,X)^-1 k(X,t); (3) so two kernels with the same covariance function, of whatever composition and state dimension, give the same optimal elbo() and the same predictions; (4) a CVI model at a fixed point of update_sites() has these properties; (5) a sparse variational GP on inducing points that span the data never has a larger elbo on the full data, and if equal, the same law of the function values.", "quantifier": "all log-concave likelihoods with exact differentiable variational expectations, admissible kernels with positive definite Gram matrix at the data, data sets, mean functions, competing Gaussian laws, inducing points, query times within the range of the data", "why_tests_cant": "The competitors are all Gaussian laws with arbitrary dense covariance matrices and all state-space representations of a covariance function; a test compares with one dense implementation on one data set to a tolerance, after an optimiser that has not converged.", "anchors": ["markovflow/models/variational.py: VariationalGaussianProcess.elbo, posterior", "markovflow/models/variational_cvi.py: CVIGaussianProcess.update_sites, classic_elbo, posterior", "markovflow/models/sparse_variational.py: SparseVariationalGaussianProcess.elbo", "markovflow/posterior.py: ConditionalProcess.predict_f", "markovflow/kernels/sde_kernel.py: Sum, Product"]}
{"id": "C79", "title": "Hyperparameter gradients at the variational optimum: the optimal bound is differentiable, with the gradient of the objective at fixed dist_q or fixed sites", "statement": "Let kernel hyperparameters and mean function move along a curve on which covariance function and mean are differentiable, let G be the (positive definite) Gram matrix at the data, G' its derivative, N(m,S) the law of the function values at the data under the optimal dist_q, b the prior mean and alpha = G^-1 (m - b). (1) With a log-concave likelihood with exact differentiable variational expectations, the largest elbo() of a variational GP exists along the curve and is differentiable, with derivative 1/2 alpha' G' alpha - 1/2 tr((G^-1 - G^-1 S G^-1) G') + alpha' b': the motion of the optimal dist_q does not contribute. (2) elbo() with the optimal dist_q held fixed, which is what an optimiser differentiates, has the same derivative. (3) For CVI and any differentiable likelihood, where update_sites() leaves the sites unchanged, elbo() and classic_elbo() with the sites held fixed, which are different functions of the hyperparameters, have the same derivative, 1/2 alpha' G' alpha - 1/2 tr((G^-1 - G^-1 S G^-1) G'); with a log-concave likelihood this is the derivative of the best bound that any Gaussian Markov distribution attains.", "quantifier": "all differentiable curves of kernel hyperparameters and mean functions, admissible kernels with positive definite Gram matrix, (log-concave) likelihoods, data sets, optimal distributions and fixed points of update_sites()", "why_tests_cant": "A test compares one finite difference or one autodiff gradient at an approximate optimum of one model; that the optimal bound is differentiable at all, and that the objectives with different things held fixed agree to first order at every fixed point, is about all curves, kernels and likelihoods.", "anchors": ["markovflow/models/variational.py: VariationalGaussianProcess.elbo, loss", "markovflow/models/variational_cvi.py: CVIGaussianProcess.update_sites, elbo, classic_elbo, dist_q", "markovflow/kernels/sde_kernel.py: SDEKernel.state_space_model"]}
{"id": "C80", "title": "Training by site updates depends on the data and the covariance function only", "statement": "Take two CVI models, or two power EP models, of the same data with kernels of the same covariance function up to a change of the time variable: the second model may have shifted times, reversed times (data in the opposite order), times in another unit with the kernel's parameters converted, or another kernel object with another state dimension but the same covariance function. Started from the same sites they go through the same training history for every likelihood, learning rate, power and number of calls of update_sites() (for power EP any schedule of index lists, following the order of the data): either a call raises on both, or on neither and the sites (and recorded normalisers) are the same; then classic_elbo() (power EP: energy()) is the same or raises on both, elbo() is the same whenever the sites' nat2 are negative, and posterior.predict_f at corresponding times within the range of the data is the same, or the posterior cannot be built in either.", "quantifier": "all pairs of models of the same problem (any change of time variable preserving the covariance function, any admissible kernels with positive definite Gram matrix at the data), all likelihoods, data, initial sites, learning rates, powers, numbers of updates, schedules of indices and prediction times", "why_tests_cant": "A test trains one pair of models for a few steps and compares up to rounding; that nothing of the state space representation leaks into a training history, including whether it raises, is about all pairs of representations, all likelihoods and all schedules.", "anchors": ["markovflow/models/variational_cvi.py: CVIGaussianProcess.update_sites, dist_q, elbo, classic_elbo, posterior", "markovflow/models/pep.py: PowerExpectationPropagation.update_sites, compute_cavity_from_marginals, energy, elbo", "markovflow/kernels/sde_kernel.py: SDEKernel.state_space_model, generate_emission_model"]}
{"id": "C81", "title": "With a log-concave likelihood and a small learning rate, CVI training converges to the optimum", "statement": "For a likelihood whose log density is concave and whose variational expectations are exact and twice continuously differentiable, and a kernel with positive definite covariance at the data times, there are sites (one and the same for every starting point and learning rate) that update_sites() leaves as they are and whose classic_elbo() is the largest bound of all Gaussian Markov distributions. From any sites with nat2 <= 0, in particular those of a newly built model, there is a positive learning rate such that with that or any smaller constant learning rate every call of update_sites() returns, classic_elbo() never decreases from one call to the next, and as the number of calls grows the site parameters converge to those sites, classic_elbo() to the optimal bound, and posterior.predict_f (means and covariances, at all times within the range of the data) to the predictions with those sites.", "quantifier": "all data sets and time points, all admissible kernels with positive definite Gram matrix, all log-concave smooth likelihoods, all starting sites with nat2 <= 0, all small enough constant learning rates, all numbers of updates, all prediction times within the range of the data", "why_tests_cant": "Convergence is a statement about infinitely many steps; a test sees that a run on one data set has stopped moving to some tolerance, not that it will reach the global optimum from every start.", "anchors": ["markovflow/models/variational_cvi.py: CVIGaussianProcess.update_sites, local_objective_and_gradients, classic_elbo, posterior", "markovflow/models/variational_cvi.py: gradient_transformation_mean_var_to_expectation"]}
{"id": "C82", "title": "With a log-concave likelihood and a small rate, natural gradient training converges to the optimum", "statement": "For a likelihood whose log density is concave and whose variational expectations are exact and twice continuously differentiable, the variational GP (any number of outputs, any mean function) and, on a fixed batch of data, the sparse variational GP (any num_data scaling) have exactly one best Gaussian Markov distribution, and for every non-degenerate initial dist_q there is a positive rate such that SSMNaturalGradient (without momentum) with that or any smaller gamma never fails, elbo never decreases from one step to the next, and as the number of steps grows elbo converges to the best value, and the natural parameters and the marginals of dist_q and posterior.predict_f (means and covariances, at any times) converge to those of the best distribution. The same holds for update_sites((X, Y)) and classic_elbo((X, Y)) of the sparse CVI model with a small enough constant learning rate, from any sites whose dist_q exists.", "quantifier": "all data sets and (inducing) time points, all admissible kernels, output dimensions and mean functions, all log-concave smooth likelihoods, all non-degenerate initial distributions, all small enough rates, all numbers of steps, all prediction times", "why_tests_cant": "Convergence concerns infinitely many steps, from every start; a test sees one finite run that has stopped moving to some tolerance.", "anchors": ["markovflow/ssm_natgrad.py: SSMNaturalGradient.minimize, _natgrad_step", "markovflow/models/variational.py: VariationalGaussianProcess.elbo, posterior", "markovflow/models/sparse_variational.py: SparseVariationalGaussianProcess.elbo", "markovflow/models/sparse_variational_cvi.py: SparseCVIGaussianProcess.update_sites, classic_elbo"]}
{"id": "C83", "title": "Training over a piecewise kernel: natural gradients, CVI updates, the optimum and convergence", "statement": "Let the kernel be a PiecewiseKernel and let no change point lie strictly between two neighbouring data times. (1) The gradient of the variational GP's loss() in the expectation parameters of dist_q is the difference of the natural parameters of dist_q and those of the piecewise prior with one Gaussian site per output. (2) update_sites() of the CVI model with learning rate r does to dist_q exactly what one SSMNaturalGradient step with gamma r does on the variational GP over the same kernel, for any number of steps, or both fail; classic_elbo() is that model's elbo(). (3) With a log-concave likelihood with exact variational expectations, update_sites() leaves dist_q unchanged exactly when classic_elbo() is the largest bound of all Gaussian Markov distributions, and only one distribution attains it; it exists if the variational expectations are twice continuously differentiable. (4) Then from any non-degenerate dist_q (CVI: any sites whose dist_q exists) and with a small enough gamma or learning rate no step fails, the bound never decreases and converges to the largest bound, and dist_q and predict_f at sorted times within the range of the data converge to those of the best distribution. (5) The same gradient formula (one Gaussian factor per datum and output on the pair of inducing states around it, scaled by num_data over batch size), uniqueness of the optimum and convergence hold for the sparse variational GP over a piecewise kernel, trained on a fixed batch at sorted times within the range of the inducing points.", "quantifier": "all piecewise kernels over the kernels of the library, change points, data, numbers of outputs and mean functions (variational GP), likelihoods as stated, initial distributions or sites, small enough rates, numbers of steps, prediction times", "why_tests_cant": "Unbounded numbers of training steps and limits, over all kernels and data; a test sees finitely many steps at one rate and cannot tell convergence to the global optimum from convergence elsewhere.", "anchors": ["markovflow/kernels/piecewise_stationary.py: PiecewiseKernel", "markovflow/models/variational.py: VariationalGaussianProcess", "markovflow/models/variational_cvi.py: CVIGaussianProcess.update_sites, classic_elbo, dist_q", "markovflow/ssm_natgrad.py: SSMNaturalGradient._natgrad_steps", "markovflow/posterior.py: ConditionalProcess.predict_f", "markovflow/models/sparse_variational.py: SparseVariationalGaussianProcess"]}
{"id": "C84", "title": "Natural gradients of the sparse variational GP on random minibatches: training never fails, is unbiased, and converges under decaying rates", "statement": "Train the sparse variational GP with a Gaussian likelihood, num_data = N and SSMNaturalGradient without momentum on minibatches of p >= 1 of the N data drawn independently and uniformly with replacement, step t with a rate gamma_t in [0, 1]. (1) On every sequence of minibatches, from every dist_q, no call of minimize fails. (2) The expected natural parameters of dist_q after T steps are those of training on the full data: they are the optimum's plus prod(1 - gamma_t) times the initial difference. (3) For every linear function of the natural parameters the expected squared distance to the optimum of the full objective is multiplied by (1 - gamma_t)^2 in each step and increased by gamma_t^2 / p times the mean squared distance of the optima of single data. (4) So with rates that tend to zero and have a divergent sum, the natural parameters converge to the optimum in mean square, and the full-data elbo converges to its largest value in expectation and in probability, and so do the means and variances of predict_f at all times in mean. (5) With a constant rate gamma the expectation converges but the scatter does not vanish: it tends to gamma / (2 - gamma) times the scatter of the minibatch optima. (6) With gamma_t = 1 / (t + 1) the expectation is exact after one step, and after T steps the scatter is that of single data divided by T p. (7) With these rates, after any given sequence of minibatches in which every datum occurs equally often, for instance one epoch in any order, dist_q is exactly the optimum of the full objective. (8) Cycling through fixed minibatches with a constant rate gamma converges geometrically, epoch by epoch, to the average of the minibatch optima with weights proportional to (1 - gamma)^(number of minibatches that follow in the epoch), so the later minibatches count more.", "quantifier": "all kernels, inducing points, mean functions, data, initial distributions, noise variances, minibatch sizes, rate sequences, numbers of steps and, for (1), all sequences of minibatches; expectations are over all sequences", "why_tests_cant": "statements about the exact average over all N^(pT) sequences of minibatches and about limits in the number of steps; a test samples a few seeds and a tolerance", "anchors": ["markovflow/ssm_natgrad.py: SSMNaturalGradient.minimize, _natgrad_step, gamma", "markovflow/models/sparse_variational.py: SparseVariationalGaussianProcess.elbo, loss", "markovflow/state_space_model.py: StateSpaceModel.kl_divergence", "markovflow/posterior.py: ConditionalProcess.predict_f"]}
