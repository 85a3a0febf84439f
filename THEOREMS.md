# Theorems by property

Generated from the doc comments in `lean/Verif/Props`. All names are in namespace `MF`.


## C01 to_dense places every block where the documentation says

For a LowerTriangularBlockTriDiagonal built from diagonal blocks D_k and sub-diagonal blocks S_k, to_dense() is the square matrix whose (k,k) block is the lower triangle of D_k, whose (k+1,k) block is S_k and whose every other entry is zero; for a SymmetricBlockTriDiagonal it is the symmetric matrix with the same lower part (so, for symmetric D_k, exactly D_k on the diagonal, S_k below and S_k^T above). Supplying a sub-diagonal to a matrix with a single block is rejected.

*Quantifier:* every number of blocks, every block size, every real block contents, with and without a sub-diagonal, symmetric and lower

* `C01_constructor` (BlockTriDiag.lean) — a sub-diagonal is rejected exactly when there is a single block.
* `C01_to_dense_lower` (BlockTriDiag.lean) — (lower): `to_dense()` has the lower triangles of the diagonal blocks on the diagonal, the sub-diagonal blocks below, zero elsewhere.
* `C01_to_dense_symmetric` (BlockTriDiag.lean) — (symmetric).
* `C01_to_dense_symmetric_general` (BlockTriDiag.lean) — (symmetric, blocks not symmetric): only the lower triangle of each diagonal block counts.

## C02 dense_mult is multiplication by the dense matrix

dense_mult(v) equals to_dense() times v and dense_mult(v, transpose_left=True) equals the transpose of to_dense() times v, reshaped back to blocks.

*Quantifier:* every block tri-diagonal matrix (symmetric or lower, with or without sub-diagonal) and every right-hand side

* `C02_dense_mult` (BlockTriDiag.lean) — `dense_mult` is multiplication by the dense matrix (or its transpose).

## C03 solve inverts dense_mult

For a lower block tri-diagonal matrix with non-zero diagonal entries, solve(v) is the unique w with dense_mult(w)=v, and solve(v, transpose_left=True) the unique w with dense_mult(w, transpose_left=True)=v.

*Quantifier:* every such matrix of every size and every right-hand side

* `C03_solve` (BlockTriDiag.lean) — `solve` is the unique solution of the triangular system, in both orientations.

## C04 cholesky of a symmetric block tri-diagonal matrix is exact, banded and fails exactly when it must

If the dense matrix is positive definite, .cholesky does not raise and returns a lower block bi-diagonal matrix L, with positive diagonal, with L L^T = to_dense(); no entry of the true Cholesky factor is lost by storing only the band. If the dense matrix is not positive definite, .cholesky raises.

*Quantifier:* every symmetric block tri-diagonal matrix of every size

* `C04_cholesky` (BlockTriDiag.lean) — on a positive definite matrix `cholesky` succeeds, and its dense form is the Cholesky factor (lower triangular, positive diagonal, `L Lᵀ` is the matrix), which is block bi-diagonal.
* `C04_cholesky_raises` (BlockTriDiag.lean) — on any other matrix it raises.

## C05 block_diagonal_of_inverse and abs_log_det describe the matrix they factor

For lower L with non-zero diagonal, block_diagonal_of_inverse() returns the diagonal blocks of (L L^T)^-1 (as full symmetric blocks) and abs_log_det() = log |det L|.

*Quantifier:* every such L of every size

* `C05_block_diagonal_of_inverse` (BlockTriDiag.lean) — the diagonal blocks of `(L Lᵀ)⁻¹`.
* `C05_abs_log_det` (BlockTriDiag.lean) — `abs_log_det` is the log of the absolute determinant.

## C06 addition of block tri-diagonal matrices is matrix addition

(a + b).to_dense() = a.to_dense() + b.to_dense(), for symmetric and for lower matrices, in each of the four cases where either operand has no sub-diagonal.

*Quantifier:* every pair of matrices of the same sizes

* `C06_add` (BlockTriDiag.lean) — addition is dense addition; it never fails on two valid operands.

## C07 upper_diagonal_lower factorises every positive definite matrix

For a positive definite symmetric block tri-diagonal K with a sub-diagonal, upper_diagonal_lower() never fails (every pivot is positive definite) and returns (U^T, chol_D) with U D U^T = K, where U^T is unit lower block bi-diagonal and D = chol_D chol_D^T block diagonal.

*Quantifier:* every positive definite symmetric block tri-diagonal matrix, by induction on the number of blocks

* `C07_upper_diagonal_lower` (BlockTriDiag.lean) — on a positive definite matrix with a sub-diagonal, `upper_diagonal_lower` does not fail and returns `(Uᵀ, chol_D)` with `U D Uᵀ = K`: `Uᵀ` is unit lower block bi-diagonal and the blocks of `chol_D` are Cholesky factors.
* `C07_not_posdef_raises` (BlockTriDiag.lean) — on a matrix that is not positive definite the call raises.
* `C07_no_sub_diagonal` (BlockTriDiag.lean) — without a sub-diagonal the call is an assertion failure.

## C08 marginal means obey the state recursion

marginal_means of a state space model is the sequence m_0 = initial_mean, m_{k+1} = A_k m_k + b_k, and it is the expectation of the random state trajectory defined by the model.

*Quantifier:* every state space model with at least one transition (with none the call raises), of every state dimension

* `C08_marginal_means` (StateSpaceModel.lean) — `marginal_means` follows the recursion and is the expectation of the trajectory, whatever the noise factors (also zero ones).
* `C08_no_transitions` (StateSpaceModel.lean) — (single time point): a model with no transitions cannot compute its marginal means.

## C09 marginal and subsequent covariances are those of the trajectory

marginal_covariances are P_0 and A_k P_k A_k^T + Q_k, and covariance_blocks() additionally returns Cov(x_{k+1}, x_k) = A_k P_k; they are the second moments of the random trajectory.

*Quantifier:* every non-degenerate state space model of every length and dimension

* `C09_covariances` (StateSpaceModel.lean) — `marginal_covariances` and `covariance_blocks` are those of the trajectory.
* `C09_marginals` (StateSpaceModel.lean) — `marginals` pairs the two.

## C10 precision is the inverse of the joint covariance

precision.to_dense() is symmetric positive definite and is the two-sided inverse of the joint covariance of the trajectory; log_det_precision() is its log determinant. The Cholesky of the precision never raises.

*Quantifier:* every non-degenerate state space model of every length and dimension

* `C10_precision` (StateSpaceModel.lean) — the precision is the inverse of the joint covariance, with the right log determinant, and its Cholesky factorisation never raises.
* `C10_joint_cov_exists` (StateSpaceModel.lean) — Such a joint covariance exists (and is unique).

## C11 log_pdf is the log density of the trajectory's law

exp(log_pdf(x)) is the density, with respect to Lebesgue measure, of the distribution that sample() draws from; it equals the dense multivariate Gaussian log density with the model's mean and covariance.

*Quantifier:* every non-degenerate state space model and every state trajectory

* `C11_log_pdf` (StateSpaceModel.lean) — `exp (log_pdf x)` is the Lebesgue density of the trajectory's law, and `log_pdf` is the dense Gaussian log density. Holds with no transitions as well.

## C12 sample draws from the model

Feeding iid standard normal noise to sample() gives a random trajectory whose law is the multivariate Gaussian with the model's marginal means and joint covariance: x_0 = mu_0 + L_0 e_0, x_{k+1} = A_k x_k + b_k + L_{k+1} e_{k+1}.

*Quantifier:* every state space model, every noise draw

* `C12_sample` (StateSpaceModel.lean) — fed with iid standard normal noise, `sample` draws from the trajectory's law; that law is the multivariate Gaussian with the model's means and joint covariance. No non-degeneracy needed.

## C13 kl_divergence is the Kullback-Leibler divergence

kl_divergence(q, p) equals the dense Gaussian KL divergence between the two trajectory laws, is never negative, and is zero exactly when the two models define the same distribution.

*Quantifier:* every pair of non-degenerate state space models of equal shape

* `C13_kl_divergence` (StateSpaceModel.lean) — `kl_divergence` is the Kullback–Leibler divergence between the trajectory laws, is non-negative, and vanishes exactly when the laws agree.
* `C13_dense_formula` (StateSpaceModel.lean) — (dense formula).

## C14 normalizer is the log-partition function

normalizer() is the log of the integral of exp(theta . T(x)) for the natural parameters of the model; equivalently log_pdf(x) = -normalizer() + mu^T P x - x^T P x / 2.

*Quantifier:* every non-degenerate state space model and every trajectory

* `C14_normalizer` (StateSpaceModel.lean) — `log_pdf(x) = μᵀ P x - xᵀ P x / 2 - normalizer()` with `P` the precision returned by the model, and `exp(normalizer())` is the integral of `exp(μᵀ P x - xᵀ P x / 2)`.

## C15 building from covariances keeps the covariances

state_space_model_from_covariances returns a model whose initial covariance and process covariances are exactly those given, for positive definite covariances and for exactly zero ones, and raises for other non-positive-definite input.

*Quantifier:* all inputs, any mixture of zero and positive definite process covariances

* `C15_from_covariances` (StateSpaceModel.lean) — (success): when every covariance is positive definite or exactly zero, the constructor succeeds and the model's covariances are exactly the given ones.
* `C15_from_covariances_raises` (StateSpaceModel.lean) — (failure): for symmetric input, anything else raises.
* `C15_no_transitions` (StateSpaceModel.lean) — and so does a model without transitions.

## C16 expectation-parameter conversions are mutually inverse

ssm_to_expectations gives (E x, E x x^T diagonal blocks, E x_{k+1} x_k^T), and expectations_to_ssm_params recovers the original model's parameters from them (Cholesky factors up to sign of columns, i.e. the covariances are recovered exactly).

*Quantifier:* every non-degenerate state space model

* `C16_projection` (MoreInducing.lean) — `expectations_to_ssm_params` on the expectations of any non-degenerate Gaussian vector (not necessarily a chain) gives the nearest chain: it splits the divergence to every chain `t`.
* `C16_expectations` (Transformations.lean) — `ssm_to_expectations` returns the first and second moments of the trajectory.
* `C16_model_round_trip` (Transformations.lean) — model → expectations → model is the identity (no Cholesky raises).
* `C16_expectations_round_trip` (Transformations.lean) — expectations → model → expectations is the identity whenever the first conversion succeeds.

## C17 natural-parameter conversions are mutually inverse

ssm_to_naturals gives (P mu, -P diagonal blocks / 2, -P sub-diagonal blocks) and naturals_to_ssm_params inverts it: model to naturals to model, and naturals to model to naturals, whenever the naturals describe a proper distribution; no intermediate Cholesky raises. The 'no smoothing' pair is likewise inverse.

*Quantifier:* every non-degenerate state space model; every natural parameter whose precision is positive definite

* `C17_naturals` (Transformations.lean) — `ssm_to_naturals` returns `(P μ, -P/2 on the diagonal, -P on the sub-diagonal)`, `P` being the precision of the trajectory law (the inverse of its covariance).
* `C17_model_round_trip` (Transformations.lean) — model → naturals → model is the identity; no Cholesky and no solve raises.
* `C17_naturals_round_trip` (Transformations.lean) — naturals → model → naturals is the identity for every natural parameter with positive definite precision.
* `C17_improper_raises` (Transformations.lean) — a natural parameter whose precision is not positive definite raises.
* `C17_no_smoothing` (Transformations.lean) — 'no smoothing': the parameters are `(Q⁻¹ b, -Q⁻¹/2, Q⁻¹ A)` block by block, and model → naturals → model is the identity.
* `C17_no_smoothing_round_trip` (Transformations.lean) — 'no smoothing': naturals → model → naturals is the identity when every diagonal block is negative definite, and the conversion raises otherwise.

## C18 the Kalman posterior is exact Bayesian conditioning

KalmanFilter.posterior_state_space_model() has precision K^-1 + G^T R^-1 G and mean mu + K G^T (G K G^T + R)^-1 (y - G mu), i.e. the textbook linear-Gaussian posterior, and no intermediate Cholesky raises.

*Quantifier:* every prior model, emission model, observation noise and data set

* `C18_posterior` (KalmanFilter.lean) — `KalmanFilter.posterior_state_space_model()` does not fail; its trajectory law is exactly the Bayes posterior of the prior trajectory law given `y_t = H_t x_t + N(0, R)`, `R = chol cholᵀ`, and its moments are the textbook ones.

## C19 the Kalman log likelihood is the marginal likelihood

log_likelihood() = log N(y; G mu, G K G^T + R).

*Quantifier:* every prior model, emission model, observation noise and data set

* `C19_log_likelihood` (KalmanFilter.lean) — `log_likelihood()` is the log of the marginal likelihood (evidence), and equals `log N(y; G μ, G K Gᵀ + Σ)`.

## C20 Gaussian sites and sparse sites agree with the dense filter

KalmanFilterWithSites with sites (nat1, nat2) behaves as a filter observing -nat1/(2 nat2) with noise -1/(2 nat2); KalmanFilterWithSparseSites over a grid with distinct observed indices gives the posterior and likelihood of a filter that observes only those indices.

*Quantifier:* every grid, every set of distinct observed indices, every site parameters with negative nat2

* `C20_sites` (KalmanFilter.lean) — `KalmanFilterWithSites` performs exact inference for observations `means` with noise covariances `precisions⁻¹`.
* `C20_improper_sites` (KalmanFilter.lean) — sites may have non-positive precision; the posterior is then computed exactly when the total precision `K⁻¹ + Gᵀ P G` is positive definite, and raises otherwise.
* `C20_univariate_sites` (KalmanFilter.lean) — the natural-parameter sites with `nat2 < 0` observe `-nat1/(2 nat2)` with noise variance `-1/(2 nat2)`.
* `C20_sparse_sites` (KalmanFilter.lean) — with distinct observed grid indices, `KalmanFilterWithSparseSites` performs exact inference for observations at those indices only, and its `log_likelihood` is their marginal likelihood.
* `C20_duplicate_indices` (KalmanFilter.lean) — (why distinctness is needed): two observations `y₀, y₁` of equal precision `r` scattered to the same grid point are treated as one observation `y₀ + y₁` of precision `2 r`, whose information vector is twice the correct `r (y₀ + y₁)`.

## C21 conditional statistics are Gaussian bridges

conditional_statistics gives P = [D, E] and T such that for a Markov chain x_- -> x -> x_+ built from the kernel's transitions, x | x_-, x_+ is Gaussian with mean D x_- + E x_+ and covariance T; the inverse-precision variant satisfies T T_inv = I.

*Quantifier:* all transitions and positive definite process noises

* `C21_bridge` (Conditionals.lean) — whenever it returns, `D, E, T` describe the conditional law of the middle state of the chain `x₋ → x → x₊` (for every law of `x₋`).
* `C21_succeeds` (Conditionals.lean) — it returns exactly when the innovation covariance `Q₂ + A₂ Q₁ A₂ᵀ` is positive definite; in particular for positive definite `Q₂`.
* `C21_precision` (Conditionals.lean) — with `return_precision=True` the first two outputs are the same and the third is the inverse of the conditional covariance.
* `C21_all` (Conditionals.lean) — The stated quantifier: positive definite process noises, both variants.

## C22 conditional_predict uses the two neighbouring states and is consistent at them

For sorted training times, each new time is associated with the neighbours x_- (last training point strictly before it) and x_+ (first training point not before it), with the prior's stationary extension at the two ends; predicting at a training time returns that time's marginal exactly.

*Quantifier:* all sorted training times, all query times

* `C22_neighbours` (Conditionals.lean) — the insertion index separates the training times strictly before the query from the others, so an interior query has neighbours `t_k < t ≤ t_{k+1}`.
* `C22_predict_state` (Conditionals.lean) — `predict_state` combines, at each query, the marginals of the two neighbouring conditioning points; beyond the first or last conditioning point, the prior's initial marginal at time `∓1e10`, uncorrelated with the posterior, stands in for the missing neighbour.
* `C22_at_training` (Conditionals.lean) — predicting at a conditioning time returns exactly that time's marginal, for every kernel expression with jitter zero. (For tied times: the marginal of the first one.)
* `C22_succeeds` (Conditionals.lean) — `predict_state` returns for all sorted conditioning times and all queries within `±1e10`, for kernel expressions with noise throughout (the Matérn family and what is built from it).
* `C22_constant_extrapolation_halves` (Conditionals.lean) — Finding: for a `Constant` kernel with positive jitter, the prediction beyond the last conditioning point is *half* the posterior mean there, however close the query is (the prior state at `1e10` counts as much as the posterior state at the last point).
* `C22_constant_no_jitter_raises` (Conditionals.lean) — Finding: with jitter zero the same prediction raises (the innovation covariance is zero).
* `C22_state_mean_dropped` (Conditionals.lean) — Finding: a kernel's `state_mean` is dropped between the conditioning points. For an exponential (`Matern12`) kernel with state mean `m ≠ 0` and a posterior whose means are all `m` (e.g. the prior itself), the prediction half way between two conditioning points is `2A/(1+A²) m` with `A = exp(-δ/ℓ) < 1`, not `m`.

## C23 interpolated predictions equal marginals of the refined model

The marginal predicted at a new time from the pairwise marginals of a chain equals the marginal of the chain with that time point inserted: mean P[mu_-;mu_+], covariance T + P Sigma P^T, for the prior as well as for any posterior with the same bridging conditionals.

*Quantifier:* all chains, all insertion positions

* `C23_prior_is_kernel` (Conditionals.lean) — `priorLaw` is what the kernel's own state space model says, at the conditioning times alone and at any (sorted) sequence of times.
* `C23_interior` (Conditionals.lean) — `predict_state` at query times from the first to the last conditioning time (both included): the results are the marginals of `q(u) p(s | u)`, the chain `q` at the conditioning times with the new times inserted according to the prior's conditional.
* `C23_with_ends` (Conditionals.lean) — all queries within `±1e10`: the same, for the process pinned additionally at the times `∓1e10` where the states follow the prior, independently of `q`.
* `C23_bayes` (Conditionals.lean) — (what the predictive law is for): if `q` is the Bayes posterior of the states at the conditioning times for some likelihood, then `q(u) p(s | u)` is the Bayes posterior of all the states for that likelihood.
* `C23_prior` (Conditionals.lean) — the prior itself: predicting from the prior's own chain gives back the prior marginals.

## C24 posterior samples at new times follow the conditional

sample_state_trajectories-style conditional samples (prior sample plus correction) have mean D x_- + E x_+ and covariance T given the conditioning states.

*Quantifier:* all conditioning samples

* `C24_interior` (Conditionals.lean) — samples at new times from the first to the last conditioning time (both included): jointly, the states returned at the conditioning and new times follow `q(u) p(s | u)`.
* `C24_with_ends` (Conditionals.lean) — all new times within `±1e10`: the states at the conditioning and new times under the predictive law with independent prior states at the times `∓1e10` (the law of `C23_with_ends`).
* `C24_conditioning_law` (Conditionals.lean) — the states at the conditioning times are a draw from `q`.
* `C24_given_conditioning` (Conditionals.lean) — one new time, as stated: given the conditioning states, the sample at the new time `t` (`t_k < t ≤ t_{k+1}`) is Gaussian with mean `D x_k + E x_{k+1}` and covariance `T`, independently of everything else, where `[D, E]` and `T` are what `conditional_statistics` returns.
* `C24_succeeds` (Conditionals.lean) — for kernel expressions with noise throughout, sampling returns for all sorted conditioning times and all new times, in any order and possibly repeated or equal to conditioning times.
* `C24_sample_f` (Conditionals.lean) — `sample_f` is the emission of the state samples plus the mean function.

## C25 emission models project states linearly

project_state_to_f is H x; project_state_covariance_to_f with full_output_cov is H S H^T and without it is the diagonal of H S H^T; ComposedPairEmissionModel composes; projection of a PSD covariance is PSD with non-negative diagonal.

*Quantifier:* all states, covariances and emission matrices

* `C25_projection` (Emission.lean) — `project_state_to_f` is `H x`; the projected covariance is `H S Hᵀ`, and without `full_output_cov` it is its diagonal.
* `C25_law` (Emission.lean) — if the state at time `t` is `N(μ, S)`, then `H x` has the law with the projected mean and covariance; the projected covariance is positive semi-definite and the projected variances are non-negative.
* `C25_composed` (Emission.lean) — the composed emission model projects as the outer model applied to the inner projection, for states and for covariances.
* `C25_stack` (Emission.lean) — `StackEmissionModel` projects each kernel's state separately: output `r` is `H_r x_r`, with variance `H_r S_r H_rᵀ`, and different outputs are uncorrelated.
* `C25_marginals` (EmissionMarginals.lean) — **C25** `project_state_marginals_to_f` with `full_output_cov=False`: if the state at time `t` is `N(μ, S)`, every output is Gaussian with the returned mean and variance; means and variances are those of `full_output_cov=True`, and with a composed emission those of the outer model applied to the marginals of the inner one.

## C26 kernel state transitions solve the kernel's own SDE

For OrnsteinUhlenbeck, Matern12, Matern32, Matern52, HarmonicOscillator and Constant, state_transitions(dt) = A(dt) satisfies A(0) = I, A(s+t) = A(s) A(t) and dA/dt = F A with F = feedback_matrix.

*Quantifier:* all positive hyperparameters, all time gaps

* `C26_transitions_solve_sde` (Kernels.lean) — the transitions of every basic kernel solve its own SDE `dx/dt = F x`: `A(0) = 1`, `A(s+t) = A(s) A(t)`, `A' = F A`, whatever the start time.
* `C26_transitions_eq_exp` (Kernels.lean) — hence they are the matrix exponential of the feedback matrix.
* `C26_transitions_group` (Kernels.lean) — for nested expressions (sums, products, independent outputs, factor analysis) the transitions do not depend on the start time and form a one-parameter group.
* `C26_sum` (Kernels.lean) — a `Sum` of kernels that solve their SDEs solves its own SDE.
* `C26_product_feedback_is_wrong` (Kernels.lean) — Finding: `Product.feedback_matrix` (the Kronecker product of the feedback matrices) is not the generator of `Product.state_transitions`: for the product of two unit `Matern12` kernels it is `+1` while the transitions are `exp(-2δ)`.

## C27 kernel process covariances are valid and make the process stationary

process_covariances(dt) is symmetric positive semi-definite for dt >= 0 (positive definite for dt > 0 for the Matern family), vanishes at dt = 0, equals P_inf - A P_inf A^T when jitter = 0, satisfies Q(s+t) = A(t) Q(s) A(t)^T + Q(t), and the steady state covariance is invariant.

*Quantifier:* all positive hyperparameters and all non-negative gaps

* `C27_process_covariance_psd` (Kernels.lean) — process covariances (both `process_covariances` and the second output of `transition_statistics`) are positive semi-definite for every kernel expression, any jitter.
* `C27_process_covariance_pd` (Kernels.lean) — positive definite for `δ > 0` for the Matérn family and everything built from it (products with a Matérn factor included); zero for oscillators and constants (jitter zero).
* `C27_stationary` (Kernels.lean) — with jitter zero: `Q(δ) = P∞ - A(δ) P∞ A(δ)ᵀ`, so the steady state covariance is invariant, `Q(0) = 0` and `Q(s + δ) = A(δ) Q(s) A(δ)ᵀ + Q(δ)`.
* `C27_state_mean_invariant` (Kernels.lean) — a state mean set on a basic kernel is invariant under the transitions and offsets.
* `C27_jitter_accumulates` (Kernels.lean) — Finding: with jitter `ε` the process is not stationary; each transition adds `ε A Aᵀ`.

## C28 a kernel's state space model has the textbook covariance function

For any sorted time points, the covariance between outputs at t_i and t_j of the state space model built by a kernel (jitter 0) is the kernel's covariance function k(|t_i - t_j|): sigma^2 exp(-r/l) for Matern12, the 3/2 and 5/2 formulas, sigma^2 cos(2 pi r/T) for HarmonicOscillator, sigma^2 for Constant; in particular it does not depend on which other time points are present (dropping or inserting a time point changes nothing).

*Quantifier:* all sorted time sequences, all hyperparameters

* `C28_output_law` (Kernels.lean) — /C29: the outputs of the state space model that a kernel expression builds (root jitter zero) at any time points are jointly a zero-mean Gaussian process with the textbook covariance function.
* `C28_succeeds` (Kernels.lean) — construction succeeds for strictly increasing times when the expression has noise throughout (Matérn family …) or none at all (oscillators …), and for non-decreasing times when the jitter is positive; it raises when the times decrease somewhere.
* `C28_matern12` (Kernels.lean) — for `Matern12`: `σ² exp(-|t - t'|/ℓ)`.
* `C28_ornsteinUhlenbeck` (Kernels.lean) — for `OrnsteinUhlenbeck`: `q/(2θ) exp(-θ|t - t'|)`.
* `C28_matern32` (Kernels.lean) — for `Matern32`: `σ² (1 + √3 r/ℓ) exp(-√3 r/ℓ)`.
* `C28_matern52` (Kernels.lean) — for `Matern52`: `σ² (1 + √5 r/ℓ + 5r²/(3ℓ²)) exp(-√5 r/ℓ)`.
* `C28_harmonicOscillator` (Kernels.lean) — for `HarmonicOscillator`: `σ² cos(2π r/T)`.
* `C28_constant` (Kernels.lean) — for `Constant`: `σ²`.
* `C28_constructors` (Kernels.lean) — constructors of the basic kernels raise exactly for invalid hyperparameters.
* `C28_restriction` (Kernels.lean) — dropping time points changes nothing. If the times `ts'` are among the times `ts`, the outputs of the model built for `ts'` have the law of the corresponding outputs of the model built for `ts`.
* `C28_state_mean` (Kernels.lean) — a state mean `m` set on a basic kernel shifts the outputs by `H m` and changes nothing else.

## C29 combined kernels combine covariances

Sum has covariance k1 + k2, Product k1 * k2, IndependentMultiOutput is block diagonal across outputs, StackKernel evaluates children independently, FactorAnalysisKernel mixes with its weights; the combined transitions and noises remain valid.

*Quantifier:* all lists of child kernels, all times

* `C29_stack_succeeds` (KernelStack.lean) — padding a child of an `IndependentMultiOutputStack` to the common state dimension never makes the state space model fail or degenerate: for every kernel expression whose children all have process noise, every padding, every non-negative jitter and all strictly increasing times, the model exists and has invertible Cholesky factors (so that its precision exists).
* `C29_stack_feedback_padding` (KernelStack.lean) — Finding: the padding of the feedback matrix is the identity (the docstring says zeros), which is not the generator of the slice: for *every* child and every padding, the transition over a zero interval has a zero where the identity has a one, and the diffusion `-(F P + P Fᵀ)` that the reported feedback `F` and steady state covariance `P` imply has a negative variance in each padded coordinate.
* `C29_add` (Kernels.lean) — `k1 + k2` has the sum of the covariance functions.
* `C29_mul` (Kernels.lean) — `k1 * k2` has the product of the covariance functions.
* `C29_sum` (Kernels.lean) — `Sum` over any list of kernel expressions.
* `C29_product` (Kernels.lean) — `Product` over any list of kernel expressions.
* `C29_independent` (Kernels.lean) — `IndependentMultiOutput`: block diagonal covariance.
* `C29_factor_analysis` (Kernels.lean) — `FactorAnalysisKernel`: outputs are `W(t) B g(t)` for independent components `g`.
* `C29_stack` (Kernels.lean) — every child of an `IndependentMultiOutputStack` keeps its own output law; the padding to the common state dimension is invisible.
* `C29_sum_loses_state_mean` (Kernels.lean) — Finding: `Sum` (and the other concatenations) start at the children's state means but do not use their state offsets, so a child with a non-zero state mean is not stationary inside a `Sum`: here the child's mean output is the constant `1`, while inside the sum it decays to `exp(-1)` at time one.

## C30 piecewise kernels use the kernel of the interval each time falls in

PiecewiseKernel.split_time_indices returns, for every time, the number of change points not after it; for sorted times the assembled transitions, covariances and offsets are, position by position, those of the kernel active at that time.

*Quantifier:* all change points, all sorted time sequences

* `C30_segment` (Piecewise.lean) — for sorted change points `segment` is the interval: change point `j` is not after `t` iff `j` precedes the index of the interval.
* `C30_split_indices` (Piecewise.lean) — `split_time_indices` returns, for every time, the number of change points not after it.
* `C30_sorted_times` (Piecewise.lean) — for sorted times the transitions, offsets, process covariances and emissions are, position by position, those of the kernel active at that time.
* `C30_any_order` (Piecewise.lean) — the per-time attributes are those of the active kernel, for times in any order.
* `C30_state_space_model` (Piecewise.lean) — hence the state space model of a piecewise kernel is built from the kernel active at the *start* of each transition.
* `C30_composes` (Piecewise.lean) — two transitions that meet at a time in the same interval compose to the transition between the outer times: inside an interval the piecewise model is the (time homogeneous) process of that interval's kernel.
* `C30_out_of_range` (Piecewise.lean) — times at or beyond the internal infinity (`1e10`) are rejected rather than given to a wrong kernel.
* `C30_crossing_uses_left_kernel` (Piecewise.lean) — Finding: a transition across a change point is taken with the left kernel only, so it is not the composition of the two transitions meeting at the change point (the class docstring warns about this).
* `C30_unsorted_times` (Piecewise.lean) — Finding: for times that are not sorted the results are returned in the order of the intervals, not of the times.
* `C30_succeeds` (Piecewise.lean) — a piecewise kernel of noise-driven children (Matérn, Ornstein–Uhlenbeck, ...) gives a state space model for all strictly increasing times in range.

## C31 mean functions solve the forced SDE

ImpulseMeanFunction gives sum over actions before t of H exp(F (t - t_k)) u_k, StepMeanFunction gives the continuous solution of dx/dt = F x + u(t) from zero, LinearMeanFunction gives c t, ZeroMeanFunction gives 0.

*Quantifier:* all action times and magnitudes, all query times

* `C31_zero` (MeanFunction.lean) — the zero mean function is zero everywhere, for any number of outputs.
* `C31_linear` (MeanFunction.lean) — the linear mean function is `c t` in every output.
* `C31_impulse_transitions` (MeanFunction.lean) — for every kernel expression and non-decreasing action times, at any query times in any order, the impulse mean function is the superposition of the propagated actions strictly before the query.
* `C31_impulse` (MeanFunction.lean) — for the basic kernels, `exp(F (t - t_k)) u_k` summed over the actions before `t`.
* `C31_impulse_jump` (MeanFunction.lean) — a single action at time `c` is not visible up to and including `c`, and right after it the mean is close to `H u`: the limit from the right is `H u`.
* `C31_unsorted_actions` (MeanFunction.lean) — action times that are not sorted raise.
* `C31_step` (MeanFunction.lean) — for every kernel whose transitions are generated by its feedback matrix (the basic kernels, `C26_transitions_solve_sde`, and sums of them, `C26_sum`), with invertible feedback matrix, and for non-decreasing action times, the step mean function is (the projection of) the response of `dx/dt = F x + u(t)`, started from rest, to the piecewise constant input: the same function `x` for all query times, of any number and in any order.
* `C31_step_response_unique` (MeanFunction.lean) — that response is unique, so `C31_step` pins down every returned value.
* `C31_step_leaf` (MeanFunction.lean) — the basic kernels.
* `C31_step_singular_raises` (MeanFunction.lean) — when the feedback matrix is singular (a `Constant` kernel, alone or in a sum) the step mean function raises, although the forced equation has a solution.
* `C31_feedback_invertible` (MeanFunction.lean) — which basic kernels have an invertible feedback matrix: all the stochastic ones and the oscillator, but not the constant one.
* `C31_step_product_wrong` (MeanFunction.lean) — Finding: with a product kernel the step mean function moves in the wrong direction, because `Product.feedback_matrix` is wrong (`C26_product_feedback_is_wrong`): after a constant push `+1` from time `0` on a product of two unit `Matern12` kernels (whose transitions are `exp(-2δ)`), the mean function at time `1` is negative, while the response of `dx/dt = -2 x + 1` is positive.

## C32 GaussianProcessRegression is exact GP regression

log_likelihood() is the dense GP marginal likelihood of the data for the kernel's covariance plus observation noise, and the posterior is the dense GP posterior at the training times, including the effect of the mean function.

*Quantifier:* all data sets with sorted times

* `C32_dense_is_bayes` (GPR.lean) — the specification itself: the dense formulas are the Bayes posterior of a Gaussian process prior, jointly at the data times and any new times.
* `C32_log_likelihood` (GPR.lean) — `log_likelihood()` is the dense marginal log likelihood `log N(y; m(X), K_XX + I ⊗ R)`, and `loss()` its negative.
* `C32_posterior` (GPR.lean) — the posterior process predicts the dense GP posterior mean (mean function included) and covariance, at every query in the closed range of the data times (at the data times in particular).
* `C32_samples` (GPR.lean) — joint samples. `sample_f` at new times within the range, given iid standard normal noise, draws jointly from the dense posterior at those times.

## C33 variational objectives are lower bounds

For a Gaussian likelihood, the ELBO of VariationalGaussianProcess never exceeds the log marginal likelihood, the gap is KL(q || posterior), and equality holds exactly at the posterior.

*Quantifier:* all q, all data

* `C33_prior` (VGP.lean) — the latent outputs of the state prior are the Gaussian process prior with the model's mean function, so evidence and lower bound may be read in either space.
* `C33_elbo` (VGP.lean) — `log p(y) = elbo() + KL(q ‖ posterior)` for every `q`, every data set and every likelihood with exact variational expectations, whenever the posterior exists. Hence `elbo()` is a lower bound, with equality exactly when `q` is the posterior; `loss()` is its negative.
* `C33_posterior_exists` (VGP.lean) — the posterior exists whenever the likelihood is bounded above in the latent value.
* `C33_gaussian` (VGP.lean) — for a Gaussian likelihood of variance `σ2`: with `L` the log marginal likelihood and `c` the posterior computed by `GaussianProcessRegression` on the same data, `L = elbo() + KL(q ‖ c)`; `elbo() ≤ L`, with equality exactly when `q` and the exact posterior have the same law.
* `C33_init` (VGP.lean) — the constructor: without an initial distribution `q` starts at the prior, and `elbo()` is then the prior expectation of the log likelihood (no KL term); with one, `q` starts at that distribution. A missing mean function is zero.

## C34 CVI reaches the exact posterior for Gaussian likelihoods

After k CVI site updates with learning rate r, sites = (1-r)^k initial + (1-(1-r)^k) exact; with r = 1 one step gives the exact posterior and the ELBO equals the log marginal likelihood.

*Quantifier:* all k, r, data and initial sites

* `C34_dist_q` (CVI.lean) — `dist_q` is the prior times the sites, `q(s) ∝ p(s) ∏ₖ exp(nat1ₖ fₖ + nat2ₖ fₖ²)`, whenever it can be built; it can be built for all sites with `nat2 ≤ 0` (and for some others). Otherwise it raises.
* `C34_kalman` (CVI.lean) — for sites with `nat2 < 0`, `dist_q` and the Kalman filter of `posterior_kalman` have the same law, and `elbo()` is the log evidence of the model whose likelihood is replaced by the sites (`loss()` is its negative).
* `C34_gradient` (CVI.lean) — the direction of the update is the gradient of the variational expectation with respect to the expectation parameters `(μ, σ² + μ²)`.
* `C34_update` (CVI.lean) — one `update_sites()`: every site moves from `θ` to `(1 - r) θ + r g`, where `g` is taken at the marginal mean and variance of `f_t` under `dist_q`; nothing else changes. The mean function plays no role.
* `C34_mean_function_ignored` (CVI.lean) — the mean function passed to the constructor is never used: models that differ only there behave alike. (The exact posterior below is that of regression with mean function zero.)
* `C34_classic_elbo` (CVI.lean) — `classic_elbo()` is `log p(y) - KL(dist_q ‖ posterior)` (zero mean function), for every state of the sites that has a `dist_q`.
* `C34_k_steps` (CVI.lean) — after `k` calls of `update_sites()` with learning rate `r` and a Gaussian likelihood of variance `σ2`, every site is `(1-r)^k · initial + (1 - (1-r)^k) · exact`, the exact site being `(y/σ2, -1/(2σ2))`.
* `C34_updates_succeed` (CVI.lean) — with `0 ≤ r ≤ 1` and a Gaussian likelihood, starting from sites with `nat2 ≤ 0` (the constructor's have), all updates succeed.
* `C34_exact_sites` (CVI.lean) — at the exact sites, `dist_q` and `elbo()` are the posterior and the log marginal likelihood of `GaussianProcessRegression` (mean function zero), and so is `classic_elbo()`.
* `C34_one_step` (CVI.lean) — with learning rate 1 a single update (or any positive number of them), from any sites with `nat2 ≤ 0`, reaches the exact posterior, and `elbo()` is then the log marginal likelihood.
* `C34_converges` (CVI.lean) — damped updates (`0 < r ≤ 1`) converge to the exact sites.
* `C34_elbo_not_a_bound` (CVI.lean) — finding: `elbo()` is not a lower bound of the log marginal likelihood away from the fixed point. For the sites set by the constructor it does not depend on the data, and for every kernel, every times and noise there are data whose log marginal likelihood is smaller.

## C35 sparse variational objective scales minibatches without bias

The SVGP ELBO on a minibatch scaled by num_data/batch_size averages, over minibatches forming a partition, to the full-data ELBO; the KL term is unscaled.

*Quantifier:* all partitions of all data sets

* `C35_elbo` (SVGP.lean) — on a minibatch at times between the first and the last inducing point, `elbo` returns the expected log likelihood under the sparse process `q(u) p(s | u)`, scaled, minus the unscaled KL divergence; the latter is both `KL(q ‖ prior)` at the inducing points and the KL divergence between the processes.
* `C35_bound` (SVGP.lean) — on the full data (`num_data` absent or the number of data) `log p(y) = elbo + KL(q-process ‖ posterior)`, for every `q`; so `elbo` bounds the log evidence of the Gaussian process model from below.
* `C35_partition` (SVGP.lean) — for every partition of the data into minibatches (of any sizes), the average of the minibatch objectives, weighted by the minibatch sizes, is the full objective.
* `C35_equal_batches` (SVGP.lean) — minibatches of equal size forming a partition: the plain average is the full objective.
* `C35_with_replacement` (SVGP.lean) — sampling a minibatch of `p` data independently with replacement: the expectation of the minibatch objective is the full objective.
* `C35_without_replacement` (SVGP.lean) — shuffling the data uniformly and taking the first `p` as minibatch (sampling without replacement): the expectation of the minibatch objective is the full objective.
* `C35_predict_log_density` (SVGP.lean) — for a Gaussian likelihood `predict_log_density` is `Σ_a log ∫ p(y_a | f) q(f_a) df` with the predicted marginals of the outputs.
* `C35_init` (SVGP.lean) — the constructor: without an initial distribution `q` starts at the prior, with one at that distribution; a missing mean function is zero.

## C36 sparse CVI adds up data contributions per inducing interval

The site update assigns each datum to its inducing interval and sums the contributions: totals are conserved, intervals without data get zero gradient, order of the data does not matter.

*Quantifier:* all data sets, all inducing grids

* `C36_dist_q` (SparseCVI.lean) — `dist_q` is the prior times the sites, `q(u) ∝ p(u) ∏ⱼ exp(θ₁ⱼ·vⱼ + vⱼᵀ θ₂ⱼ vⱼ)` with `vⱼ` the pair of inducing states around interval `j`, whenever it can be built; it can be built whenever all `θ₂ⱼ` are negative semidefinite. Otherwise it raises.
* `C36_one_interval` (SparseCVI.lean) — every datum belongs to exactly one interval.
* `C36_update` (SparseCVI.lean) — one `update_sites()`: the sites of interval `j` move from `θ` to `(1 - r) θ + r Σ_i g_i`, the sum running over the data in that interval; datum `i` contributes `(g₁ W_i, g₂ W_i W_iᵀ)`, where `g` is the gradient of its variational expectation in expectation parameters at the predicted mean and variance and `W_i v = H(x_i) P_i v` the prior conditional mean of `f(x_i)` given the neighbouring inducing states. Nothing else changes. In particular an interval without data is multiplied by `1 - r`.
* `C36_totals` (SparseCVI.lean) — intervals without data get zero gradient: their sites are multiplied by `1 - r` (by C36_update). Totals are conserved: summed over the intervals, the sites move by the sum over all data.
* `C36_order` (SparseCVI.lean) — the order of the data does not matter.
* `C36_reachable` (SparseCVI.lean) — the hypotheses hold of every model that the constructor and any history of successful updates, on any minibatches, can produce.
* `C36_init` (SparseCVI.lean) — the constructor: zero sites, so that `dist_q` is the prior.
* `C36_classic_elbo` (SparseCVI.lean) — `classic_elbo` is the objective of the sparse variational model (C35) with `q = dist_q` (mean function zero), so for data between the first and last inducing point it is `log p(y) - KL(q-process ‖ posterior)`.
* `C36_gaussian_optimal` (SparseCVI.lean) — with a Gaussian likelihood and learning rate one, a single update, from any sites that have a `dist_q`, reaches the best variational distribution: every non-degenerate `q₂` over the inducing states has the objective of the new `dist_q` minus `KL(q₂ ‖ dist_q)`.
* `C36_mean_function_ignored` (SparseCVI.lean) — finding: the mean function passed to the constructor is never used.

## C37 power EP moment matching is exact for Gaussian likelihoods

With alpha = 1 the PEP site update for a Gaussian likelihood is the exact site (y/s, -1/(2s)) whatever the cavity; damping interpolates; the cavity removes exactly fraction alpha of each site.

*Quantifier:* all cavities, data, histories

* `C37_cavity` (PEP.lean) — the cavity of datum `t` is the Gaussian from which fraction `alpha` of the site has been removed: times `site_t^alpha` it is the marginal of `f_t` under `dist_q`. When there is no such Gaussian `compute_cavity` raises.
* `C37_leave_out` (PEP.lean) — the cavity is the marginal of `f_t` in the model with fraction `alpha` of that site removed (the leave-one-out distribution for `alpha = 1`), and it can be computed whenever these models have a `dist_q`.
* `C37_cavity_exists` (PEP.lean) — sites with `nat2 ≤ 0` and `0 ≤ alpha ≤ 1`: `dist_q` and all cavities exist.
* `C37_update` (PEP.lean) — `update_sites(indices)` with distinct indices: the selected sites become `(1 - r) θ + r ((1 - alpha) θ + L)` with `L` the corrected gradients at the cavity and `r` the learning rate, all computed from the state before the call; the others do not change, nor does any other attribute.
* `C37_update_none` (PEP.lean) — (finding): `update_sites()` without indices, documented as updating, changes nothing.
* `C37_duplicate_indices` (PEP.lean) — (finding): an index given `j` times moves its site `j` times as far as one update would.
* `C37_log_norm` (PEP.lean) — the log normaliser computed for datum `t` is the expected density at the cavity minus the log integral of the old site (to the power `alpha`) under the cavity (alpha = 1, learning rate 1).
* `C37_moment_matching` (PEP.lean) — with the exact `predict_log_density` and `alpha = 1`, the new site of a likelihood bounded above is the moment matching one: the Gaussian `cavity × new site` has the mean and the variance of `cavity × likelihood`.
* `C37_ep_update` (PEP.lean) — expectation propagation. With `alpha = 1`, `learning_rate = 1` and the exact `predict_log_density`, after `update_sites` the cavity of an updated datum times its new site has the mean and variance of the cavity times the likelihood. If the update leaves the site unchanged, the marginal of `f_t` under `dist_q` has them.
* `C37_gaussian_exact` (PEP.lean) — Gaussian likelihood, `alpha = 1`: whatever the cavity, the corrected gradients are the exact site `(y/σ², -1/(2σ²))`.
* `C37_gaussian_alpha` (PEP.lean) — (finding): Gaussian likelihood with power `alpha`: the pseudo-observation noise is `s + (1 - alpha) v` with `v` the cavity variance instead of `s`, so the exact site is missed unless `alpha = 1`; the wrapper for general likelihoods ignores `alpha` altogether (its gradients are those of `alpha = 1`).
* `C37_schedule` (PEP.lean) — Gaussian likelihood, `alpha = 1`, `0 ≤ learning_rate ≤ 1`: any schedule of updates succeeds, and after `k` visits of a datum its site is `(1 - r)^k` times the initial one plus `1 - (1 - r)^k` times the exact one.
* `C37_gaussian_regression` (PEP.lean) — Gaussian likelihood, `alpha = 1`, `learning_rate = 1`: after any schedule that visits every datum at least once, `dist_q` is the posterior of `GaussianProcessRegression` (mean function zero) and `elbo()` its log marginal likelihood.
* `C37_energy` (PEP.lean) — (finding): `energy()` is `log ∫ ∏ sites dprior + (1/alpha) Σ_t (obj_t - log ∫ site_t^alpha dcavity_t)`, the EP energy, except that the expected densities `obj_t` are taken under the posterior marginals and not under the cavities.
* `C37_init` (PEP.lean) — the constructor gives a model that meets the hypotheses of the theorems above, for every kernel with noise, strictly increasing times and powers up to one; its `dist_q` is the prior times one factor `exp(-1e-10 f²)` per datum, its cavities exist and its normalisers are zero.
* `C37_gaussian_objective` (PEPObjective.lean) — **C37** `PEPGaussian`: `log_expected_density` is `alpha` times the logarithm of the expectation of the likelihood under the cavity `N(m, v)`, and `grad_log_expected_density` returns its first and second derivative in the mean. (With `alpha` outside of the logarithm, not the logarithm of the expectation of the likelihood to the power `alpha`: see `C37_gaussian_alpha`.)

## C38 importance weights are normalised and the IWVI bound is monotone in structure

Normalised importance weights are positive and sum to one, expected_value is the weighted average of the samples and the expectation of a resampled sample_f. elbo is the log of the mean weight and lies between the average and the largest log weight. The weights are density ratios of the unnormalised posterior to the law of the samples, so their mean is the evidence; averaged over the samples the objective equals the SVGP bound for one sample, does not decrease with the number of samples and never exceeds log p(y); elbo converges almost surely to log p(y), expected_value and resampling to the posterior expectations. dregs_objective uses the same weights. (As coded, initial_distribution is ignored.)

*Quantifier:* all numbers of samples, all weights, all q, kernels, data between the inducing points, exact likelihoods, almost all sample sequences

* `C38_weights_normalised` (IWVI.lean) — the normalised importance weights are positive, sum to one and are proportional to the weights.
* `C38_objective_bounds` (IWVI.lean) — `elbo` is the log of the mean of the importance weights of the samples; it lies between the average and the largest log weight.
* `C38_estimate` (IWVI.lean) — `expected_value` is the average of the function over the samples with normalised weights proportional to the importance weights at the data; drawing one of the samples with these probabilities (`sample_f`) has this expectation.
* `C38_dregs` (IWVI.lean) — stopping the gradient changes no value: the weights of `dregs_objective` are those of `elbo`, and its value is their sum weighted by the squared normalised weights (with one sample, the value of `elbo`).
* `C38_importance_weights` (IWVI.lean) — what the weights are: the unnormalised posterior of the states is the law of a sample of the proposal process, reweighted by the importance weight the code computes for it. So the expected weight is the evidence `p(y)`, and the reweighted samples follow the posterior. Every `q`, data times between the first and the last inducing point in any order.
* `C38_bound` (IWVI.lean) — the bound: averaged over the samples the objective exists, with one sample it is the evidence lower bound of the sparse variational Gaussian process, it does not decrease with the number of samples and never exceeds the log evidence.
* `C38_objective_consistent` (IWVI.lean) — for almost every sequence of independent samples the objective converges to the log evidence.
* `C38_resampling_consistent` (IWVI.lean) — for almost every sequence of independent samples, a trajectory resampled at the new times follows asymptotically the exact posterior of the Gaussian process given the data: for every function of the outputs at the new times that is integrable under the posterior, its average over the samples with the weights used for resampling converges to the posterior expectation.
* `C38_expected_value_consistent` (IWVI.lean) — `expected_value` converges to the posterior expectation of the function of the output at each new time.
* `C38_init_ignores_initial_distribution` (IWVI.lean) — the constructor: whatever initial distribution is given, `q` starts at the prior.

## C39 a natural gradient step moves natural parameters along the expectation gradient

SSMNaturalGradient.minimize without momentum maps the natural parameters theta of the distribution to theta - gamma dL/deta exactly (eta the expectation parameters), and raises exactly when the result is not a proper Gaussian; rate 0 leaves the distribution unchanged. With momentum it moves by the debiased, norm-scaled moving average of the gradients, whose closed form over any number of calls is the exponentially weighted sum. For a conjugate loss (a KL divergence up to a constant) dL/deta is the difference of natural parameters, every call with rate in [0,1] succeeds, never increases the loss and contracts geometrically to the optimum; in particular one step of rate 1 on a VGP with Gaussian likelihood gives the exact GP regression posterior. (Negative: the norm used with momentum double-counts the off-diagonal block, so can be negative and make the first call fail although all gradients are right.)

*Quantifier:* all models, gradients, rates, momentum parameters and numbers of calls

* `C39_step` (NatGrad.lean) — without momentum, a step with gradient `g = ∂L/∂η` maps the natural parameters `θ` to `θ - γ g` exactly; it raises precisely when `θ - γ g` is not a proper Gaussian. The optimiser's state does not change.
* `C39_momentum_step` (NatGrad.lean) — with momentum, a step maps `θ` to `θ - lr / (√v' + ε) m'` with the updated moving averages `m'` (of the gradient) and `v'` (of its norm) and the debiased rate; it raises when `v' < 0` (the square root is not a number) or when the result is not a proper Gaussian.
* `C39_moving_averages` (NatGrad.lean) — the moving averages after `N` successful calls, in closed form: exponentially weighted sums of the gradients (and of their norms) met on the way, and the step counter counts the calls.
* `C39_zero_rate` (NatGrad.lean) — with learning rate 0 a step leaves the distribution unchanged, whatever the gradient (with momentum: whenever it does not raise); the parameters too, up to the signs of the Cholesky factors' columns.
* `C39_gradient_of_kl` (NatGrad.lean) — for a loss that is the divergence from a fixed model up to a constant, the gradient in the expectation parameters is the difference of the natural parameters, and nothing else is.
* `C39_conjugate` (NatGrad.lean) — for a conjugate loss (a divergence to a fixed model `p`, up to a constant) with a rate `γ ∈ [0, 1]`, every call succeeds and the natural parameters approach those of `p` geometrically, from any start; the loss never increases.
* `C39_conjugate_one_step` (NatGrad.lean) — one step of rate 1 on a conjugate loss lands on the optimum exactly, from any start.
* `C39_vgp_gaussian` (NatGrad.lean) — for a variational GP with Gaussian likelihood, one natural gradient step of rate 1 from any `dist_q` gives the exact posterior (that of GP regression).
* `C39_momentum_norm_negative` (NatGrad.lean) — negative result: the number that the momentum variant uses as the squared length of the natural gradient is not `(∂L/∂η)ᵀ (∂L/∂θ)`: the off-diagonal part is counted twice (although `∂L/∂η` for the off-diagonal block already pairs with the whole off-diagonal parameter), so that it can be negative. Then the very first call fails, for every learning rate and all momentum parameters (`0 ≤ β₂ < 1`), although the gradients are correct and their true product is positive. Loss: the expectation of `x₀² + x₁² - 1.5 x₀ x₁`, two scalar states with correlation 4/5.

## C40 likelihood objects are normalised and agree with their sampling

MultiStageLikelihood's probabilities over the counts 0,1,2,... sum to one for every latent value, follow the documented decision tree, and its sampler draws each count with exactly the probability log_prob assigns; its variational expectations are Gaussian expectations of log_prob whenever those of the two component likelihoods are. MultivariateGaussian(chol): log_probability_density is the normalised Gaussian density with the covariance built from the lower triangle of chol; variational_expectations is the exact expectation of it under N(m,S); predict_density succeeds and is the log of the expected density; predict_mean_and_var and predict_y(full_output_cov=True) are the law of latent plus independent noise. Negative: non-count values below 2 get log probability 0; predict_y with the default full_output_cov=False adds the whole [o,o] covariance to [p,o] variances, so for o>1 it raises or returns wrong variances.

*Quantifier:* all latent values, data, link functions with values in (0,1)/(0,inf), positive semi-definite latent covariances, noise factors with nonzero diagonal

* `C40_multistage_normalised` (LikelihoodObjects.lean) — the probabilities that `log_prob` assigns to the counts `0, 1, 2, …` sum to one, for every latent value and all inverse links with values in `(0, 1)` and `(0, ∞)`; the first three kinds are those of the documented decision tree.
* `C40_multistage_samples` (LikelihoodObjects.lean) — `sample_y` draws the count `k` with exactly the probability that `log_prob` assigns to it.
* `C40_multistage_invalid_counts` (LikelihoodObjects.lean) — negative result: a value that is not a count below two (a fraction or a negative number) gets log probability 0, that is density 1, instead of being rejected.
* `C40_multistage_variational_expectations` (LikelihoodObjects.lean) — the variational expectations of the multi-stage likelihood are the expectation of `log_prob` under independent normal latent values, for every datum, whenever those of the two GPflow likelihoods are.
* `C40_mvg_log_density` (LikelihoodObjects.lean) — `MultivariateGaussian(chol).log_probability_density(f, y)` is the log density of `N(f, L Lᵀ)` at `y`, where `L` is the lower triangle of the constructor's argument; as a function of `y` it is the density of that law, so it is normalised.
* `C40_mvg_variational_expectations` (LikelihoodObjects.lean) — `variational_expectations` is the expectation of the log density over latent values distributed `N(m, S)`.
* `C40_mvg_predict_density` (LikelihoodObjects.lean) — `predict_density` succeeds and is the log of the expected density over latent values distributed `N(m, S)`, which is the log density of `N(m, S + Σ)`.
* `C40_mvg_predict_mean_var` (LikelihoodObjects.lean) — `predict_mean_and_var` on full covariances is the law of latent value plus independent noise.
* `C40_predict_y` (LikelihoodObjects.lean) — `predict_y(new, full_output_cov=True)` of a posterior with a multivariate Gaussian likelihood succeeds whenever `predict_f` does and returns the law of the predicted latent value plus independent noise.
* `C40_predict_y_default` (LikelihoodObjects.lean) — negative result: `predict_y(new)` with the default `full_output_cov=False` adds the whole `[o, o]` noise covariance to the `[p, o]` variances. For one output it is right (`Σ₀₀` added to every variance); for more outputs it raises unless the number of new points is 1 or `o`; and for `p = o` new points the variance of output `i` at point `q` gets `Σ_qi` instead of `Σ_ii`.

## C41 SDE tools: Euler-Maruyama, linear drifts, linearisation and the drift divergence

euler_maruyama(sde, x0, grid) returns x0 followed by the iterates x + f(x,t) dt + sqrt(dt) L e along 0, grid[0], ..., grid[-2]; for a linear SDE its output has exactly the law of the state space model LinearDrift.to_ssm builds. set_from_ssm followed by to_ssm on a grid of the same step gives back the model, and conversely. linearize_sde at Gaussian marginals q gives the unique linear drift minimising squared_drift_difference_along_Gaussian_path along q; for Ornstein-Uhlenbeck it is the SDE itself. squared_drift_difference_along_Gaussian_path, at the marginals of the linear drift's own model, is exactly the KL divergence between the two discretised path laws (and equals StateSpaceModel.kl_divergence for a linear p). Negative: a grid starting at 0 shifts the output by one step; to_ssm mutates the drift so that squared_drift_difference then fails.

*Quantifier:* all drifts, diffusions, grids, noise, numbers of steps, Gaussian paths; for the scalar statements all differentiable / square integrable drifts

* `C41_euler_maruyama` (SDE.lean) — `euler_maruyama(sde, x0, time_grid)` starts at `x0` at time zero and its entry `k + 1` is the Euler–Maruyama approximation at time `time_grid[k]`; the last grid time is not simulated.
* `C41_euler_maruyama_shifted` (SDE.lean) — negative result: on a grid that starts at time zero the entries are shifted against the grid: the second entry is still `x0`, and no entry depends on the last grid time or the last draw.
* `C41_euler_maruyama_linear_law` (SDE.lean) — for a linear SDE `dx = (A(t) x + b(t)) dt + L(t) dB`, the values that `euler_maruyama` returns, driven by independent standard normal draws, are distributed exactly as the trajectory of the state space model `LinearDrift.to_ssm` builds on the simulated times from the deterministic initial state.
* `C41_drift_roundtrip` (SDE.lean) — `set_from_ssm` followed by `to_ssm` on a grid with the same step gives back transitions and offsets, and the whole model when the diffusion is the scaled process factor; and `to_ssm` followed by `set_from_ssm` gives back the drift.
* `C41_drift_roundtrip_general` (SDE.lean) — on any other grid the transition is recovered exactly at the steps of length `dt` and where it is the identity.
* `C41_to_ssm_changes_drift` (SDE.lean) — negative result: `to_ssm` raises when the drift is unset; on parameters without batch axis it stores them with one, so that a later `squared_drift_difference_along_Gaussian_path` with the same object fails its assertions, for every number of steps and dimension.
* `C41_handle_shape` (SDE.lean) — `handle_tensor_shape` returns a tensor with the desired number of axes: the given one if it has as many, with a leading axis of size one dropped if it has one more, with one added if it has one less; it raises on everything else, in particular on a proper batch.
* `C41_drift_shapes` (SDE.lean) — `set_from_ssm` accepts a model without batch axis and a batch of one, and nothing else with one batch axis; the parameters it stores have no batch axis. With matching arguments `to_ssm` then passes its checks and stores the parameters with a batch axis of size one; calling it again passes and changes nothing; wrong arguments fail the assertions.
* `C41_linearize_optimal` (SDE.lean) — among all linear drifts, the one that `linearize_sde` builds at the Gaussian marginals `q` is the unique one with the least `squared_drift_difference_along_Gaussian_path` along `q`, for every scalar SDE with a differentiable drift that is square integrable under the marginals, and quadrature exact for the drift, its derivative and the squared differences.
* `C41_scalar_views` (SDE.lean) — The scalar views are the SDE objects of `sde.py` for one state dimension; their gradients are derivatives.
* `C41_linearize_ou` (SDE.lean) — linearising an Ornstein–Uhlenbeck SDE around any Gaussian path gives the same state space model: transitions `1 - λ Δ`, no offsets, process factors `√(Δ q)`.
* `C41_linearize_double_well` (SDE.lean) — the linearisation of the double-well SDE at `N(m, v)` has slope `4 - 12 (m² + v)` and value `4m - 4(m³ + 3mv)` at `m`.
* `C41_drift_difference_is_kl` (SDE.lean) — `squared_drift_difference_along_Gaussian_path` is exactly the Kullback–Leibler divergence between the Euler–Maruyama path laws of the linear drift and of the SDE `p`, when it is given the marginals of the linear drift's own state space model, which has the first path law as its law: every scalar SDE with a drift that is square integrable under these marginals, every linear drift, every number of steps, every step length and spectral density; quadrature exact on the squared differences.
* `C41_drift_difference_linear` (SDE.lean) — for a linear `p` (for instance Ornstein–Uhlenbeck, `α = -λ`, `β = 0`) the value is exactly what `q_ssm.kl_divergence(p_ssm)` returns for the two state space models of the drifts.

## C42 constructors accept exactly the documented shapes

For tensors of the documented ranks, the StateSpaceModel, BlockTriDiagonal and KalmanFilter constructors succeed exactly when the documented relations between shapes hold, and raise otherwise; for other ranks the accepted shapes are exactly the documented ones plus those that a broadcasting comparison of shape vectors lets through (a finding: e.g. a batched mean with unbatched matrices is accepted, then event_shape raises). The same for emission models, Gaussian sites, right-hand sides of solve, likelihood argument checks, mean functions and the LEG kernel.

*Quantifier:* all shapes of all ranks

* `C42_state_space_model_exact` (Shapes.lean) — Exactly which shapes `StateSpaceModel(...)` accepts: the trailing dimensions are the documented ones (a scalar mean counts as `[1]`), and the batch shapes are compared with the mean's one through a broadcasting comparison.
* `C42_state_space_model` (Shapes.lean) — **C42** (state space models). Among arguments whose ranks are the documented ones (the Cholesky factor of the initial covariance and the offsets have one axis more than the mean, the transitions and process covariances two more) the constructor succeeds exactly when the documented relations hold, and raises otherwise.
* `C42_state_space_model_documented` (Shapes.lean) — The documented shapes are accepted, and then the object reports the documented `event_shape = [num_transitions + 1, state_dim]`, `batch_shape`, `state_dim` and `num_transitions`.
* `C42_batch_mismatch_accepted` (Shapes.lean) — The comment "assert batch shapes are exactly matching" is not what is checked: a mean with a batch axis (of any size) is accepted together with unbatched matrices, because comparing a shape vector of length one with an empty one is vacuous ...
* `C42_scalar_mean_accepted` (Shapes.lean) — ... and a scalar is accepted as the mean of a one dimensional state.
* `C42_event_shape` (Shapes.lean) — An accepted model whose mean and offsets do not have the same batch shape is unusable: whenever `event_shape` can be computed, the mean and the offsets have the documented shapes.
* `C42_check_compatible` (Shapes.lean) — Two state space models are `check_compatible` exactly when they have the same state dimension and number of transitions and (loosely) the same batch shape.
* `C42_log_pdf_states` (Shapes.lean) — A trajectory may be evaluated exactly when its last two axes are the event shape (or, for a rank-one argument, when it is `[k]` and the event shape is `[k, k]`).
* `C42_block_tri_exact` (Shapes.lean) — Exactly which shapes `BlockTriDiagonal(...)` accepts.
* `C42_block_tri` (Shapes.lean) — **C42** (block tri-diagonal matrices): if the sub-diagonal has the same rank as the diagonal, the constructor succeeds exactly on the documented shapes.
* `C42_block_tri_no_blocks_accepted` (Shapes.lean) — The assertion "Outer dimensions of the block matrix must be greater than 0" never fires: a matrix without blocks is accepted.
* `C42_block_tri_vector_accepted` (Shapes.lean) — A rank-one "sub-diagonal" is accepted if its length is the block size and there is one block more than that.
* `C42_right_hand_side_sound` (Shapes.lean) — Whatever right-hand side is accepted by `solve` / `dense_mult` has the blocks of the matrix as its last two axes, and its remaining axes broadcast with the batch shape of the matrix.
* `C42_right_hand_side_complete` (Shapes.lean) — Conversely an unbatched right-hand side, and any right-hand side with at least as many axes as the matrix whose leading axes broadcast with the batch shape, is accepted ...
* `C42_right_hand_side_refused` (Shapes.lean) — ... but for fewer batch axes than the matrix some broadcastable right-hand sides are refused.
* `C42_flatten_round_trip` (Shapes.lean) — Flattening a right-hand side for the banded operators and un-flattening the result gives the original shape back.
* `C42_emission` (Shapes.lean) — An emission matrix is accepted exactly when it is `batch_shape + [num_data, output_dim, state_dim]`; the output dimension is then the second-last axis.
* `C42_stack_emission` (Shapes.lean) — A stacked emission matrix is accepted exactly when it is `(..., num_kernels) + [num_data, 1, state_dim]`; the output dimension is then the number of kernels.
* `C42_project_state` (Shapes.lean) — `project_state_to_f` accepts exactly the states whose last two axes are the number of data points and the state dimension of the emission matrix.
* `C42_kalman_filter_exact` (Shapes.lean) — Exactly which observations and observation covariances `KalmanFilter(...)` accepts, for a state space model with batch shape `batch` and `n` transitions and an emission model with output dimension `o`.
* `C42_kalman_filter` (Shapes.lean) — **C42** (Kalman filter): for an observation covariance of rank two and observations of the same rank as the mean of the states, the constructor succeeds exactly on the documented shapes.
* `C42_kalman_emission_unchecked` (Shapes.lean) — The number of time points and the state dimension of the emission matrix are not compared with the state space model: any emission matrix with the right output dimension is accepted.
* `C42_stack_kalman` (Shapes.lean) — **C42**, negative result: with a stack of two or more kernels no Kalman filter (hence no Gaussian process regression) works: for every accepted emission matrix, every observation covariance of rank two and all observations, either the constructor raises or the posterior precision does.
* `C42_sites` (Shapes.lean) — Univariate Gaussian sites are accepted exactly when `nat1` is `[N, 1]`, `nat2` is `[N, 1, 1]` and the normaliser, if given, `[N, 1]`; they then report `num_data = N` and `output_dim = 1`.
* `C42_kalman_sites` (Shapes.lean) — A Kalman filter with sites is accepted exactly when the sites are well formed and the emission matrix has output dimension one; the number of sites is not compared with the number of time points.
* `C42_drop_batch` (Shapes.lean) — The sparse-sites filter drops a leading batch axis of size one and refuses any other.
* `C42_leg` (Shapes.lean) — The latent exponentially generated kernel accepts exactly two square matrices of the same size, which is its state dimension.
* `C42_multivariate_gaussian` (Shapes.lean) — The multivariate Gaussian likelihood accepts any (also batched) square matrix, although its docstring only allows `[obs_dim, obs_dim]`.
* `C42_check_input_shapes` (Shapes.lean) — The likelihoods' argument check accepts exactly means and observations that agree in their number of data points and in the expected dimension, and square covariances of that dimension. Neither the batch shapes nor the number of data points of the covariances is compared.
* `C42_actions` (Shapes.lean) — The constructors of the impulse and step mean functions: action times `[..., num_actions]` and perturbations `[..., num_actions, state_dim]` with the same leading axes (or, loosely, action times `[k]` with all leading axes `k`).
* `C42_back_project_nats` (Shapes.lean) — `back_project_nats` accepts exactly the documented sizes.
* `C42_base_conditional` (Shapes.lean) — `batch_base_conditional` accepts exactly `Kmn : [..., M, N]`, `Kmm : [M, M]`, `Knn : [..., N]` (a scalar counts as `[1]`), `f : [M, N]` and `q_sqrt : [M, N]` or `[N, M, M]`.

## C43 spatio-temporal models are sparse variational Gaussian processes in space and time

SparseSpatioTemporalKernel's outputs are the values at the inducing points of the GP with covariance ks(x,x')kt(t,t'). batch_base_conditional returns mean and variance of ∫q(g2)p(g1|g2) without q_sqrt or with a diagonal one (with a full q_sqrt the variance is wrong: L w instead of L^T w). space_time_predict_f returns the mean of f(x,t) under q(u)p(f|u) for every q; its variance equals that of the model exactly if residual + |L w|^2 = kt(t,t) residual + |L^T w|^2 (e.g. one inducing point and kt(t,t)=1; with kt(t,t)=2 elbo exceeds the log evidence). When the variances are right, elbo is log p(y) - KL(q-process || posterior) and predict_log_density the log predictive density. The CVI variant's dist_q is prior times sites, update_sites is the natural gradient step, the constructor starts at the prior, and for a Gaussian likelihood with learning rate one a single update reaches p(u)∏N(y; m + E[f|u], σ²).

*Quantifier:* all spatial covariance functions, inducing points, one-output temporal kernel expressions with noise, q, data times within the inducing range, likelihoods, mean functions, histories of updates

* `C43_base_conditional` (SpatioTemporal.lean) — without `q_sqrt` or with a diagonal one, whitened or not, `batch_base_conditional` returns the mean and the variance of `∫ q(g₂) p(g₁ | g₂)`, where `(g₂, g₁)` are jointly Gaussian a priori.
* `C43_base_conditional_full` (SpatioTemporal.lean) — with a full `q_sqrt = L` the mean is right, but the variance adds `|L w|²` where the law has `|Lᵀ w|²`, with `w` the projection weights: it is right exactly when the two agree.
* `C43_base_conditional_full_wrong` (SpatioTemporal.lean) — Finding: they need not agree. Two independent inducing variables of variance one, the data point equal to the first, `q_sqrt = [[1, 0], [1, 1]]`: under `q` the first inducing variable has variance one, the code returns two.
* `C43_cvi_dist_q` (SpatioTemporalCVI.lean) — `dist_q` is the prior times the sites, `q(u) ∝ p(u) ∏ⱼ exp(θ₁ⱼ·vⱼ + vⱼᵀ θ₂ⱼ vⱼ)`, with `vⱼ` the pair of inducing states around interval `j`, whenever it can be built; it can be built whenever all `θ₂ⱼ` are negative semidefinite. Otherwise it raises.
* `C43_projection` (SpatioTemporalCVI.lean) — `state_to_space_conditional_projection` at `(x, t)` maps the state to the prior conditional mean of `f(x, t)` given the state: the spatial weights times the emission.
* `C43_cvi_gradients` (SpatioTemporalCVI.lean) — `local_objective_and_gradients` at the predicted mean of `f = g + m(x)` computes the gradient with respect to the expectation parameters of `g` (whose meaning is `C34_gradient`) for the likelihood seen by `g`.
* `C43_cvi_update` (SpatioTemporalCVI.lean) — one `update_sites`: the sites of interval `j` move from `θ` to `(1 - r) θ + r Σ_i g_i`, the sum running over the data in that interval; datum `i` contributes `(g₁ W_i, g₂ W_i W_iᵀ)`, where `g` is the gradient at the predicted mean and variance (`C43_cvi_gradients`) and `W_i v` the prior conditional mean of `f(x_i, t_i)` given the neighbouring inducing states. Nothing else changes.
* `C43_cvi_reachable` (SpatioTemporalCVI.lean) — the hypotheses hold after any history of successful updates, on any minibatches, and the kernel stays the same.
* `C43_cvi_init` (SpatioTemporalCVI.lean) — the constructor of `SpatioTemporalSparseCVI`: zero sites, so that `dist_q` is the prior.
* `C43_cvi_gaussian` (SpatioTemporalCVI.lean) — with a Gaussian likelihood and learning rate one, a single update, from any sites that have a `dist_q`, gives `q(u) ∝ p(u) ∏_i N(y_i; m(x_i) + E[g(x_i, t_i) | u], σ²)`: the optimal `q` of the sparse model. The predicted variances do not enter, so this holds whether they are right or not.
* `C43_cvi_elbo` (SpatioTemporalCVI.lean) — `elbo` of a `SpatioTemporalSparseCVI` is the objective of `C43_elbo` at `q = dist_q`; in particular, if the returned variances are those of the model, `log p(y) = elbo + KL(q-process ‖ posterior)` on the full data.
* `C43_predict_exact` (SpatioTemporalElbo.lean) — with one spatial inducing point and a temporal kernel of variance one the returned variances are those of the model, for every `q` and all inputs.
* `C43_elbo_value` (SpatioTemporalElbo.lean) — what `elbo` computes, whatever the variances: `Σ_i E_{N(mᵢ, vᵢ)} log p(yᵢ | f)` with the returned means and variances, scaled, minus `KL(q ‖ prior)`.
* `C43_elbo` (SpatioTemporalElbo.lean) — if the returned variances are those of the model (`C43_predict_exact`), `elbo` is the expected log likelihood under the sparse process `q(u) p(f | u)`, scaled, minus the KL divergence between that process and the prior, which is `KL(q ‖ prior)`.
* `C43_bound` (SpatioTemporalElbo.lean) — under the same condition, on the full data, `log p(y) = elbo + KL(q-process ‖ posterior)` for the evidence of the spatio-temporal Gaussian process; so `elbo` is a lower bound, and is attained exactly by the posterior.
* `C43_init` (SpatioTemporalElbo.lean) — the constructor of `SpatioTemporalSparseVariational`: it succeeds with valid arguments, the result is valid and starts at the prior; `elbo` and `loss` are the above for the current `q`.
* `C43_svgp_bound` (SpatioTemporalElbo.lean) — the bound for a `SpatioTemporalSparseVariational` object.
* `C43_predict_log_density` (SpatioTemporalElbo.lean) — for a Gaussian likelihood of variance `σ²`, if the returned variances are those of the model, `predict_log_density` is `log ∫ N(y; f, σ²) ν(df)` with the predictive law of the value at the input.
* `C43_elbo_not_a_bound` (SpatioTemporalElbo.lean) — Finding: the conditional variance in space is not multiplied by the variance of the temporal kernel. With a temporal kernel of variance two the predicted variance of a value independent of the inducing variables is one, not two, and `elbo` of the constructed model exceeds the log evidence.
* `C43_kernel` (SpatioTemporalPredict.lean) — `SparseSpatioTemporalKernel` can be used exactly if there is an inducing point and the spatial covariance matrix of the inducing points is positive definite; its outputs are then the values at the inducing points of the Gaussian process with covariance `kₛ(x, x') kₜ(t, t')`.
* `C43_prior` (SpatioTemporalPredict.lean) — the prior of the model. The states have the law of `dist_p`; the outputs of the kernel at the inducing times, which are the values at the inducing points, and the values at the inputs are jointly a Gaussian process with covariance `kₛ(x, x') kₜ(t, t')`.
* `C43_predict` (SpatioTemporalPredict.lean) — `space_time_predict_f`, at inputs whose times lie between the first and the last inducing time, for every non-degenerate `q`. Under the law `q(u) p(f | u)` of the spatio-temporal Gaussian process the value `f(xᵢ, tᵢ)`, with the mean function added, is Gaussian; the returned mean is its mean. Its variance is `kₜ(t, t) r + wᵀ C w`, where `C` is the covariance of the predicted outputs, `w` the weights of the spatial conditional mean and `r` the spatial conditional variance; the code returns `r + |L w|²` with `L` the Cholesky factor of `C`, so the returned variance is right exactly if `r + |L w|² = kₜ(t, t) r + |Lᵀ w|²`.

## C44 time differences are checked

to_delta_time returns consecutive differences, raises when any difference is negative, and the differences sum to last minus first.

*Quantifier:* all time sequences of all lengths

* `C44_to_delta_time` (Utils.lean) — `to_delta_time` succeeds exactly for non-decreasing times and then returns the consecutive differences, which sum to last minus first; otherwise it raises. (Equal times are accepted, although the documentation says "strictly increasing".)

## C45 predicted observations add the mean function and the noise exactly once

predict_f(t) has mean H mu_state(t) + m(t) and covariance H S H^T; predict_y adds the likelihood variance to the variance of predict_f.

*Quantifier:* all posteriors, mean functions and query times

* `C45_state_psd` (Conditionals.lean) — Predicted state covariances are positive semi-definite (any jitter).
* `C45_formulas` (Conditionals.lean) — `predict_f` has mean `H μ + m(t)` and covariance `H S Hᵀ` (its diagonal without `full_output_cov`), where `μ, S` is the predicted state; a Gaussian likelihood adds its variance to the variance of `predict_f`, once, and leaves the mean.
* `C45_laws` (Conditionals.lean) — in law: if the state at `t` follows the predicted law then `f = H x + m(t)` follows the law `predict_f` returns, and adding independent observation noise gives the law `predict_y` returns.

## C46 copies of a state space model are the same distribution

create_non_trainable_copy() returns a model with the same trajectory distribution; so does create_trainable_copy() for lower triangular Cholesky factors (the documented input), every tensor then being unchanged; the trainable copy always has lower triangular factors, whatever was passed in.

*Quantifier:* every state space model

* `C46_copies` (StateSpaceModel.lean) — the non-trainable copy has the same trajectory law, always; the trainable copy has it for lower triangular Cholesky factors, and then all five tensors are unchanged.

## C47 sparse power expectation propagation

dist_q of SparsePowerExpectationPropagation is the Bayes posterior of the prior at the inducing points given the interval sites; compute_cavity removes the fraction alpha/c of an interval's site (c data in the interval) and, between the first and last inducing point, equals what the model would predict with that site raised to the power 1 - alpha/c; update_sites moves every interval's site to (1 - alpha*lr)*old + alpha*lr*(sum of its data's new sites); compute_log_norm and energy are the stated log expectations; with a Gaussian likelihood the updates coincide with sparse CVI's and converge geometrically to the best variational distribution, and with one datum per interval at the inducing points energy() is the log evidence after one step.

*Quantifier:* every kernel of the library, inducing points, data, sites, alpha, learning rate and number of updates

* `C47_fraction` (SparsePEP.lean) — `compute_fraction`: every datum removes an equal, positive share of the site of its interval, and the shares of the data of one interval add up to the whole site.
* `C47_dist_q` (SparsePEP.lean) — `dist_q` is the posterior of the prior at the inducing points given the sites; it exists when the sites are bounded; a fresh object has sites `-1e-10`.
* `C47_init` (SparsePEP.lean) — a fresh object is valid and its sites are bounded.
* `C47_cavity` (SparsePEP.lean) — `compute_cavity` removes from the joint distribution of the two neighbouring inducing states the fraction `alpha / c` of the site of the interval (`c` the number of data in it), and predicts from what is left. Between the first and the last inducing point the joint distribution is that of `dist_q`; in the two outer intervals the missing neighbour is an independent stationary state. It fails only when nothing positive definite is left.
* `C47_leave_out` (SparsePEP.lean) — between the first and the last inducing point the cavity of a datum is what the model itself would predict at that time had the site of its interval been raised to the power `1 - alpha / c`.
* `C47_cavity_exists` (SparsePEP.lean) — with bounded sites, `alpha` in `[0, 1]` and data between the first and the last inducing point the cavities exist, and so do the posteriors with part of one site removed (of any interval).
* `C47_update` (SparsePEP.lean) — one call of `update_sites`: the gradients are taken at the cavity with power `1` whatever `alpha` is; with `r = alpha * learning_rate` every interval's site becomes `(1 - r) * old + r * (the sum of the new sites of its data)`. The normalizers are computed from the new sites.
* `C47_log_norm` (SparsePEP.lean) — `compute_log_norm`, given the cavities and the posteriors with a fraction `alpha / c` of one site removed: for every interval `1 / alpha` times the sum over its data of `log_expected_density` at the cavity minus the log of the expected removed part of the site.
* `C47_energy` (SparsePEP.lean) — `energy()`: the log of the expectation under the prior of the product of the sites, plus `1 / alpha` times, for every datum, `log_expected_density` at its cavity minus the log of the expected removed part of its interval's site.
* `C47_gaussian_updates` (SparsePEP.lean) — with a Gaussian likelihood, data between the first and the last inducing point, `0 ≤ alpha ≤ 1` and `0 ≤ r = alpha * learning_rate ≤ 1`, from bounded sites any number `t` of updates succeeds, and leaves `(1 - r)^t * old + (1 - (1 - r)^t) * (sum of the exact Gaussian sites of the interval's data)`.
* `C47_gaussian_cvi` (SparsePEP.lean) — with a Gaussian likelihood one update of power EP is one update of sparse CVI with learning rate `alpha * learning_rate`.
* `C47_gaussian_optimal` (SparsePEP.lean) — with a Gaussian likelihood and `alpha * learning_rate = 1` a single update reaches the best variational distribution over the inducing states.
* `C47_gaussian_regression` (SparsePEP.lean) — Gaussian likelihood, `alpha = learning_rate = 1`, the data at distinct inducing points other than the first: a single update, from any bounded sites, gives the exact posterior of Gaussian process regression, and `energy()` is then the log marginal likelihood.
* `C47_mean_function_ignored` (SparsePEP.lean) — finding: the mean function passed to the constructor is never used.

## C48 predict_log_density is the log predictive density under the model's own posterior process

For every model with predict_log_density (SVGP, CVI, PEP, sparse CVI, sparse PEP), at queries inside the range of the conditioning points the returned value per datum is log ∫ p(y|f) q(f) df (summed over outputs) where q(f) is the marginal of the process q(u)p(f|u); when q is the exact posterior given observations y this is log p(y*,y) - log p(y), so with Gaussian noise CVI after one or more steps of learning rate one, and PEP with power and learning rate one after any schedule visiting every datum, return the log predictive density of Gaussian process regression.

*Quantifier:* every kernel, data set, likelihood with exact predict_log_density, variational distribution or sites, query times, update schedule

* `C48_gaussian_contract` (PredictDensity.lean) — the contract is met by the Gaussian likelihood.
* `C48_svgp` (PredictDensity.lean) — `SparseVariationalGaussianProcess`: at queries between the first and the last inducing point, `predict_log_density` returns for each datum `Σ_a log ∫ p(y_a | f_a) dν` with `ν` the law of the sparse process `q(u) p(s | u)`: for one output exactly the documented `log ∫ p(y | f) q(f) df`.
* `C48_sites` (PredictDensity.lean) — the variational models that keep sites: whenever `dist_q` can be built, `predict_log_density` is `log ∫ p(y | f) dν` under the process with `dist_q` at the conditioning points (mean function zero, see C34, C36, C47).
* `C48_exact` (PredictDensity.lean) — exact inference gives exact predictive densities. Whenever `q` is the Bayes posterior of the states given observations `y` at the conditioning points (of some likelihood), `predict_log_density` of a datum `(x*, y*)` is `log p(y*, y) - log p(y)`, evidences of the Gaussian process model.
* `C48_regression` (PredictDensity.lean) — after one or more updates with learning rate one, with a Gaussian likelihood, `predict_log_density` of `CVIGaussianProcess` is the log predictive density of Gaussian process regression; likewise for `PowerExpectationPropagation` with `alpha = 1` after any schedule that visits every datum.
* `C48_outputs_not_joint` (PredictDensity.lean) — (finding): with several outputs the value is the sum of the log densities of the single outputs, not the documented `log ∫ p(y | F) q(F) dF`: the two outputs of a Matérn kernel with `output_dim=2` are the same function, so the joint density of two observations is not the product of their marginal densities.

## C49 Cyclic reduction statistics describe the explained states given the conditioning states

For explained and conditioning times that alternate (starting with an explained one) the cyclic reduction statistics F, G, L computed for a kernel satisfy: L is lower triangular with positive diagonal, and jointly the states at the conditioning times (extended by -1e10 and 1e10) and at the explained times follow the prior exactly when each explained state is drawn, independently given the conditioning ones, from N(-L^-T (G^T x_left + F^T x_right), (L L^T)^-1); projections and covariances agree with those of conditional_statistics. Unsorted times or wrong numbers of times raise. The matrices actually returned are F without its first column and G without the columns from num_conditioning on.

*Quantifier:* every number of time points, every alternating pair of time grids within +-1e10, every kernel of the library with non-degenerate noise (every kernel at all for the pointwise statement), every state dimension

* `C49_raises` (CyclicReduction.lean) — unsorted time points and wrong numbers of time points raise, whatever the kernel.
* `C49_bridge` (CyclicReduction.lean) — any kernel whose process noise is positive definite over every positive time step: the call succeeds, and for each explained point, given the states at its two neighbours among the conditioning times (extended by `∓1e10`), the state is Gaussian with mean `-L⁻ᵀ (Gᵀ x₋ + Fᵀ x₊)` and covariance `(L Lᵀ)⁻¹`, with `L` lower triangular with positive diagonal.
* `C49_conditional_statistics` (CyclicReduction.lean) — the same projections and covariances as `conditional_statistics` at the same points.
* `C49_law` (CyclicReduction.lean) — the library's kernels: jointly, the states at the conditioning times (extended by `∓1e10`) and at all explained times follow the prior exactly when the explained states are drawn, independently given the conditioning ones, with the statistics the code computes.
* `C49_returned` (CyclicReduction.lean) — what is returned (state dimension `d + 1`): `L` as above; but one `F` and one `G` for *every* explained time point, including the `G` of the first point, which multiplies the state at `-1e10`; every `F` without its first column (so an empty matrix if the state has one dimension) and every `G` without its columns from `num_conditioning` on. The documentation says `num_conditioning` square matrices `F` and `num_explained - 1` square matrices `G`.

## C50 Extrapolation is exact up to an exponentially small error

predict_state pins the process at two far away pseudo times -APPROX_INF and APPROX_INF. For every kernel expression with non-degenerate noise (jitter 0) and every posterior chain there are a rate kappa > 0 and a constant B such that for every value inf of APPROX_INF larger by one than all conditioning times, and every list of query times within (-inf, inf), before, between or after the conditioning times and in any order, the call returns and its means and covariances differ from those of the exact predictive q(u) p(s|u), in which there are no pseudo times, by at most B exp(-kappa (inf - |t|)). For Matern12 with lengthscale l the mean at t beyond the last conditioning time t_n differs from exp(-(t - t_n)/l) mu_n by at most exp(-2 (1e10 - t)/l) |mu_n|. The reason: the covariance function of every such kernel satisfies |k(t,t')| <= B exp(-kappa |t - t'|).

*Quantifier:* every kernel expression of the library with non-degenerate noise, every nondegenerate posterior chain, every sorted conditioning grid, all query times and every value of the constant

* `C50_extrapolation` (Extrapolation.lean) — `predict_state` is exact up to an error exponentially small in the distance to the pseudo-observations. For every kernel expression without degenerate noise (and jitter zero), every nondegenerate `q` and sorted conditioning times there are a rate `κ > 0` and a constant `B`, such that for every value `inf` of `APPROX_INF` exceeding all conditioning times by at least one, and all query times with `|t| < inf` in any order, including extrapolation, the call returns, and mean and covariance differ from those of `q(u) p(s | u)`, the process without pseudo-observations, by at most `B e^{-κ (inf - |t|)}`.
* `C50_code` (Extrapolation.lean) — The theorem above speaks about the code: `APPROX_INF = 1e10`.
* `C50_matern12` (Extrapolation.lean) — with the constant of the code and explicit numbers: for `Matern12` with lengthscale `l`, the mean predicted at `t` beyond the last conditioning time `t_n` differs from the exact `e^{-(t - t_n) / l} μ_n` by at most `e^{-2 (1e10 - t) / l} |μ_n|`.
* `C50_mixing` (Extrapolation.lean) — the reason: the processes forget exponentially fast. For every kernel expression without degenerate noise and with bounded emissions, the covariance function it denotes satisfies `|k(t, t')| ≤ B e^{-κ |t - t'|}`.

## C51 Regression depends on the data and the covariance function only

GaussianProcessRegression.log_likelihood() and the posterior's predict_f do not depend on the origin of time (all times shifted, for kernels with constant emission), on its direction (one output), on the units (times multiplied by a, observations, mean function and noise factor by s, kernel parameters converted: predictions convert, log_likelihood changes by -N*o*log s), or on the expression by which a kernel with a given covariance function is built (order of a sum, OrnsteinUhlenbeck for Matern12, another state dimension). In general: two models whose residuals, kernel covariances and noise at the (re-ordered) data times agree up to factors s, s^2, s^2 give log likelihoods that differ by N*o*log|s| and predictions that agree up to the same factors.

*Quantifier:* every valid regression model (kernel expression with noise, jitter zero, strictly increasing times), every shift, unit, permutation and every query in the range of the data

* `C51_log_likelihood` (Invariance.lean) — `log_likelihood()` of two regression models whose data are the same up to order, whose covariances at the data times (kernel and noise) are the same up to the factor `s²`, and whose residuals are the same up to the factor `s`: they differ by the log determinant of the change of units. The kernels may be different objects with different state dimensions.
* `C51_predict` (Invariance.lean) — the predictions of two such models, at new times that are related to the data times in the same way.
* `C51_translation` (Invariance.lean) — the origin of time is irrelevant. If all times (and the mean function) are shifted by `c`, `log_likelihood()` does not change and the predictions are those at the times shifted back.
* `C51_reversal` (Invariance.lean) — the direction of time is irrelevant for one output.
* `C51_units` (Invariance.lean) — units. With times multiplied by `a > 0`, observations, mean function and noise factor by `s > 0`, and the kernel's own parameters converted, the predictions are the old ones converted, and `log_likelihood()` changes by the log of the Jacobian of the change of units of the observations, whatever `a`.
* `C51_same_covariance` (Invariance.lean) — the expression is irrelevant. Two kernel objects with the same covariance function (a sum in another order, Matérn 1/2 and Ornstein-Uhlenbeck, ...), possibly with different state dimensions, give the same `log_likelihood()` and the same predictions.

## C52 Learning from more data is sequential conditioning

Let g' have the data of g and u further ones. The posterior of g' is the posterior process of g conditioned on the further data (in any order, interleaved or not), and log_likelihood of g' is that of g plus the joint log predictive density of the further data; for one datum (t, y) in the range of the data this is the log density of y under the Gaussian returned by g's predict_f at t plus the observation noise. Hence predictive covariances never increase with more data, whatever the values observed, are at most the prior's k(t,t), at a data time at most the noise of one observation; they do not depend on the observations, of which the predictive mean is an affine function.

*Quantifier:* every pair of valid regression models one of which has the data of the other, every query in the range of the data

* `C52_sequential` (MoreData.lean) — sequential learning. The model with all data predicts what conditioning the posterior process of the first model on the further data gives, and the log likelihoods add up.
* `C52_chain_rule` (MoreData.lean) — the chain rule in terms of the API. With one further datum `(t, y)` inside the range of the data, the log likelihood grows by the log density of `y` under the Gaussian that `predict_f` gives at `t`, plus noise.
* `C52_more_data` (MoreData.lean) — information never hurts. With further data (whatever their values) the predictive covariance at any time in the range of the first data can only decrease.
* `C52_bounds` (MoreData.lean) — bounds. The predictive covariance is positive semi-definite, at most the prior's `k(t, t)`, and at a data time at most the noise of one observation.
* `C52_affine` (MoreData.lean) — the predictions as functions of the observations. The predictive covariance does not depend on the observed values; the predictive mean is an affine function of them.

## C53 Parameters stay valid under any training history

Inducing inputs of the sparse models can be set (constructor or assignment) exactly when strictly increasing, are shown unchanged, and after any history of assignments (including ones that raise) and optimiser steps on the unconstrained variable they are strictly increasing, so that the prior at them can always be built and is non-degenerate; every strictly increasing sequence is reachable. Kernel hyperparameters: the constructors accept exactly the values the transform can represent, and after any history the current values are ones the constructor accepts. Cholesky factors of trainable state space models and of MultivariateGaussian: always lower triangular, so their square is a covariance; the upper part of a given matrix is silently dropped; non-singularity is not kept.

*Quantifier:* every finite history of assignments and optimiser steps, every number of inducing points, every kernel expression with noise

* `C53_ordered` (Parameters.lean) — the inducing inputs. A value can be given (at construction or by assignment) exactly when it is strictly increasing, and is then shown unchanged; after any history of assignments (those that raise included) and optimiser steps the inputs shown are strictly increasing; and every strictly increasing sequence can be reached by a step.
* `C53_kernel_parameters` (Parameters.lean) — the positive hyperparameters. The kernel constructors accept exactly the values that the transform can represent, the value is shown unchanged, and after any history of assignments and steps on lengthscale and variance the kernel with the current values is one the constructor accepts: every theorem about it (valid covariances, stationarity, ...) goes on holding during training.
* `C53_triangular` (Parameters.lean) — the Cholesky factors. After any history the factor shown is lower triangular, so that its square is a covariance; a lower triangular factor is shown unchanged, of any other matrix the part above the diagonal is silently dropped. Non-singularity is *not* kept: a step can make the factor zero.
* `C53_sparse_models` (Parameters.lean) — the sparse models. For a kernel expression with noise, each constructor succeeds exactly on strictly increasing inducing points, which are then the model's inducing inputs; and after any history of updates of the inducing inputs the prior at them can be built and is non-degenerate.
* `C53_site_models` (Parameters.lean) — the two sparse models with sites.

## C54 More inducing points never hurt, and enough of them are exact

SparseVariationalGaussianProcess: for every q on the inducing points and every larger strictly increasing set of inducing points there is a q' on the larger set with identical predict_state, predict_f and marginal predictions at every time between the first and the last old inducing point, and whose elbo on every minibatch of such times (any likelihood, any num_data) is the old elbo plus a non-negative gap, namely the KL divergence between the old model's states at the new points and q'; so the best objective is monotone in the set of inducing points. With a Gaussian likelihood one sparse-CVI step of learning rate one on the larger set is at least as good as every q on the smaller one. If the inducing points include all the data times (data in any order, with repetitions), elbo = log p(y) - KL(q || posterior of the inducing states) for every likelihood; and with a Gaussian likelihood one sparse-CVI step then reproduces GaussianProcessRegression on the same data: same log marginal likelihood, same predictions.

*Quantifier:* every kernel expression with noise, every non-degenerate q, every pair of nested inducing sets, every likelihood, every minibatch in range

* `C54_refine` (MoreInducing.lean) — adding inducing points never hurts, whatever the likelihood. For every valid model and every strictly increasing `z'` containing its inducing points there is a distribution on `z'` with the same predictions at every time from the first to the last old inducing point, and whose `elbo`, on every minibatch of such times, is the old one plus the divergence between the states at `z'` under the old model and the new `q`, which is the nearest chain.
* `C54_best` (MoreInducing.lean) — the best objective: whatever bounds the objective over all distributions on the larger set of inducing points also bounds it over those on the smaller set.
* `C54_sparse_cvi` (MoreInducing.lean) — Gaussian likelihood: one sparse-CVI step of learning rate one on the larger set of inducing points reaches at least the objective of every distribution on the smaller set.
* `C54_data_times` (MoreInducing.lean) — inducing points at all the data times (and anywhere else; the data in any order, with repetitions) lose nothing: for every likelihood the gap to the log evidence is the divergence of `q` from the exact posterior of the inducing states, so it closes exactly when `q` is that posterior.
* `C54_exact_regression` (MoreInducing.lean) — exact regression as a special case of the sparse model. With a Gaussian likelihood and inducing points at all the training times (and possibly elsewhere), one sparse-CVI step of learning rate one, from any sites that have a `dist_q`, has as its objective the log marginal likelihood of `GaussianProcessRegression` on the same data, and the same predictions as its posterior at every time from the first to the last training time.

## C55 Models over a stack of kernels are models of independent latent processes

With an IndependentMultiOutputStack of R kernels (each child with its own time points): the prior is the product of the children's Gaussian processes (padding coordinates are independent of everything and do not reach the outputs); predict_f of a posterior process returns, for every output, the mean (with mean function) and variance of independent processes that follow q at their conditioning times and the child's prior conditional in between, and full_output_cov is the diagonal matrix of the same variances; sample_state_trajectories and sample_f fed with independent standard normal draws return joint samples of these processes, and they return exactly when, for every child with a smaller state than the stack, the new times are distinct and differ from the child's conditioning times (otherwise they raise: the padded process covariance over a zero step is neither zero nor positive definite); elbo of the sparse and the dense variational model equals (scaled) expected joint log likelihood minus the sum of the KL divergences, log p(y) = elbo + KL(q-processes || posterior) for likelihoods that couple the outputs (multi-stage, or a scalar likelihood per output), so elbo is a lower bound, tight exactly at the posterior, and size-weighted minibatch objectives average to the full objective. The sum and the product of two stacks are stacks of the summed and multiplied processes, with the left operand's jitter.

*Quantifier:* every number of kernels, all noisy kernel expressions as children, all inducing times per child, every non-degenerate q per child, every exact joint likelihood, every minibatch and partition

* `C55_prior` (Stack.lean) — the state space models of a stack have the laws of independent children: the states at the conditioning times follow the stack's prior, and the latent values at any times are independent Gaussian processes with the children's covariances.
* `C55_predict` (Stack.lean) — `predict_f` of a process over a stack, at query times between the first and the last conditioning time of each child: the outputs are the marginals of independent processes, one per child, each following `q` at its conditioning times and the child's prior conditional in between; `full_output_cov` gives the diagonal matrix of the same variances.
* `C55_elbo` (Stack.lean) — `elbo` of the sparse model over a stack, for every likelihood that couples the outputs at a datum: the expected log likelihood under independent sparse processes, scaled, minus the KL divergence between the product of the `q`s and the product of the priors, which is also the KL divergence between the processes.
* `C55_bound` (Stack.lean) — on the full data `log p(y) = elbo + KL(q-processes ‖ posterior)`, where `p(y)` is the evidence of the model with independent Gaussian process latents (the children's covariances, the given means) and the joint likelihood; so `elbo` is a lower bound, tight exactly if the independent sparse processes are the posterior.
* `C55_vgp` (Stack.lean) — the dense variational model over a stack: the same identity, with `q` at the data times.
* `C55_partition` (Stack.lean) — for every partition of the data into minibatches (of any sizes), the average of the minibatch objectives of a sparse model over a stack, weighted by the minibatch sizes, is the full objective.
* `C55_init` (Stack.lean) — a stack needs a child and a non-negative jitter.
* `C55_add` (Stack.lean) — the sum of two stacks is the stack of the sums: independent processes with covariances `c_r + c'_r`; noisy children stay noisy. Only the jitter of the left operand is kept.
* `C55_mul` (Stack.lean) — the product of two stacks is the stack of the products: independent processes with covariances `c_r c'_r`; it is noisy as soon as one factor of each child is. Only the jitter of the left operand is kept.
* `C55_scalar_likelihood` (Stack.lean) — a scalar likelihood with exact variational expectations, one observation per output, is exact for the stack.
* `C55_multistage_likelihood` (Stack.lean) — the multi-stage likelihood with the default links (GPflow's `inv_probit` has values in `[ε, 1 - ε]` with `ε = 1e-3`; `exp`) is exact for a stack of three kernels, if the Bernoulli and Poisson expectations are.
* `C55_sampling_returns_iff` (StackSampling.lean) — sampling from a process over a stack returns exactly if, for every child that has a smaller state than the stack, the new times are distinct and differ from the conditioning times of that child.
* `C55_samples` (StackSampling.lean) — samples from a process over a stack: fed with independent standard normal draws, the states returned at the conditioning times and the values of `sample_f` follow independent processes, one per child, each with `q` at the conditioning times and the child's prior conditional in between.

## C56 CVI site updates are natural gradient steps, for any likelihood

For a likelihood whose variational expectation is differentiable: the gradient of a variational GP's loss() in the expectation parameters of dist_q exists and equals the natural parameters of dist_q minus those of the prior times one Gaussian site per output, whose parameters are the derivatives of the variational expectation. Hence one update_sites() of a CVI model with learning rate r gives the same dist_q, parameter by parameter, as one SSMNaturalGradient step with gamma = r (no momentum) on the loss() of the variational GP that has the same dist_q, and fails exactly when that fails; the same holds for any number of steps. update_sites() leaves the law of dist_q unchanged if and only if dist_q is a stationary point of the bound; the best dist_q is left unchanged. The same holds for the sparse CVI model and the sparse variational GP, each step on its own minibatch.

*Quantifier:* every kernel expression with noise, every strictly increasing time grid or inducing grid, every data set (any order and position within the stand-in times for the sparse model) and sequence of minibatches, every differentiable likelihood, every site values for which dist_q exists, every learning rate, every number of steps

* `C56_gradient` (CVINatGrad.lean) — the gradient of `loss()` of a variational GP with respect to the expectation parameters of `dist_q` exists at every non-degenerate `dist_q`, and it is the difference between the natural parameters of `dist_q` and those of the prior with one Gaussian site per output: the site's parameters are the derivatives `∂m - 2 (Hμ)ₜₐ ∂v`, `∂v` of the variational expectation at the marginal mean and variance of that output.
* `C56_same_bound` (CVINatGrad.lean) — the bound that `classic_elbo()` returns is the `elbo()` of the variational GP at `dist_q`.
* `C56_step` (CVINatGrad.lean) — one `update_sites()` with learning rate `r` does to `dist_q` what one natural gradient step of rate `r` on the `loss()` of the variational GP does: the results are the same distribution, parameter by parameter, or both fail (in the same way).
* `C56_steps` (CVINatGrad.lean) — any number of steps. Starting at `dist_q`, `N` natural gradient steps on the `loss()` of the variational GP give `dist_q` after `N` calls of `update_sites()`, or both fail.
* `C56_fixed_point` (CVINatGrad.lean) — the fixed points of `update_sites()` are the stationary points of the bound: the update leaves the law of `dist_q` as it is if and only if the gradient of the variational GP's `loss()` vanishes there.
* `C56_optimum` (CVINatGrad.lean) — in particular a `dist_q` at which the bound is largest, among all non-degenerate Gauss-Markov distributions of the states, is left as it is by `update_sites()`.
* `C56_sparse_gradient` (SparseCVINatGrad.lean) — sparse: the gradient of the sparse variational GP's `loss((X, Y))` in the expectation parameters of `dist_q` is the difference between the natural parameters of `dist_q` and those of the prior times, for every datum, a Gaussian factor on the pair of inducing states around it: `exp(g₁ᵢ Wᵢvᵢ + g₂ᵢ (Wᵢvᵢ)²)` with `Wᵢvᵢ` the prior conditional mean of `f(xᵢ)` and `gᵢ` the derivatives of its variational expectation in expectation parameters, at the predicted mean and variance.
* `C56_sparse_same_bound` (SparseCVINatGrad.lean) — sparse: the bound that `classic_elbo()` returns is the `elbo()` of the sparse variational GP at `dist_q`.
* `C56_sparse_step` (SparseCVINatGrad.lean) — sparse: one `update_sites((X, Y))` with learning rate `r` does to `dist_q` what one natural gradient step of rate `r` on the sparse variational GP's `loss((X, Y))` does: the results are the same, parameter by parameter, or both fail (in the same way).
* `C56_sparse_steps` (SparseCVINatGrad.lean) — sparse: any number of steps, each on its own minibatch.
* `C56_sparse_fixed_point` (SparseCVINatGrad.lean) — sparse: the fixed points of `update_sites((X, Y))` are the stationary points of the sparse bound.

## C57 Models with a piecewise kernel are Gaussian process models of one non-stationary process

A PiecewiseKernel describes one Gauss-Markov process: started at the first time with mean zero and the active kernel's stationary covariance, it relaxes with the dynamics of kernel i for the time spent in interval i, one interval after the other. If no time step passes a change point, state_space_model has exactly the law of that process (state means included), and refining the grid of times does not change the law at the old times. Gaussian process regression with such a kernel has, as log likelihood and as predictions at sorted times within the range of the data, the dense Gaussian process formulas for that process's covariance function; the sparse variational model's elbo is the expected log likelihood under q(u) p(s|u) minus the KL divergence and bounds the log evidence of that Gaussian process from below. On a time axis that stays in one interval the covariance function is that interval's kernel; with equal kernels the change points have no effect. Predicting at no times raises.

*Quantifier:* every non-empty sorted vector of change points (repeated ones allowed), all kernel expressions (with noise throughout, for predictions), every strictly increasing grid of times that steps onto the change points it passes, every observation vector, noise factor, mean function, variational state space model, likelihood with exact expectations, and every sorted vector of query times within the range

* `C57_prior` (PiecewiseModels.lean) — the state space model of a piecewise kernel at times between which no change point lies strictly has the law of the piecewise process, started at the first time with mean zero and the active kernel's stationary covariance. State means of the kernels are allowed; they become the levels towards which the mean moves.
* `C57_consistent` (PiecewiseModels.lean) — the law of the process does not depend on which of its times are modelled: refining the grid of times leaves the law at the original times unchanged, as long as the first time stays.
* `C57_first_interval` (PiecewiseModels.lean) — as long as no change point is passed since the start, the outputs have the covariance function of the active kernel: a piecewise kernel is its `i`-th kernel on a time axis that stays in interval `i`.
* `C57_same_kernel` (PiecewiseModels.lean) — if all the kernels are the same, the change points have no effect.
* `C57_predict_state` (PiecewiseModels.lean) — `predict_state`, for sorted queries from the first to the last conditioning time: the marginals of `q(u) p(s | u)`, the conditional law being that of the piecewise process.
* `C57_no_queries` (PiecewiseModels.lean) — predicting at no times raises.
* `C57_log_likelihood` (PiecewiseModels.lean) — `log_likelihood()` of Gaussian process regression with a piecewise kernel is the dense marginal log likelihood with the covariance function of the piecewise process; `loss()` is its negative.
* `C57_posterior` (PiecewiseModels.lean) — the posterior of Gaussian process regression with a piecewise kernel predicts, at sorted queries in the closed range of the data times, the dense posterior mean (mean function included) and covariance for the covariance function of the piecewise process.
* `C57_svgp` (PiecewiseModels.lean) — on data at sorted times between the first and the last inducing point, the elbo of the sparse variational model with a piecewise kernel is the expected log likelihood under `q(u) p(s | u)` (scaled) minus the KL divergence, and on the full data `log p(y) = elbo + KL(q-process ‖ posterior)`, `p(y)` being the evidence of the Gaussian process model with the covariance function of the piecewise process.
* `C57_conditional_statistics` (PiecewiseStatistics.lean) — **C57** `conditional_statistics` with a piecewise kernel returns a projection `P` and a covariance `T` such that, for every distribution `q` of the states at the training points, the prediction at a new point between two training points has the mean and covariance of `P u + w`, `u` the pair of neighbouring states and `w` independent with covariance `T`.
* `C57_svgp_init` (PiecewiseStatistics.lean) — **C57**, the constructor of the sparse variational model: without an initial distribution `q` starts at the piecewise prior at the inducing points, and `elbo` is then the (scaled) expectation of the log likelihood under the Gaussian process prior with the covariance function of the piecewise process; with an initial distribution `q` starts there. A missing mean function is zero.

## C58 Predictions are continuous in the query time and derivative components are predicted as derivatives

predict_state evaluates one function of the query time, whatever other queries are in the same call, and that function (means and covariances) is continuous everywhere between -1e10 and 1e10, also at the conditioning times and beyond the first and last one; predict_f is continuous if the mean function is. For kernels whose state carries derivatives the predicted mean of a derivative component is the derivative of the predicted mean: for Matern32 the second component is d/dt of the first, for Matern52 each component is d/dt of the one before, and d/dt of the variances and covariances are those of the differential equation; predict_f of such kernels and of their sums is differentiable with derivative H F x.

*Quantifier:* every posterior process (any marginals at the conditioning times) over any kernel expression with process noise, any strictly increasing conditioning times, any query times in range, all lengthscales and variances

* `C58_pointwise` (PredictSmooth.lean) — prediction at several times is prediction at each of them: `predict_state` evaluates one function of the query time (determined on the whole range).
* `C58_continuous` (PredictSmooth.lean) — the predicted means and covariances of the state are continuous functions of the query time, across the conditioning times and the ends of their range.
* `C58_derivative` (PredictSmooth.lean) — where the driving noise does not enter `u ⬝ x` and `v ⬝ x`, their predicted means and covariance have, at every query time (conditioning times included), the derivatives that the differential equation gives: `(u ⬝ x)' = (u F) ⬝ x`.
* `C58_predict_f` (PredictSmooth.lean) — with a continuous mean function (and continuous factor weights, if there are any) `predict_f` is continuous in the query time.
* `C58_predict_f_derivative` (PredictSmooth.lean) — a kernel with differentiable outputs: the mean of `predict_f` is differentiable in the query time, and its derivative is `H F` applied to the mean of `predict_state` (plus the derivative of the mean function); likewise for the covariance.
* `C58_smooth_kernels` (PredictSmooth.lean) — `Matern32`, `Matern52`, periodic and constant kernels have differentiable outputs, and so have their sums.
* `C58_matern32` (PredictSmooth.lean) — `Matern32`: the second state component is predicted as the derivative of the first one, which is the output.
* `C58_matern52` (PredictSmooth.lean) — `Matern52`: the second state component is predicted as the derivative of the first one, which is the output, and the third one as the derivative of the second.

## C59 Jitter perturbs results by an amount that vanishes with it

Every kernel constructor accepts every jitter >= 0 and the kernels differ in nothing else. With any positive jitter the state space model of every kernel expression exists at any non-decreasing time points (also repeated times and noise-free kernels, where jitter 0 may fail), and its outputs have the kernel's covariance plus jitter times a positive semidefinite matrix that does not depend on the jitter: jitter only adds variance. As the jitter tends to 0 the log likelihood of GPR tends to the dense log marginal likelihood, the posterior mean and covariance at the data tend to the dense posterior, predict_state of a given posterior tends to the prediction without jitter, and predict_f of the GPR posterior tends to the dense posterior at every query in range.

*Quantifier:* every kernel expression (any constructors, any nesting), any jitter, any non-decreasing data times (strictly increasing and process noise for predict_f), any observations, mean function and noise

* `C59_constructors` (Jitter.lean) — every constructor call that succeeds with some jitter succeeds with every jitter `≥ 0`, and the kernels it returns differ in their jitter only.
* `C59_prior` (Jitter.lean) — prior: with any positive jitter the state space model of a kernel expression exists at any non-decreasing time points (repeated times and noise-free kernels included), and its outputs have the law of the kernel's process plus an independent zero mean Gaussian perturbation of covariance `jitter * J`, `J` depending on the kernel and the times but not on the jitter.
* `C59_log_likelihood` (Jitter.lean) — evidence: for every kernel expression (noise-free ones included), with any non-decreasing data times, and every positive jitter, `log_likelihood()` succeeds, and as the jitter tends to zero it tends to the dense log marginal likelihood.
* `C59_posterior` (Jitter.lean) — posterior: for every kernel expression, any non-decreasing data times and every positive jitter the regression posterior exists; as the jitter tends to zero the joint mean and covariance of the outputs at the data times tend to those of the dense posterior.
* `C59_predict_state` (Jitter.lean) — prediction from a given state distribution: whenever `predict_state` succeeds without jitter it succeeds with every positive jitter, and the result tends to the one without jitter.
* `C59_predict_f` (Jitter.lean) — regression: with every positive jitter `posterior.predict_f` succeeds, and as the jitter tends to zero its mean and covariance tend to the dense Gaussian process posterior, at every query in the range of the data.

## C60 The log likelihood has the textbook gradient and everything is smooth in the hyperparameters

As the kernel hyperparameters, the mean function and the observation noise of a GPR model vary along a differentiable curve, log_likelihood() is differentiable with derivative 1/2 a' C' a - 1/2 tr(C^-1 C') + a' m' (C the covariance of the observations, C' its derivative, a = C^-1 (y - m)), and loss() has the negative derivative: a gradient-based optimiser sees the gradient of the exact marginal likelihood although the code never forms C. log_likelihood and predict_f are as smooth, jointly in all hyperparameters, as the covariance function, mean and noise factor; the covariance functions of all kernels and of their sums, products, independent stacks and concatenations are smooth on the whole valid range of their parameters, so the log likelihood of a Matern model is an infinitely differentiable (analytic) function of lengthscale, variance and noise level.

*Quantifier:* every kernel expression, every curve (or open set of a normed space) of valid hyperparameters, every strictly increasing grid of times, all observations, queries within the data range

* `C60_gradient` (HyperGrad.lean) — the gradient of the marginal likelihood. Along any differentiable curve of valid models (kernel, mean function and noise factor may all vary), `log_likelihood()` is differentiable with the textbook derivative `½ αᵀ C' α - ½ tr(C⁻¹ C') + αᵀ m'` where `C` is the covariance of the observations and `α = C⁻¹ (y - m)`; `loss()` has the negative of it.
* `C60_smooth` (HyperGrad.lean) — the marginal likelihood is as smooth in the hyperparameters (any number of them, jointly) as the covariance function, the mean function and the noise factor are.
* `C60_predict` (HyperGrad.lean) — so are the predictions.
* `C60_covariances` (HyperGrad.lean) — the covariance functions are smooth in their own parameters, and combinations keep smoothness: so the hypotheses of `C60_smooth` hold for every kernel expression.
* `C60_leg_constant` (HyperGrad.lean) — the covariance function of the latent exponentially generated kernel is smooth in the matrices `N` and `R`, everywhere; that of the constant kernel in its variance.
* `C60_matern` (HyperGrad.lean) — for the Matérn kernels with isotropic noise `s² I`: the log likelihood is an infinitely differentiable (in fact analytic: `N` is arbitrary) function of lengthscale, variance and noise standard deviation on all positive values, and `log_likelihood()` evaluates it.

## C61 Observation noise limits: interpolation and return to the prior

Scale the Cholesky factor of the observation covariance of a GPR model by s > 0. posterior and predict_f succeed for every s. As s tends to 0, predict_f at every query within the data tends to the noise-free conditional of the Gaussian process, which at a data time has the observation as mean and zero covariance (the model interpolates); as s tends to infinity, predict_f tends to the prior mean and covariance.

*Quantifier:* every kernel expression with process noise (for interpolation: emission matrices with independent rows), strictly increasing times, all observations, mean functions and noise factors, all queries within the data range

* `C61_interpolation` (NoiseLimits.lean) — interpolation: as the observation noise tends to zero, `predict_f` tends to the noise-free conditional of the Gaussian process at every query, whose mean at a data time is the observation and whose covariance there is zero.
* `C61_uninformative` (NoiseLimits.lean) — uninformative data: as the observation noise tends to infinity, `predict_f` tends to the prior.

## C62 Batching: a batched call is the family of the calls for the batch elements

Give the block tri-diagonal matrices, StateSpaceModel, state_space_model_from_covariances, EmissionModel or the Kalman filters tensors with any leading batch shape. Then every operation (to_dense, dense_mult, solve, cholesky, upper_diagonal_lower, block_diagonal_of_inverse, abs_log_det, +; marginal means and covariances, precision, log_pdf, sample, kl_divergence, normalizer; projections; posterior_state_space_model) returns a tensor or object whose part at every batch index is the result of the same operation on the inputs at that index, independently of the other elements; it raises exactly when the operation raises for one of the elements. Samples and states may have further leading sample axes. log_likelihood of a Kalman filter is the sum over the batch of the log marginal likelihoods.

*Quantifier:* every batch shape of any rank without empty axes, every sample shape, every number of time points, state dimension and output dimension, all tensors of the documented shapes, all draws

* `C62_tensors_are_families` (Batched.lean) — the hypotheses "`x` holds …" below are met by every tensor of the documented shape.
* `C62_state_space_model` (Batched.lean) — the `StateSpaceModel` constructor accepts the documented batched shapes, and the resulting object is a family of models.
* `C62_block_tri_constructor` (Batched.lean) — the constructor of batched block tri-diagonal matrices.
* `C62_block_tri_operations` (Batched.lean) — `to_dense`, `dense_mult`, `solve`, `block_diagonal_of_inverse`, `abs_log_det` per batch element; the right-hand sides may have further leading (sample) axes `ss`.
* `C62_block_tri_add` (Batched.lean) — `+` of batched block tri-diagonal matrices.
* `C62_block_tri_factorisations` (Batched.lean) — `cholesky` and `upper_diagonal_lower` of batched block tri-diagonal matrices; they raise iff they raise for some element.
* `C62_moments` (Batched.lean) — the moments and the precision of a batched state space model are those of its elements.
* `C62_log_pdf` (Batched.lean) — `log_pdf` of states with shape `sample_shape + batch_shape + event_shape`: every sample is evaluated under the model of its own batch element.
* `C62_sample` (Batched.lean) — `sample(sample_shape)`: every sample of every batch element is made of its own standard normal draws, by the model of that element.
* `C62_divergence` (Batched.lean) — the divergence of two batched models is the batch of the divergences; likewise `normalizer` and `log_det_precision`.
* `C62_from_covariances` (Batched.lean) — `state_space_model_from_covariances` decides element by element whether a covariance is zero.
* `C62_emission` (Batched.lean) — the projections of an emission model per batch element; the state may have further leading (sample) axes.
* `C62_kalman_filter` (Batched.lean) — a batched `KalmanFilter` (one observation noise for the batch): the posteriors are those of the elements and the log likelihood is the sum over the batch.
* `C62_kalman_filter_with_sites` (Batched.lean) — a batched `KalmanFilterWithSites`.
* `C62_posterior_bayes` (Batched.lean) — with C18: for a batch of non-degenerate priors the batched posterior state space model exists, and the model at every batch index is the Bayes posterior of the prior at that index given the observations at that index.
* `C62_log_likelihood_evidence` (Batched.lean) — with C19: the log likelihood of a batched filter is the sum over the batch of the log marginal likelihoods.

## C63 Batching of kernels, conditionals, predictions and GP regression

Give a kernel (any basic kernel, or a sum, product, independent multi-output or factor analysis combination of kernels with any state dimensions), the conditional functions, a ConditionalProcess or a GaussianProcessRegression time points and observations with any leading batch shape. Every method (state_transitions, transition_statistics, process_covariances, state_offsets, initial mean and covariance, generate_emission_model, state_space_model; conditional_statistics, conditional_predict, pairwise_marginals; predict_state, predict_f; posterior) returns tensors whose part at every batch index is the result of the same call on the times and data at that index, which may all be different; it raises exactly when the call raises for one of the elements. log_likelihood of a batched regression is the sum over the batch of the log marginal likelihoods, and predict_f of its posterior is the GP posterior of every element given its own data. Mismatched batch shapes of data, or a batched noise factor, are rejected by the constructor.

*Quantifier:* every batch shape of any rank without empty axes, every number of training and new times, every list of children and every state and output dimension, all hyperparameters, times and observations

* `C63_kernels` (BatchedKernels.lean) — every basic kernel, for times of any shape: both constructors raise the same exception, or both return the same kernel.
* `C63_leg` (BatchedKernels.lean) — the latent exponentially generated kernel.
* `C63_set_state_mean` (BatchedKernels.lean) — `set_state_mean`.
* `C63_sum_and_multi_output` (BatchedKernels.lean) — sums and independent multi-output kernels of any number of children with any state dimensions, including the empty list (which raises).
* `C63_product` (BatchedKernels.lean) — products of kernels with one output.
* `C63_factor_analysis` (BatchedKernels.lean) — factor analysis kernels, for a weight function that acts on every time point.
* `C63_one_kernel` (BatchedKernels.lean) — an ordinary kernel acts as the same kernel at every batch index. (The theorems below are stated for kernels that may differ between batch indices, so that they also cover stacks of kernels, C66.)
* `C63_state_space_model` (BatchedKernels.lean) — `state_space_model(time_points)` of a batch of time point sequences: one state space model per batch index, the one of the times there. The call raises exactly when it raises for one of the sequences.
* `C63_conditional_statistics` (BatchedKernels.lean) — `conditional_statistics`; new and training times of one batch shape, all of them different per batch element.
* `C63_conditional_predict` (BatchedKernels.lean) — `conditional_predict`, with and without covariances of the pairs.
* `C63_pairwise_marginals` (BatchedKernels.lean) — `pairwise_marginals`.
* `C63_predict_state` (BatchedKernels.lean) — `predict_state` at one or more new times per batch element, any times, in any order.
* `C63_predict_f` (BatchedKernels.lean) — `predict_f`, with full and with diagonal output covariance.
* `C63_mean_functions` (BatchedKernels.lean) — the zero and the linear mean function are functions of the single time points, also with the default `obs_dim = 1` that broadcasts.
* `C63_gpr_init` (BatchedKernels.lean) — `GaussianProcessRegression(input_data, kernel, mean_function, chol_obs_covariance)` on batched data: one regression per batch index, with the data of that index, the mean function at that index and the common kernel and noise. The zero and the linear mean function are the same at every index.
* `C63_gpr_init_default` (BatchedKernels.lean) — the defaults are the zero mean function and unit observation noise.
* `C63_gpr_init_raises` (BatchedKernels.lean) — data whose batch shapes differ, or a noise factor that is not one `output_dim × output_dim` matrix, are rejected.
* `C63_gpr_log_likelihood` (BatchedKernels.lean) — the log likelihood of a batched regression is the sum of the log likelihoods of its elements.
* `C63_gpr_posterior` (BatchedKernels.lean) — the posterior process of a batched regression is the posterior process of every element.
* `C63_gpr_evidence` (BatchedKernels.lean) — with C32: for valid data the log likelihood of a batched regression is the sum over the batch of the dense marginal log likelihoods.
* `C63_gpr_predictions` (BatchedKernels.lean) — with C32: `posterior.predict_f` of a batched regression returns at every batch index, for every new time between the data of that index, the mean and the covariance of the Gaussian process posterior given the data of that index.

## C64 Batching of the parameter transformations and of the variational models

Give ssm_to_expectations, expectations_to_ssm_params, ssm_to_naturals, naturals_to_ssm_params, the two no_smoothing variants, create_trainable_copy, VariationalGaussianProcess or SparseVariationalGaussianProcess inputs with any leading batch shape. Each transformation returns, at every batch index, the transformation of the model (or parameters) there, and raises exactly when it raises for one of them; so the round trips between models, natural and expectation parameters hold on the whole batch. A variational model built from a batch of data (or inducing inputs) and an optional batched initial distribution is one model per batch element; its posterior and predictive log densities are those of the elements, its ELBO is the sum of their ELBOs and its loss minus that. The batched ELBO is a lower bound on the sum of the log evidences of the elements, equal to it exactly when the variational distribution of every element is its posterior. The site based models (CVIGaussianProcess, PowerExpectationPropagation) accept observations of shape [N, 1] only and reject every batch.

*Quantifier:* every batch shape of any rank without empty axes, every number of time points, inducing points and minibatch points, every state and output dimension, every likelihood, all models, parameters, times and observations

* `C64_expectations` (BatchedVariational.lean) — `ssm_to_expectations` and `expectations_to_ssm_params` of a batch, for every batch shape: one call per batch element; the batched call raises exactly when one of them raises.
* `C64_naturals` (BatchedVariational.lean) — `ssm_to_naturals` (at least one transition) and `naturals_to_ssm_params` of a batch.
* `C64_naturals_no_smoothing` (BatchedVariational.lean) — `ssm_to_naturals_no_smoothing` and `naturals_to_ssm_params_no_smoothing` of a batch.
* `C64_model_round_trips` (BatchedVariational.lean) — with C16 and C17: on a batch of non-degenerate models both directions succeed, and the way through the expectation parameters and the way through the natural parameters give back every model of the batch (exactly, where its Cholesky factors have a positive diagonal).
* `C64_naturals_round_trip` (BatchedVariational.lean) — with C17: for a batch of natural parameters with symmetric diagonal blocks and positive definite precisions, the batched conversion succeeds and converting back returns tensors holding the same parameters.
* `C64_trainable_copy` (BatchedVariational.lean) — `create_trainable_copy` of a batch copies every element. For non-degenerate models the copy is the model.
* `C64_vgp_init` (BatchedVariational.lean) — building `VariationalGaussianProcess` from a batch of time points and observations, with or without an initial distribution: one model per batch element. Building raises exactly when building one of them raises.
* `C64_vgp` (BatchedVariational.lean) — the prior, the posterior and the ELBO of a batch of variational models. The ELBO is the sum of the elements' ELBOs, the loss the sum of their losses.
* `C64_vgp_bound` (BatchedVariational.lean) — with C33: for a batch of valid variational models with an exact likelihood the ELBO exists, is at most the sum of the log evidences of the batch elements, and the difference is the sum of the Kullback–Leibler divergences to the posteriors. It is tight exactly when the variational distribution of every element is its posterior.
* `C64_svgp_init` (BatchedVariational.lean) — building `SparseVariationalGaussianProcess` from a batch of inducing inputs.
* `C64_svgp` (BatchedVariational.lean) — prior, posterior, ELBO, loss and predictive log densities of a batch of sparse variational models on a batch of minibatches. The minibatch factor `num_data / minibatch size` is that of every element.
* `C64_svgp_bound` (BatchedVariational.lean) — with C35: for a batch of valid sparse models with an exact likelihood, evaluated on the full data sets between the inducing points, the ELBO exists and is at most the sum of the log evidences, with equality exactly when for every element the process built from the variational distribution is the posterior.
* `C64_sites_reject_batches` (BatchedVariational.lean) — the site based models (`CVIGaussianProcess`, `PowerExpectationPropagation`) accept observations of shape `[N, 1]` and no others: with any non-empty batch shape, and with several outputs, the constructor raises `ValueError`, although `input_data` is documented as `batch_shape + [num_data, output_dim]`.

## C65 Posterior sampling with batch and sample axes

Call sample_state_trajectories, sample_state or sample_f of a posterior process with a batch of conditioning points of any leading shape and any sample_shape. At every sample index and batch index the result is the sample that the process of that batch element makes from its own normal draws, and the call raises exactly when it raises for one of the elements. With independent standard normal draws, the trajectories of different samples and of different batch elements are therefore independent, and each has the predictive law of its element: states at the conditioning times from its distribution, states at the new times from the prior given these. The samples of sample_f of a batch of GP regressions are independent draws from the GP posteriors of the elements given their own data.

*Quantifier:* every batch shape and sample shape of any rank without empty axes, every number of data points and of new time points in any order, every state and output dimension, every kernel, all values of the draws, and all events of the joint law of the whole result

* `C65_trajectories` (BatchedSampling.lean) — `sample_state_trajectories(new_time_points, sample_shape)` for every batch shape and sample shape: the trajectory at every sample index and batch index is the trajectory that the process of that batch element makes from its own draws. The call raises exactly when one element does.
* `C65_sample_state` (BatchedSampling.lean) — `sample_state(new_time_points, sample_shape)` likewise.
* `C65_sample_f` (BatchedSampling.lean) — `sample_f(new_time_points, sample_shape)` likewise.
* `C65_trajectories_law` (BatchedSampling.lean) — with C24: when all draws are independent and standard normal, then jointly over the whole result of `sample_state_trajectories` the trajectories of different samples and of different batch elements are independent, and each has the predictive law of its batch element: states at the conditioning times from its distribution `q`, states at the new times from the prior given these.
* `C65_gpr_samples` (BatchedSampling.lean) — with C32: the samples of `sample_f` of a batch of regressions are, jointly over all sample and batch indices, independent draws from the GP posteriors of the elements given their own data.

## C66 Stacks of kernels on raw tensors with any batch shape

Build an IndependentMultiOutputStack from R kernels with any state dimensions and use it with times of shape batch_shape + [R, N]: state_space_model, predict_state, predict_f (with and without full_output_cov), sample_state_trajectories and sample_f give, at every batch element and kernel, what child r gives with its own times, distribution and mean function, and raise exactly when the call for one batch element raises. With independent standard normal draws the outputs of sample_f are, jointly over samples, batch elements and kernels, independent draws of the children's processes; sample_f returns exactly when no batch element has, for a child with a smaller state than the stack, a repeated new time or a new time equal to a conditioning time. Times whose last batch axis is not R are rejected. VariationalGaussianProcess and SparseVariationalGaussianProcess built on such a stack, with observations of shape batch_shape + [N, R], hold one model per batch element; their objective is the sum of the objectives of the elements, hence a lower bound of the summed log evidence with the summed KL divergences as the gap, and predict_f gives at every batch element the marginals of independent processes.

*Quantifier:* every batch shape of any rank without empty axes, every number of kernels and of data points, children of any state dimensions, every sample shape, every likelihood given by a log density and its exact variational expectations, all values

* `C66_constructor` (BatchedStack.lean) — `IndependentMultiOutputStack(kernels, jitter)`: the constructor raises on the same arguments as in the model of a single batch element, and otherwise the kernel object acts, for every batch shape, at kernel index `r` as child `r`, with its state padded to the common dimension.
* `C66_constants` (BatchedStack.lean) — the `feedback_matrix` and the `steady_state_covariance` of a stack: shapes `[R, D, D]` and `[R, 1, D, D]` for the largest state dimension `D` of the children; the leading block of entry `r` is the matrix of child `r`, the rest is the identity (also for the feedback matrix, whose documentation says zeros).
* `C66_rejects_other_batch_shapes` (BatchedStack.lean) — a stack of `R` kernels rejects times whose last batch axis is not `R`, or that have no batch axis: `generate_emission_model`, `initial_mean` and `state_space_model` raise.
* `C66_state_space_model` (BatchedStack.lean) — `state_space_model(time_points)` of a stack, with times of any batch shape `bs + [R]`.
* `C66_predict_state` (BatchedStack.lean) — `predict_state` of a posterior process over a stack.
* `C66_predict_f` (BatchedStack.lean) — `predict_f` of a posterior process over a stack, with and without `full_output_cov`: one vector of outputs for every batch element and time.
* `C66_predict_law` (BatchedStack.lean) — with C55: at times between the first and the last conditioning time of each child both forms of `predict_f` succeed, and at every batch element and time the predicted outputs are the marginals of independent processes, one per child, each following its own distribution at its own conditioning times and its own prior conditional in between.
* `C66_trajectories` (BatchedStack.lean) — `sample_state_trajectories(new_time_points, sample_shape)` over a stack: each kernel, batch element and sample from its own draws.
* `C66_sample_f` (BatchedStack.lean) — `sample_f(new_time_points, sample_shape)` over a stack.
* `C66_vgp_init` (BatchedStack.lean) — building `VariationalGaussianProcess` with a stack, from times of shape `bs + [R, N]` and observations of shape `bs + [N, R]`, with the default and with a given initial distribution.
* `C66_vgp` (BatchedStack.lean) — the posterior of a variational GP over a stack is the process of each batch element, and its objective is the sum of theirs.
* `C66_vgp_bound` (BatchedStack.lean) — with C55: the objective of a variational GP over a stack with batched data bounds the sum of the log evidences of the batch elements, with the summed Kullback–Leibler divergences as the gap; it is attained exactly when the process at every batch element is its posterior.
* `C66_svgp_init` (BatchedStack.lean) — building `SparseVariationalGaussianProcess` with a stack, from inducing inputs of shape `bs + [R, M]`.
* `C66_svgp` (BatchedStack.lean) — the posterior of a sparse variational GP over a stack is the process of each batch element, and its objective is the sum of theirs.
* `C66_svgp_bound` (BatchedStack.lean) — with C55: the objective of a sparse variational GP over a stack, on batched data between the inducing points of each kernel, bounds the sum of the log evidences of the batch elements, with the summed Kullback–Leibler divergences as the gap; equality exactly when the process at every batch element is its posterior.
* `C66_default_distribution` (BatchedStack.lean) — for a stack of noisy kernels with jitter zero and valid times, both constructors succeed without an initial distribution; it is then the prior, and the model satisfies the hypotheses of the bounds.
* `C66_sampling_returns_iff` (BatchedStackSampling.lean) — on tensors of any batch shape, `sample_f` over a stack returns exactly if at every batch element, for every child that has a smaller state than the stack, the new times are distinct and differ from the conditioning times of that child.
* `C66_samples_law` (BatchedStackSampling.lean) — with C55: when all draws are independent and standard normal, then jointly over the whole result of `sample_f` over a stack the samples, the batch elements and the kernels are independent, and each output follows the process of its child: its own `q` at its own conditioning times and the child's prior conditional in between.

## C67 Impulse and step mean functions with batches of actions

Build an ImpulseMeanFunction or StepMeanFunction from action times of shape batch_shape + [num_actions], perturbations of shape batch_shape + [num_actions, state_dim] and any kernel. Called with query times of the same batch shape, in any order, it returns at every batch element the values of the mean function of that element's own actions: for sorted actions the (projected) response of the state to the impulses strictly before the query, respectively the solution from rest of dx/dt = F x + u(t) with the piecewise constant input of that element; it raises exactly when the call raises for one of the elements, in particular when one element's action times are unsorted or, for steps, the feedback matrix is singular. Queries of a batch shape with another number of elements raise, and so do constructor calls whose action times and perturbations disagree. Used as the mean function of a batched GaussianProcessRegression, each element has its own response as prior mean. Over a stack of kernels the impulse mean function gives the impulse means of all children as columns.

*Quantifier:* every batch shape of any rank without empty axes, every number of actions and queries, every kernel expression (basic kernels, sums, products, multi-output, factor analysis, stacks), all values

* `C67_ignores_times` (BatchedMean.lean) — the transitions of every kernel that the constructors build depend on the time differences only (`ImpulseMeanFunction` passes one transition time too few): the basic kernels, `set_state_mean`, and the combinations of such kernels, stacks included.
* `C67_impulse` (BatchedMean.lean) — an impulse mean function with actions of any batch shape is, on query times of that batch shape, the impulse mean function of the actions of each element; it raises exactly when it raises for one of them.
* `C67_step` (BatchedMean.lean) — the same for step mean functions.
* `C67_unsorted` (BatchedMean.lean) — with C31: when the action times of one batch element are not sorted, every call raises.
* `C67_impulse_response` (BatchedMean.lean) — with C31: for a basic kernel and sorted action times the impulse mean function is, as a mean function of models over data of that batch shape, at batch element `b` the projected response to the impulses of that element.
* `C67_impulse_transitions` (BatchedMean.lean) — with C31: for every kernel expression, the superposition of the propagated perturbations.
* `C67_step_response` (BatchedMean.lean) — with C31: the step mean function is at batch element `b` the projected solution of `dx/dt = F x + u_b(t)`, started from rest.
* `C67_other_batch_raises` (BatchedMean.lean) — query times whose batch shape has another number of elements than that of the actions raise.
* `C67_shapes_raise` (BatchedMean.lean) — action times and perturbations of matching ranks whose batch shapes or numbers of actions differ are rejected by both constructors. (For other ranks the comparison of the shapes broadcasts, as in C42.)
* `C67_gpr_evidence` (BatchedMean.lean) — with C63 and C32: the log likelihood of a batched regression whose mean function is an impulse mean function is the sum over the batch of the dense Gaussian log densities with, for each element, the response to the impulses of that element as the prior mean.
* `C67_stack_impulse` (BatchedMean.lean) — over a stack the impulse mean function returns a tensor of shape `batch_shape + [num_data, num_kernels]`: for every batch element and time the impulse means of all the children, each with its own actions (and the leading entries of its perturbations).
* `C67_stack_step_raises` (BatchedMean.lean) — (a defect): the step mean function aligns the kernel axis of the feedback matrices of a stack with the axis of the actions. Over a stack of two or more kernels it therefore raises at every query unless the number of actions happens to be the number of kernels.
* `C67_stack_not_a_mean_function` (BatchedMean.lean) — (a defect): neither of the two can be the mean function of a model over a stack of two or more kernels: their values have one column per kernel, where a mean function must have one, and every prediction raises.
* `C67_stack_step_wrong` (BatchedMean.lean) — (a defect): with as many actions as kernels the step mean function over a stack uses the feedback matrix of kernel `q` for action `q` of every kernel. Two Matérn 1/2 kernels with lengthscales 1 and 2, for each of them unit actions at the times 0 and 1: at the time 1/2 the value for the second kernel is half of the value of the step mean function of that kernel.

## C68 Small enough natural gradient steps and CVI updates make progress

Take any loss of the distribution that is totally differentiable in the expectation parameters, at a dist_q where its gradient is not zero. Then there is a positive bound such that SSMNaturalGradient.minimize without momentum, with any positive rate below it, succeeds (dist_q stays a proper Gaussian) and strictly decreases the loss; where the gradient is zero no rate changes dist_q. The first call of a fresh optimiser with momentum also strictly decreases the loss for small rates, provided the number it uses as squared norm is not negative. In particular, for every likelihood with differentiable variational expectation: steps of small rate on a variational GP strictly increase elbo(), and update_sites() of a CVI model, and of a sparse CVI model on any minibatch, with small learning rate strictly increases classic_elbo() (of that minibatch), unless dist_q is a fixed point for every learning rate.

*Quantifier:* every loss that depends on the law only and is totally differentiable, every non-degenerate dist_q, every kernel expression with noise, grid, data set and minibatch, every differentiable likelihood, every site values for which dist_q exists, every rate below a bound that depends on the state

* `C68_step` (Descent.lean) — a natural gradient step with a small enough rate succeeds and strictly decreases the loss, for any loss that is a property of the distribution and has a gradient (in the strong sense) that is not zero; the optimiser's state does not change.
* `C68_stationary` (Descent.lean) — conversely, where the gradient is zero a step of any rate leaves the distribution, hence the loss, as it is.
* `C68_momentum_first` (Descent.lean) — the first call of a fresh optimiser with momentum. It goes in the same direction, so with a small enough rate it strictly decreases the loss, if the number used as the squared norm is not negative (which C39 shows it can be).
* `C68_total_gradient` (Descent.lean) — the strong sense of gradient implies the gradient as directional derivatives that C39 and C56 speak of, and there is only one.
* `C68_vgp` (Descent.lean) — natural gradient descent on a variational GP, any differentiable likelihood. With the gradient `g` of `loss()` in the expectation parameters of `dist_q`: either `g = 0`, or all steps with small enough rates succeed and strictly increase `elbo()`.
* `C68_cvi` (Descent.lean) — CVI, any differentiable likelihood. Either no learning rate moves `dist_q`, or every small enough rate makes `update_sites()` succeed and strictly increase `classic_elbo()`.
* `C68_sparse_cvi` (Descent.lean) — the sparse CVI model, any differentiable likelihood and any minibatch. Either no learning rate moves `dist_q`, or every small enough rate makes `update_sites((X, Y))` succeed and strictly increase `classic_elbo((X, Y))` of the same minibatch.

## C69 Natural gradients of the sparse variational GP: several outputs, mean function and minibatch scaling

The gradient of SparseVariationalGaussianProcess.loss((X, Y)) in the expectation parameters of dist_q is, for any number of outputs, any mean function and any num_data, the natural parameters of dist_q minus those of the prior times one Gaussian factor per datum and output on the pair of inducing states around the datum, raised to the power num_data / minibatch size. The minibatch gradients of any partition of the data, weighted by the minibatch sizes, average to the gradient of the full objective, whatever the likelihood; and if the natural gradient steps on all the minibatches succeed from the same dist_q, the step on the full data succeeds and its natural parameters are the average of theirs. Small enough steps strictly increase elbo((X, Y)) unless the gradient is zero. With a Gaussian likelihood there is a best distribution q*, elbo of any q is that of q* minus KL(q || q*), one step of rate 1 reaches q* from anywhere, and rates in [0, 1] approach it geometrically.

*Quantifier:* every kernel expression with noise, number of outputs, mean function, inducing grid, data set, num_data, partition into minibatches, non-degenerate dist_q, differentiable likelihood and rate

* `C69_gradient` (SVGPNatGrad.lean) — the gradient of the sparse variational GP's `loss((X, Y))` in the expectation parameters of `dist_q`, for any number of outputs, any mean function and any `num_data`: the natural parameters of `dist_q` minus those of the prior times, for every datum and output, a Gaussian factor on the pair of inducing states around it, raised to the power `num_data / minibatch size`.
* `C69_unbiased` (SVGPNatGrad.lean) — stochastic natural gradients are unbiased. For every partition of the data into minibatches, the minibatch gradients, averaged with weights proportional to the sizes, give the gradient of the full objective; no assumption on the likelihood is needed.
* `C69_average_step` (SVGPNatGrad.lean) — in terms of steps. From the same `dist_q`, if the natural gradient steps on all minibatches of a partition succeed (no momentum), then so does the step on the full data, and its natural parameters are the average of theirs, weighted by the sizes.
* `C69_progress` (SVGPNatGrad.lean) — natural gradient steps on the sparse variational GP make progress. With the gradient `g` of `loss((X, Y))`: either `g = 0`, or all steps with small enough rates succeed and strictly increase `elbo((X, Y))`.
* `C69_gaussian` (SVGPNatGrad.lean) — Gaussian likelihood. There is a best variational distribution `q*`: the objective of every `q` is that of `q*` minus `KL(q ‖ q*)`; and one natural gradient step of rate 1 reaches it from any `dist_q`; with rates in `[0, 1]` the natural parameters approach those of `q*` geometrically.

## C70 Natural gradients on batches of distributions

Call SSMNaturalGradient.minimize with a dist_q of any batch shape. Without momentum a call, and any sequence of calls, is one optimisation per batch element, and raises exactly when it raises for one of them. With momentum the moving averages of the gradients are kept per element but the squared norm is summed over the whole batch, so all elements move with one common effective rate; the call succeeds exactly when the norm average is not negative and all the new natural parameters are proper. If the loss of the batch is the sum of the losses of the elements, its gradient tensors hold the gradients of the elements. Hence, for a batched VariationalGaussianProcess and SparseVariationalGaussianProcess with differentiable likelihood, small enough steps strictly increase elbo() unless all gradients vanish; and with a Gaussian likelihood one step of rate 1 gives the exact posterior of every element, and elbo() becomes the sum of the log marginal likelihoods.

*Quantifier:* every batch shape, every batch of non-degenerate distributions, gradients, optimiser states and hyperparameters, every kernel expression, data and differentiable likelihood

* `C70_step` (BatchedNatGrad.lean) — without momentum, a call of `minimize` on a batch of distributions is one call per batch element.
* `C70_steps` (BatchedNatGrad.lean) — without momentum, any number of calls, where the gradient for an element depends on the distribution of that element: one optimisation per batch element.
* `C70_momentum_step` (BatchedNatGrad.lean) — with momentum the batch elements share one scale. The squared norm is summed over the whole batch; the moving averages and the natural parameters are updated per element, with the common rate; the call succeeds exactly when the norm average is not negative and the new natural parameters of every element are proper.
* `C70_gradient` (BatchedNatGrad.lean) — if the loss of a batch is the sum of the losses of the elements (as for the variational models, C64), then its gradient in the three tensors of expectation parameters holds exactly the gradients of the losses of the elements.
* `C70_vgp` (BatchedNatGrad.lean) — natural gradient steps on a batched variational GP make progress, for any differentiable likelihood: either the gradient of `loss()` vanishes for all elements, or small enough steps succeed and strictly increase `elbo()`.
* `C70_vgp_gaussian` (BatchedNatGrad.lean) — Gaussian likelihood: one natural gradient step of rate 1 turns a batched variational GP into the batch of the exact posteriors of the elements (each given its own data), and its `elbo()` into the sum of their log marginal likelihoods.
* `C70_svgp` (BatchedNatGrad.lean) — the same for the sparse variational GP on any minibatch, several outputs, mean function and `num_data` scaling included.

## C71 Refining the Euler–Maruyama grid converges to the kernel's exact model

Every kernel expression of the library (basic kernels, sums, products, multi-output and factor kernels; jitter zero) is a linear SDE dx = F x dt + L dB, with F its own feedback matrix for the basic kernels. Simulating that SDE with euler_maruyama on homogeneous grids whose step tends to zero, from a fixed or a Gaussian random start, and reading the values at any finite set of times, converges in law to the trajectory, from the same start, of the state space model that the kernel builds on these times; started from the kernel's initial distribution, the outputs converge in law to the Gaussian process with the textbook covariance function. In particular euler_maruyama of OrnsteinUhlenbeckSDE(decay, q), and linearize_sde of it, converge to the OrnsteinUhlenbeck(decay, q) kernel.

*Quantifier:* all kernel expressions, all drift and noise matrices representing them, all finite sets of times, all starts (fixed or Gaussian), all sequences of homogeneous grids with step tending to zero, all bounded continuous test functions

* `C71_kernel_sde` (Refinement.lean) — every kernel expression of the library is a linear SDE: there are a drift matrix `F` generating its transitions and a noise factor `L` keeping its stationary covariance stationary. For the basic kernels the drift is the kernel's own feedback matrix.
* `C71_random_start_law` (Refinement.lean) — `euler_maruyama` from a random start `m + C e`, with independent standard normal draws, is distributed as the chain that `LinearDrift.to_ssm` builds with that initial distribution.
* `C71_random_start` (Refinement.lean) — simulate a kernel's SDE with `euler_maruyama` from the random start `m + C e` on homogeneous grids whose step tends to zero, and read off the values at the times of interest. In law they converge to the trajectory, from the same start, of the state space model which the kernel builds on these times. Any kernel expression, any start.
* `C71_fixed_start` (Refinement.lean) — the same from a fixed start `x0`, with the draws that the routine consumes.
* `C71_gaussian_process` (Refinement.lean) — started from the kernel's initial distribution, the outputs converge in law to the Gaussian process with the textbook covariance function of the kernel expression.
* `C71_ornstein_uhlenbeck` (Refinement.lean) — simulating `OrnsteinUhlenbeckSDE(decay, q)` with `euler_maruyama` from any start, on ever finer grids, converges in law to the state space model of the `OrnsteinUhlenbeck(decay, q)` kernel from that start.
* `C71_linearize_ou` (Refinement.lean) — so does `linearize_sde` of that SDE on ever finer grids: the models it builds from the initial moments `(m₀, v₀)`, restricted to the times of interest, converge in law to the kernel's transitions from `N(m₀, v₀)`.

## C72 Training on minibatches: objectives are unbiased, CVI site updates are not rescaled

With num_data set to the number of data, elbo of SpatioTemporalSparseVariational and of SpatioTemporalSparseCVI on a minibatch averages to the full-data elbo: over every partition into minibatches (weighted by size), over all draws with replacement and over all shuffles. update_sites of SparseCVIGaussianProcess and SpatioTemporalSparseCVI on minibatches: over a partition the data contributions add up to those of the full update, but no minibatch is scaled up and num_data plays no part, so the average over random minibatches of p out of N data of the updated sites is (1-r) theta + (p/N) r G where the full update gives (1-r) theta + r G. With a Gaussian likelihood and learning rate in (0,1] any sequence of minibatch updates succeeds, and the average of the sites over all sequences of T random minibatches tends, as T grows, to p/N times the exact sites; a model with these sites has as dist_q the tempered posterior in which every datum counts p/N times.

*Quantifier:* all kernels, data sets, mean functions, likelihoods (Gaussian for the long-run statement), minibatch sizes, partitions, starting sites with negative semidefinite second parameters, all sequences of minibatches of any length

* `C72_cvi_average` (Minibatch.lean) — for any likelihood, the average over all minibatches of `p` data drawn with replacement of the updated sites is `(1 - r) θ + (p / N) r G`, where `(1 - r) θ + r G` are the sites after the update on all `N` data: the data terms are not scaled up by `N / p`.
* `C72_cvi_partition` (Minibatch.lean) — over a partition of the data into minibatches, the moves (beyond the shrinking by `1 - r`) of the updates on the minibatches, all started at the same sites, add up to that of the update on all data.
* `C72_cvi_gaussian_runs` (Minibatch.lean) — Gaussian likelihood, learning rate `r ∈ (0, 1]`, any starting sites with negative semidefinite second parameters (the constructor's zeros, or those after any history). Let `full` be the model after one update with rate one on all `N` data, whose `dist_q` is the optimal one (`C36_gaussian_optimal`). Every sequence of updates on minibatches succeeds, and the average of the sites over all sequences of `T` minibatches of `p` data drawn with replacement is `(1 - r)^T θ + (1 - (1 - r)^T) (p / N) full`, so it tends to `p / N` times the right sites.
* `C72_cvi_gaussian_tempered` (Minibatch.lean) — the model with a fraction `τ` of the sites of `full` has as `dist_q` the posterior in which every datum counts `τ` times: `q(u) ∝ p(u) ∏_i N(y_i; E[f(x_i) | u], σ²)^τ`. With `τ = p / N` this is where random minibatches lead on average: under-confident, unless `p = N`.
* `C72_st_objective` (Minibatch.lean) — `SpatioTemporalSparseVariational.elbo` with `num_data` set to the number of data is an unbiased estimate of the full objective, for every kernel, `q`, likelihood and data set on which it can be evaluated.
* `C72_st_cvi_objective` (Minibatch.lean) — the same for `SpatioTemporalSparseCVI.elbo`.
* `C72_st_cvi_average` (Minibatch.lean) — `C72_cvi_average` for `SpatioTemporalSparseCVI`.
* `C72_st_cvi_partition` (Minibatch.lean) — `C72_cvi_partition` for `SpatioTemporalSparseCVI`.
* `C72_st_cvi_gaussian_runs` (Minibatch.lean) — `C72_cvi_gaussian_runs` for `SpatioTemporalSparseCVI` (with any mean function).
* `C72_st_cvi_gaussian_tempered` (Minibatch.lean) — `C72_cvi_gaussian_tempered` for `SpatioTemporalSparseCVI` (with any mean function).
* `C72_num_data_ignored` (Minibatch.lean) — `num_data`, though "relevant when feeding in external minibatches", plays no part in `update_sites`: two models that differ only in it end up with the same sites (or raise the same exception).

## C73 Piecewise kernels: plain times work, batches of times do not

A PiecewiseKernel can be used with times of shape [n] only. (a) The constructor builds the kernel from a non-empty list of kernels with the same output and state dimension, and a non-negative jitter, and raises an assertion error otherwise. (b) For times (and time steps) without batch axes, split_time_indices, steady_state_covariances, feedback_matrices, state_means, state_transitions, state_offsets, generate_emission_model, transition_statistics, initial_covariance and state_space_model return, on tensors, the results of the mathematical model of C30, or raise the same exception. (c) For times with any batch axes, although the documentation promises batch_shape, steady_state_covariances, feedback_matrices, state_means, transition_statistics, initial_covariance and state_space_model raise, whatever the kernels, change points and times. (d) For times with a number of batch elements other than one, split_time_indices, state_transitions, state_offsets and generate_emission_model raise as well. (e) For batch axes of size one, state_transitions, state_offsets and generate_emission_model return the results of the unbatched times and drop the batch axes.

*Quantifier:* all lists of stationary kernels on tensors, all vectors of change points, all tensors of times and time steps of any rank and shape

* `C73_constructor` (BatchedPiecewise.lean) — **C73 (constructor).** For kernels of the same state dimension, the constructor builds the same object or raises the same exception.
* `C73_dimensions` (BatchedPiecewise.lean) — **C73 (different dimensions).** Kernels with different output or state dimensions are rejected.
* `C73_unbatched` (BatchedPiecewise.lean) — **C73 (times without batch axes).** Every method of a piecewise kernel agrees with the mathematical model, exceptions included.
* `C73_initial_covariance` (BatchedPiecewise.lean) — **C73 (initial covariance).**
* `C73_state_space_model` (BatchedPiecewise.lean) — **C73 (state space model).**
* `C73_batches_raise` (BatchedPiecewise.lean) — **C73 (batches raise).** For times with batch axes the stationary covariances, the feedback matrices, the state means, the transition statistics, the initial covariance and the state space model of a piecewise kernel raise: for every kernel, all change points, all times, and every batch shape except `[]`.
* `C73_many_raise` (BatchedPiecewise.lean) — **C73 (several batch elements raise).** For two or more batch elements, the remaining methods raise as well.
* `C73_single_batch` (BatchedPiecewise.lean) — **C73 (batch axes of size one are lost).** For times of shape `[1, …, 1, n]` the transitions, the offsets and the emission matrices are computed, but their shapes are `[n, d, d]`, `[n, d]` and `[n, o, d]`, without the batch axes.

## C74 Variational and CVI models over a piecewise kernel

With a PiecewiseKernel, predicting at the conditioning times returns the marginals of the variational distribution. VariationalGaussianProcess.elbo() satisfies log p(y) = elbo + KL(q || posterior), p(y) being the evidence under the Gaussian process with the covariance function of the piecewise process; with a Gaussian likelihood this is GaussianProcessRegression's log likelihood for the same kernel. CVIGaussianProcess.dist_q is the piecewise prior times the sites (or it raises), posterior_kalman has the same law, update_sites() moves each site towards the gradient at the marginal of dist_q, classic_elbo() is log p(y) - KL, and with a Gaussian likelihood k updates give (1-r)^k initial + (1-(1-r)^k) exact, reaching the exact posterior in one step for r = 1.

*Quantifier:* every piecewise kernel over kernel expressions with noise, any number of change points and data, every strictly increasing data times with no change point strictly inside a transition, every non-degenerate q, every likelihood with exact variational expectations, every site values, learning rate and number of updates

* `C74_training_marginals` (PiecewiseVariational.lean) — at the conditioning times themselves, `predict_state` returns the marginals of `q`, and `predict_f` their images under the emissions plus the mean function, whatever the piecewise prior.
* `C74_vgp_elbo` (PiecewiseVariational.lean) — `log p(y) = elbo() + KL(q ‖ posterior)` for every `q`, data set and likelihood with exact variational expectations, whenever the posterior exists, `p(y)` being the evidence of the Gaussian process model with the covariance function of the piecewise process. Hence `elbo()` is a lower bound, with equality exactly when `q` is the posterior.
* `C74_vgp_gaussian` (PiecewiseVariational.lean) — for a Gaussian likelihood of variance `σ2`: with `L` the log marginal likelihood and `c` the posterior computed by `GaussianProcessRegression` with the same piecewise kernel, `L = elbo() + KL(q ‖ c)`; `elbo() ≤ L`, with equality exactly when `q` and the exact posterior have the same law.
* `C74_vgp_init` (PiecewiseVariational.lean) — the constructor: without an initial distribution `q` starts at the piecewise prior, and `elbo()` is then the prior expectation of the log likelihood; with one, `q` starts there. A missing mean function is zero.
* `C74_cvi_dist_q` (PiecewiseVariational.lean) — `dist_q` is the piecewise prior times the sites whenever it can be built; it can be built for all sites with `nat2 ≤ 0`. Otherwise it raises.
* `C74_cvi_kalman` (PiecewiseVariational.lean) — for sites with `nat2 < 0`, `dist_q` and the Kalman filter of `posterior_kalman` have the same law, and `elbo()` is the log evidence of the model whose likelihood is replaced by the sites.
* `C74_cvi_update` (PiecewiseVariational.lean) — one `update_sites()`: every site moves from `θ` to `(1 - r) θ + r g`, where `g` is taken at the marginal mean and variance of `f_t` under `dist_q`; nothing else changes. The mean function plays no role.
* `C74_cvi_classic_elbo` (PiecewiseVariational.lean) — `classic_elbo()` is `log p(y) - KL(dist_q ‖ posterior)` (zero mean function), for every state of the sites that has a `dist_q`.
* `C74_cvi_k_steps` (PiecewiseVariational.lean) — after `j` calls of `update_sites()` with learning rate `r` and a Gaussian likelihood of variance `σ2`, every site is `(1-r)^j · initial + (1 - (1-r)^j) · exact`, the exact site being `(y/σ2, -1/(2σ2))`.
* `C74_cvi_updates_succeed` (PiecewiseVariational.lean) — with `0 ≤ r ≤ 1` and a Gaussian likelihood, starting from sites with `nat2 ≤ 0` (the constructor's have), all updates succeed.
* `C74_cvi_exact_sites` (PiecewiseVariational.lean) — at the exact sites, `dist_q`, `elbo()` and `classic_elbo()` are the posterior and the log marginal likelihood of `GaussianProcessRegression` with the same piecewise kernel (mean function zero).
* `C74_cvi_one_step` (PiecewiseVariational.lean) — with learning rate 1 a single update (or any positive number of them), from any sites with `nat2 ≤ 0`, reaches the exact posterior under the piecewise prior, and `elbo()` is then the log marginal likelihood.
* `C74_cvi_init` (PiecewiseVariational.lean) — the constructor's sites and its default mean function; the mean function is never used.

## C75 With a log-concave likelihood the variational updates never break down

Suppose the likelihood's log density log p(y | f) is concave in f (Gaussian, Poisson, ...) and its variational expectation is the Gaussian integral it stands for. Then: (1) the variational expectation does not increase with the variance, so the second natural gradient of every datum is never positive; (2) CVIGaussianProcess.update_sites with a learning rate r in [0, 1], from any sites whose second parameters are not positive (in particular from a newly built model), succeeds any number of times; dist_q exists after every call, and after N calls the precision of a site is at least (1 - r)^N times the initial one; for a new model and r < 1, posterior_kalman, elbo(), loss() and classic_elbo() return after any number of calls; the same holds over a piecewise kernel; (3) SparseCVIGaussianProcess.update_sites on any history of minibatches, and SpatioTemporalSparseCVI.update_sites on any history of minibatches of any sizes at times between the first and the last inducing time, succeed and dist_q exists after every call; (4) natural gradient steps without momentum, of any rate in [0, 1], on the loss of the variational GP and of the sparse variational GP (any history of minibatches, any num_data, any number of outputs, any mean function) never raise, from any non-degenerate dist_q.

*Quantifier:* all log-concave likelihoods with exact variational expectations, all admissible kernels, data, minibatch histories, learning rates in [0, 1], starting points and numbers of steps

* `C75_gradient` (LogConcave.lean) — for a likelihood `f ↦ log p(y | f)` that is concave, `∫ log p(y | f) N(f; m, v) df` does not increase with `v`, so the second component of the gradient that CVI follows is never positive: every update direction is a Gaussian site of nonnegative precision.
* `C75_cvi` (LogConcave.lean) — any number of `update_sites()` with a learning rate in `[0, 1]`, from any sites with `nat2 ≤ 0`, succeed; the distribution `dist_q` exists after each, and the precision of a site never falls below `(1 - r)^N` times what it was.
* `C75_cvi_init` (LogConcave.lean) — a newly built CVI model: with a learning rate in `[0, 1)`, after any number of updates `dist_q`, `posterior_kalman`, `elbo()`, `loss()` and `classic_elbo()` all return.
* `C75_piecewise_cvi` (LogConcave.lean) — the same over a piecewise kernel.
* `C75_sparse_cvi` (LogConcave.lean) — sparse CVI on any history of minibatches: every `update_sites` with a learning rate in `[0, 1]` succeeds, `dist_q` always exists, and the sites stay bounded above.
* `C75_spatio_temporal` (LogConcave.lean) — the spatio-temporal sparse CVI model, on any history of minibatches of any sizes, at times between the first and the last inducing time; although its predicted variances are wrong in general (C43), they are nonnegative.
* `C75_natgrad` (LogConcave.lean) — natural gradient steps (without momentum) of any rate in `[0, 1]` on the `loss()` of a variational GP, with any number of outputs and any mean function, never fail, from any `dist_q`.
* `C75_svgp_natgrad` (LogConcave.lean) — the same for the sparse variational GP on any history of minibatches of any sizes.

## C76 With a strictly log-concave likelihood power EP never breaks down

Suppose the likelihood is PEPGaussian, or PEPScalarLikelihood with the exact predict_log_density of a likelihood whose log density log p(y | f) is, at the observations, strictly concave in f and bounded above (Poisson at counts, ...). Then: (1) at every cavity of positive variance the second derivative of the log normaliser is negative, so the division in the moment matching step is by a nonzero number, and the new site has positive precision; (2) PowerExpectationPropagation with a power in (0, 1] and a learning rate in [0, 1], over a kernel with positive variance at the data times, from any sites whose second parameters are not positive: every call of any schedule of update_sites (any indices, none twice in one call, or none at all) succeeds; afterwards dist_q, the cavities (with positive variances) and energy() exist, and no site with positive precision has lost it; from a newly built model posterior_kalman and elbo() exist too after any schedule; (3) SparsePowerExpectationPropagation with a power and a learning rate in [0, 1], on any history of batches of any sizes between the first and the last inducing time: every update_sites succeeds, dist_q exists after it, and so do the cavities and energy of every further batch.

*Quantifier:* all such likelihoods, admissible kernels, data, powers and learning rates, starting sites, schedules of indices and histories of batches

* `C76_site` (LogConcavePEP.lean) — whatever the cavity, the second derivative of the log normaliser is negative (so the division in the moment matching step is one by a nonzero number), and the site has positive precision.
* `C76_pep` (LogConcavePEP.lean) — from sites with `nat2 ≤ 0`, for any power in `(0, 1]`, any learning rate in `[0, 1]` and any schedule (each call is given any indices, none of them twice), every `update_sites` succeeds; afterwards `dist_q`, the cavities and `energy()` exist, the cavities have positive variances, no site has a negative precision, and no site that had a positive precision has lost it.
* `C76_pep_init` (LogConcavePEP.lean) — a newly built model: after any schedule `posterior_kalman` and `elbo()` exist too.
* `C76_sparse_pep` (LogConcavePEP.lean) — sparse power EP, on any history of batches of any sizes between the first and the last inducing time: every `update_sites` succeeds, `dist_q` exists after it, and so do, for every further batch, the cavities and `energy`.

## C77 With a log-concave likelihood the variational objective has exactly one optimum, and it is the fixed point of update_sites

Suppose the likelihood's log density log p(y | f) is concave in f (Gaussian, Poisson, Bernoulli, ...), its variational expectation is the exact average under N(m, v) and differentiable, and every row of the emission matrix at the data is nonzero. Then: (1) among all non-degenerate Gaussian Markov distributions there is one whose elbo() (variational GP, any number of outputs and any mean function; sparse variational GP, any minibatch and num_data, data anywhere) is at least that of every other, and every other distribution whose bound is equal is the same law; (2) the gradient of loss() in the expectation parameters of dist_q is zero exactly at that distribution: there are no other stationary points, saddle points or local optima; (3) for CVI and sparse CVI with a nonzero learning rate, update_sites() leaves dist_q unchanged exactly when classic_elbo() is this largest bound; sites with this property exist, and all sites with this property have the same dist_q.

*Quantifier:* all log-concave likelihoods with exact differentiable variational expectations, admissible kernels, data, minibatches, mean functions, current distributions and sites

* `C77_vgp` (GlobalOptimum.lean) — variational GP: with a log-concave likelihood the gradient of `loss()` in the expectation parameters of `dist_q` vanishes exactly when no other (non-degenerate) Gaussian Markov distribution has a larger `elbo()`, and then every distribution with an equal bound has the same law.
* `C77_svgp` (GlobalOptimum.lean) — sparse variational GP: the same for `elbo((X, Y))` as a function of the distribution of the inducing states, for every minibatch.
* `C77_cvi` (GlobalOptimum.lean) — CVI: with a log-concave likelihood, `update_sites()` leaves `dist_q` unchanged exactly when `classic_elbo()` is the largest bound that any Gaussian Markov distribution attains on the data.
* `C77_sparse_cvi` (GlobalOptimum.lean) — sparse CVI: the same for `classic_elbo((X, Y))`, among all distributions of the inducing states.
* `C77_vgp_exists` (GlobalOptimum.lean) — variational GP: there is exactly one best distribution. Some non-degenerate Gaussian Markov distribution has an `elbo()` at least that of every other, strictly larger unless the laws agree.
* `C77_svgp_exists` (GlobalOptimum.lean) — sparse variational GP: there is exactly one best distribution of the inducing states, for every minibatch.
* `C77_cvi_exists` (GlobalOptimum.lean) — CVI: the optimum is reached by sites, and the fixed points of `update_sites()` all have its distribution. For every data set there are sites whose `dist_q` is left unchanged by `update_sites()` and attains the largest bound of all Gaussian Markov distributions; whenever, with any other sites, `update_sites()` leaves `dist_q` unchanged, that `dist_q` is the same distribution.
* `C77_sparse_cvi_exists` (GlobalOptimum.lean) — sparse CVI: the same for the sites on the pairs of inducing states, for any data (symmetric `nat2`, as every update produces).

## C78 The optimal Markov approximation loses nothing: it is the optimal Gaussian approximation of the Gaussian process, whatever the state-space representation

Suppose the likelihood is log-concave with exact differentiable variational expectations and the Gram matrix of the kernel's covariance function at the (distinct, sorted) data times is positive definite. When dist_q has the largest elbo() among Gaussian Markov distributions (C77), then: (1) elbo() is the textbook lower bound of the law of the function values at the data, and no Gaussian law of these values, with any mean and any positive definite covariance matrix, Markov or not, has a larger bound, and only the same law has an equal one; such an optimum exists; (2) predict_f within the range of the data is the Gaussian process prior conditioned on that law: m(t) + k(t,X) k(X,X)^-1 (mu - m(X)) with covariance k(t,t) - k(t,X) k(X,X)^-1 k(X,t) + k(t,X) k(X,X)^-1 S k(X,X)^-1 k(X,t); (3) so two kernels with the same covariance function, of whatever composition and state dimension, give the same optimal elbo() and the same predictions; (4) a CVI model at a fixed point of update_sites() has these properties; (5) a sparse variational GP on inducing points that span the data never has a larger elbo on the full data, and if equal, the same law of the function values.

*Quantifier:* all log-concave likelihoods with exact differentiable variational expectations, admissible kernels with positive definite Gram matrix at the data, data sets, mean functions, competing Gaussian laws, inducing points, query times within the range of the data

* `C78_vgp` (FullGaussian.lean) — variational GP: let `dist_q` have the largest `elbo()` among all Gaussian Markov distributions. Then `elbo()` is the textbook lower bound of the law of the latent function values at the data under `dist_q`, and no Gaussian law of these values - with any mean and any positive definite covariance matrix, Markov or not - has a larger one; a Gaussian law with an equal bound is the same law.
* `C78_predict` (FullGaussian.lean) — predictions: at the optimum, the predictions of the posterior process at times within the range of the data are those of the Gaussian process prior conditioned on the law of the function values at the data: the state-space model leaves no trace in them.
* `C78_exists` (FullGaussianUse.lean) — existence: the largest lower bound over all Gaussian laws of the function values at the data exists, and it is the `elbo()` of a Gaussian Markov distribution.
* `C78_cvi` (FullGaussianUse.lean) — conjugate-computation variational inference: at every fixed point of `update_sites()`, `classic_elbo()` is the largest lower bound over all Gaussian laws of the function values at the data, attained by the law of the function values under `dist_q` only; and the predictions of the posterior process within the range of the data are those of the Gaussian process prior conditioned on that law. (The mean function passed to the model is not used, see C34.)
* `C78_same_covariance` (FullGaussianUse.lean) — the state-space representation does not matter: two variational GPs on the same data with the same likelihood and mean function, whose kernels have the same covariance function - of whatever composition and state dimension - reach the same largest `elbo()`, give the function values at the data the same law, and predict the same within the range of the data.
* `C78_inducing` (FullGaussianUse.lean) — inducing points: no sparse variational distribution on inducing points whose range covers the data, over any kernel with the same covariance function, has a larger `elbo` on the full data than the best variational GP; if it is as large, the function values at the data have the same law.

## C79 Hyperparameter gradients at the variational optimum: the optimal bound is differentiable, with the gradient of the objective at fixed dist_q or fixed sites

Let kernel hyperparameters and mean function move along a curve on which covariance function and mean are differentiable, let G be the (positive definite) Gram matrix at the data, G' its derivative, N(m,S) the law of the function values at the data under the optimal dist_q, b the prior mean and alpha = G^-1 (m - b). (1) With a log-concave likelihood with exact differentiable variational expectations, the largest elbo() of a variational GP exists along the curve and is differentiable, with derivative 1/2 alpha' G' alpha - 1/2 tr((G^-1 - G^-1 S G^-1) G') + alpha' b': the motion of the optimal dist_q does not contribute. (2) elbo() with the optimal dist_q held fixed, which is what an optimiser differentiates, has the same derivative. (3) For CVI and any differentiable likelihood, where update_sites() leaves the sites unchanged, elbo() and classic_elbo() with the sites held fixed, which are different functions of the hyperparameters, have the same derivative, 1/2 alpha' G' alpha - 1/2 tr((G^-1 - G^-1 S G^-1) G'); with a log-concave likelihood this is the derivative of the best bound that any Gaussian Markov distribution attains.

*Quantifier:* all differentiable curves of kernel hyperparameters and mean functions, admissible kernels with positive definite Gram matrix, (log-concave) likelihoods, data sets, optimal distributions and fixed points of update_sites()

* `C79_best` (Envelope.lean) — the best bound: let kernel hyperparameters and mean function of a variational GP with a log-concave likelihood vary along a differentiable curve, and let `best` be the largest `elbo()` over all Gaussian Markov distributions. Then `best` is differentiable, and its derivative is `½ αᵀ G' α - ½ tr((G⁻¹ - G⁻¹ S G⁻¹) G') + αᵀ b'` with `N(m, S)` the law of the function values at the data under the best `dist_q`, `G` the prior covariance of these values, `b` their prior mean, `G'` and `b'` the derivatives and `α = G⁻¹ (m - b)`: the change of the best distribution does not contribute.
* `C79_cvi` (Envelope.lean) — conjugate-computation variational inference, for any likelihood: let `update_sites()` leave the sites unchanged, and let the kernel hyperparameters vary while the sites are held fixed. Then `elbo()` and `classic_elbo()`, which are different functions, have the same derivative, `½ αᵀ G' α - ½ tr((G⁻¹ - G⁻¹ S G⁻¹) G')` with `N(m, S)` the law of the function values at the data under `dist_q`, `G` their prior covariance, `G'` its derivative and `α = G⁻¹ m`.
* `C79_exists` (EnvelopeUse.lean) — the largest `elbo()` exists along the curve and is differentiable.
* `C79_fixed_q` (EnvelopeUse.lean) — the distribution held fixed: if emission matrices and state covariances are differentiable in the hyperparameters, then `elbo()` with the best `dist_q` held fixed (what automatic differentiation of the objective in the hyperparameters sees) and the largest `elbo()` have the same derivative.
* `C79_cvi_best` (EnvelopeUse.lean) — conjugate-computation variational inference with a log-concave likelihood: at a fixed point of `update_sites()`, `elbo()` and `classic_elbo()` with the sites held fixed have the derivative of the best bound that any Gaussian Markov distribution attains (whose sites would move with the hyperparameters).

## C80 Training by site updates depends on the data and the covariance function only

Take two CVI models, or two power EP models, of the same data with kernels of the same covariance function up to a change of the time variable: the second model may have shifted times, reversed times (data in the opposite order), times in another unit with the kernel's parameters converted, or another kernel object with another state dimension but the same covariance function. Started from the same sites they go through the same training history for every likelihood, learning rate, power and number of calls of update_sites() (for power EP any schedule of index lists, following the order of the data): either a call raises on both, or on neither and the sites (and recorded normalisers) are the same; then classic_elbo() (power EP: energy()) is the same or raises on both, elbo() is the same whenever the sites' nat2 are negative, and posterior.predict_f at corresponding times within the range of the data is the same, or the posterior cannot be built in either.

*Quantifier:* all pairs of models of the same problem (any change of time variable preserving the covariance function, any admissible kernels with positive definite Gram matrix at the data), all likelihoods, data, initial sites, learning rates, powers, numbers of updates, schedules of indices and prediction times

* `C80_update` (HistoryInvariance.lean) — one call of `update_sites()` on two models of the same problem raises on both or on none, and the new sites are the same.
* `C80_history` (HistoryInvariance.lean) — the same for any number of calls: the training histories are the same.
* `C80_results` (HistoryInvariance.lean) — what is computed from the sites is the same: `classic_elbo()`; `elbo()`; and `predict_f` of the posterior process within the range of the data.
* `C80_training` (HistoryInvarianceUse.lean) — two models of the same problem have the same training history, for any likelihood.
* `C80_translation` (HistoryInvarianceUse.lean) — the origin of time is irrelevant for training.
* `C80_reversal` (HistoryInvarianceUse.lean) — the direction of time is irrelevant for training.
* `C80_units` (HistoryInvarianceUse.lean) — the unit of time is irrelevant for training, if the kernel's own parameters are converted.
* `C80_same_covariance` (HistoryInvarianceUse.lean) — the expression of the covariance function is irrelevant for training: the kernel may be replaced by any other with the same covariance function, with another state dimension.
* `C80_pep_update` (PEPInvariance.lean) — one call of power EP's `update_sites(indices)` on two models of the same problem - the indices following the order of the data - raises on both or on none, and the new sites and normalisers are the same.
* `C80_pep_history` (PEPInvariance.lean) — the same for any schedule of calls.
* `C80_pep_energy` (PEPInvariance.lean) — `energy()` is the same, or raises on both.
* `C80_pep_training` (PEPInvariance.lean) — two power EP models of the same problem have the same training history, for any likelihood, power, learning rate and schedule.
* `C80_pep_translation` (PEPInvariance.lean) — the origin of time is irrelevant for power EP.
* `C80_pep_reversal` (PEPInvariance.lean) — the direction of time is irrelevant for power EP.
* `C80_pep_units` (PEPInvariance.lean) — the unit of time is irrelevant for power EP, if the kernel's own parameters are converted.
* `C80_pep_same_covariance` (PEPInvariance.lean) — the expression of the covariance function is irrelevant for power EP.

## C81 With a log-concave likelihood and a small learning rate, CVI training converges to the optimum

For a likelihood whose log density is concave and whose variational expectations are exact and twice continuously differentiable, and a kernel with positive definite covariance at the data times, there are sites (one and the same for every starting point and learning rate) that update_sites() leaves as they are and whose classic_elbo() is the largest bound of all Gaussian Markov distributions. From any sites with nat2 <= 0, in particular those of a newly built model, there is a positive learning rate such that with that or any smaller constant learning rate every call of update_sites() returns, classic_elbo() never decreases from one call to the next, and as the number of calls grows the site parameters converge to those sites, classic_elbo() to the optimal bound, and posterior.predict_f (means and covariances, at all times within the range of the data) to the predictions with those sites.

*Quantifier:* all data sets and time points, all admissible kernels with positive definite Gram matrix, all log-concave smooth likelihoods, all starting sites with nat2 <= 0, all small enough constant learning rates, all numbers of updates, all prediction times within the range of the data

* `C81_converges` (SiteConvergence.lean) — with a log-concave, smooth likelihood, CVI training converges to the optimum. There are sites which `update_sites()` leaves as they are, whatever the learning rate, and whose bound is the largest of all Gaussian Markov distributions. From any sites with `nat2 ≤ 0` there is a positive learning rate such that, with that or any smaller constant learning rate, every call of `update_sites()` returns, `classic_elbo()` never decreases, and the site parameters and `classic_elbo()` converge to those of these sites.
* `C81_predictions` (SiteConvergence.lean) — and so do the predictions: if the site parameters converge (with `nat2 ≤ 0`), so do the means and covariances of `predict_f` at every time within the range of the data.
* `C81_training` (SiteConvergence.lean) — the model as the constructor builds it. For all small enough learning rates, training it any number of times returns, and the bound and all predictions within the range of the data converge; the bound to the largest of all Gaussian Markov distributions, the predictions to the same values whatever the learning rate.

## C82 With a log-concave likelihood and a small rate, natural gradient training converges to the optimum

For a likelihood whose log density is concave and whose variational expectations are exact and twice continuously differentiable, the variational GP (any number of outputs, any mean function) and, on a fixed batch of data, the sparse variational GP (any num_data scaling) have exactly one best Gaussian Markov distribution, and for every non-degenerate initial dist_q there is a positive rate such that SSMNaturalGradient (without momentum) with that or any smaller gamma never fails, elbo never decreases from one step to the next, and as the number of steps grows elbo converges to the best value, and the natural parameters and the marginals of dist_q and posterior.predict_f (means and covariances, at any times) converge to those of the best distribution. The same holds for update_sites((X, Y)) and classic_elbo((X, Y)) of the sparse CVI model with a small enough constant learning rate, from any sites whose dist_q exists.

*Quantifier:* all data sets and (inducing) time points, all admissible kernels, output dimensions and mean functions, all log-concave smooth likelihoods, all non-degenerate initial distributions, all small enough rates, all numbers of steps, all prediction times

* `C82_vgp` (NatGradConvergence.lean) — variational GP: with a log-concave, smooth likelihood, natural gradient training (without momentum) converges to the optimum. There is a best Gaussian Markov distribution (no other has an `elbo()` as large), and for every initial `dist_q` there is a positive rate such that with that or any smaller `gamma` every step succeeds, `elbo()` never decreases and converges to the best value, and the natural parameters, the marginals, and all predictions `predict_f` converge to those of the best distribution.
* `C82_svgp` (NatGradConvergence.lean) — sparse variational GP: the same for training on a fixed batch of data, as a function of the distribution of the inducing states.
* `C82_sparse_cvi` (NatGradConvergence.lean) — sparse CVI: `update_sites((X, Y))` on a fixed batch, from any sites whose `dist_q` exists, with any small enough constant learning rate: all calls succeed, `classic_elbo((X, Y))` never decreases and converges to the largest bound that any distribution of the inducing states attains, and the predictions converge to those of the best distribution.

## C83 Training over a piecewise kernel: natural gradients, CVI updates, the optimum and convergence

Let the kernel be a PiecewiseKernel and let no change point lie strictly between two neighbouring data times. (1) The gradient of the variational GP's loss() in the expectation parameters of dist_q is the difference of the natural parameters of dist_q and those of the piecewise prior with one Gaussian site per output. (2) update_sites() of the CVI model with learning rate r does to dist_q exactly what one SSMNaturalGradient step with gamma r does on the variational GP over the same kernel, for any number of steps, or both fail; classic_elbo() is that model's elbo(). (3) With a log-concave likelihood with exact variational expectations, update_sites() leaves dist_q unchanged exactly when classic_elbo() is the largest bound of all Gaussian Markov distributions, and only one distribution attains it; it exists if the variational expectations are twice continuously differentiable. (4) Then from any non-degenerate dist_q (CVI: any sites whose dist_q exists) and with a small enough gamma or learning rate no step fails, the bound never decreases and converges to the largest bound, and dist_q and predict_f at sorted times within the range of the data converge to those of the best distribution. (5) The same gradient formula (one Gaussian factor per datum and output on the pair of inducing states around it, scaled by num_data over batch size), uniqueness of the optimum and convergence hold for the sparse variational GP over a piecewise kernel, trained on a fixed batch at sorted times within the range of the inducing points.

*Quantifier:* all piecewise kernels over the kernels of the library, change points, data, numbers of outputs and mean functions (variational GP), likelihoods as stated, initial distributions or sites, small enough rates, numbers of steps, prediction times

* `C83_svgp_gradient` (PiecewiseSparseTraining.lean) — the gradient of the `loss((X, Y))` of the sparse variational GP over a piecewise kernel, data at sorted times within the range of the inducing points: the natural parameters of `dist_q` minus those of the prior times, for every datum and output, a Gaussian factor on the pair of inducing states around it, raised to the power `num_data / minibatch size`.
* `C83_svgp_converges` (PiecewiseSparseTraining.lean) — the sparse variational GP over a piecewise kernel, trained by natural gradients on a fixed batch. With a log-concave, smooth likelihood there is one best distribution of the inducing states, and for every initial `dist_q` there is a positive rate such that with that or any smaller `gamma` every step succeeds, `elbo((X, Y))` never decreases and converges to the best value, and the natural parameters, the marginals and all predictions `predict_f` (at sorted times within the range of the inducing points) converge to those of the best distribution.
* `C83_svgp_stationary` (PiecewiseSparseTraining.lean) — with a log-concave likelihood the gradient of `loss((X, Y))` vanishes exactly at the best distribution of the inducing states.
* `C83_gradient` (PiecewiseTraining.lean) — the gradient of `loss()` with respect to the expectation parameters of `dist_q`: the natural parameters of `dist_q` minus those of the piecewise prior with one Gaussian site per output, built from the derivatives of the variational expectations.
* `C83_vgp_converges` (PiecewiseTraining.lean) — natural gradient training over a piecewise kernel converges to the optimum. With a log-concave, smooth likelihood there is one best Gaussian Markov distribution, and for every initial `dist_q` there is a positive rate such that with that or any smaller `gamma` every step succeeds, `elbo()` never decreases and converges to the best value, and the natural parameters, the marginals and all predictions `predict_f` (at sorted times within the range of the data) converge to those of the best distribution.
* `C83_vgp_stationary` (PiecewiseTraining.lean) — with a log-concave likelihood the gradient of `loss()` vanishes exactly at the best distribution.
* `C83_same_bound` (PiecewiseTraining.lean) — the bound that `classic_elbo()` returns is the `elbo()` of the variational GP at `dist_q`.
* `C83_step` (PiecewiseTraining.lean) — one `update_sites()` with learning rate `r` does to `dist_q` what one natural gradient step of rate `r` on the `loss()` of the variational GP over the same piecewise kernel does: the results are the same distribution, parameter by parameter, or both fail (in the same way).
* `C83_steps` (PiecewiseTraining.lean) — any number of steps. Starting at `dist_q`, `N` natural gradient steps on the `loss()` of the variational GP give `dist_q` after `N` calls of `update_sites()`, or both fail.
* `C83_cvi_converges` (PiecewiseTraining.lean) — CVI training over a piecewise kernel converges to the optimum. With a log-concave, smooth likelihood, from any sites whose `dist_q` exists there is a positive learning rate such that with that or any smaller constant learning rate every call of `update_sites()` returns, `classic_elbo()` never decreases and converges to the largest bound of all Gaussian Markov distributions, and `dist_q` and the predictions converge to those of the best distribution, which is unique.
* `C83_fixed_point` (PiecewiseTraining.lean) — the fixed points of `update_sites()` are the stationary points of the bound: the update leaves the law of `dist_q` as it is if and only if the gradient of the variational GP's `loss()` vanishes there.
* `C83_cvi_optimum` (PiecewiseTraining.lean) — with a log-concave likelihood, `update_sites()` leaves `dist_q` as it is exactly when `classic_elbo()` is the largest bound that any Gaussian Markov distribution attains over the piecewise kernel; then no other distribution attains it.

## C84 Natural gradients of the sparse variational GP on random minibatches: training never fails, is unbiased, and converges under decaying rates

Train the sparse variational GP with a Gaussian likelihood, num_data = N and SSMNaturalGradient without momentum on minibatches of p >= 1 of the N data drawn independently and uniformly with replacement, step t with a rate gamma_t in [0, 1]. (1) On every sequence of minibatches, from every dist_q, no call of minimize fails. (2) The expected natural parameters of dist_q after T steps are those of training on the full data: they are the optimum's plus prod(1 - gamma_t) times the initial difference. (3) For every linear function of the natural parameters the expected squared distance to the optimum of the full objective is multiplied by (1 - gamma_t)^2 in each step and increased by gamma_t^2 / p times the mean squared distance of the optima of single data. (4) So with rates that tend to zero and have a divergent sum, the natural parameters converge to the optimum in mean square, and the full-data elbo converges to its largest value in expectation and in probability, and so do the means and variances of predict_f at all times in mean. (5) With a constant rate gamma the expectation converges but the scatter does not vanish: it tends to gamma / (2 - gamma) times the scatter of the minibatch optima. (6) With gamma_t = 1 / (t + 1) the expectation is exact after one step, and after T steps the scatter is that of single data divided by T p. (7) With these rates, after any given sequence of minibatches in which every datum occurs equally often, for instance one epoch in any order, dist_q is exactly the optimum of the full objective. (8) Cycling through fixed minibatches with a constant rate gamma converges geometrically, epoch by epoch, to the average of the minibatch optima with weights proportional to (1 - gamma)^(number of minibatches that follow in the epoch), so the later minibatches count more.

*Quantifier:* all kernels, inducing points, mean functions, data, initial distributions, noise variances, minibatch sizes, rate sequences, numbers of steps and, for (1), all sequences of minibatches; expectations are over all sequences

* `C84_runs` (StochasticNatGrad.lean) — training never fails. For a Gaussian likelihood, from any `dist_q`, on any sequence of minibatches of any size, with any rates in `[0, 1]`, every call of `minimize` succeeds.
* `C84_mean` (StochasticNatGrad.lean) — the average over all sequences of minibatches. The expected natural parameters after `T` steps are those of training on the full data: they move from the start to the optimum by the factor `Π (1 - γ t)`.
* `C84_scatter` (StochasticNatGrad.lean) — the scatter. For every linear function `φ` of the natural parameters (for instance one of their entries), the expected squared distance to the optimum follows an exact recursion: each step contracts it by `(1 - γ)²` and adds `γ² / p` times the scatter of the optima of single data.
* `C84_converges` (StochasticNatGrad.lean) — convergence. With rates in `[0, 1]` that tend to zero and have a divergent sum, the natural parameters converge in mean square to those of the optimum of the full objective.
* `C84_constant` (StochasticNatGrad.lean) — constant rates. With one rate `γ` in `(0, 1]` the expected natural parameters converge to those of the optimum, but the mean square distance does not tend to zero: its limit is `γ / (2 - γ)` times the scatter of the optima of minibatches.
* `C84_averaging_rates` (StochasticNatGrad.lean) — rates `1 / (t + 1)`. After `T ≥ 1` steps the expected natural parameters are exactly those of the optimum, whatever the start, and the mean square distance is `1 / (T p)` times the scatter of the optima of single data: `T` steps on minibatches of `p` are worth one on `T p` data.
* `C84_running_average` (StochasticNatGrad.lean) — rates `1 / (t + 1)` on a given sequence of minibatches. The natural parameters are the average of those of the optima of all data seen.
* `C84_one_epoch` (StochasticNatGrad.lean) — one pass over the data is enough. With the rates `1 / (t + 1)`, after any sequence of minibatches in which every datum has occurred equally often (for instance one epoch, in any order and however cut into minibatches), `dist_q` is exactly the optimum of the full objective.
* `C84_cyclic` (StochasticNatGrad.lean) — cycling through fixed minibatches `g 0, …, g (B - 1)` with a constant rate. After every epoch the natural parameters approach, geometrically, a weighted average of those of the optima of the minibatches with the weights `γ (1 - γ) ^ (B - 1 - b) / (1 - (1 - γ) ^ B)` (which add up to one): the later minibatches of the epoch count more, so the limit is in general not the optimum of the full objective.
* `C84_objective` (StochasticNatGrad.lean) — convergence of the objective. With rates in `[0, 1]` that tend to zero and have a divergent sum, the expectation over the random minibatches of the full data objective `elbo((X, Y))` after `T` steps converges to its largest value; so does the objective in probability: the fraction of the sequences of minibatches that leave it more than any `ε` short tends to zero.
* `C84_predict` (StochasticNatGrad.lean) — convergence of the predictions. Under the same rates, the means and variances that `predict_f` returns at any times converge to those of the optimum, in mean over the random minibatches.


## Axioms

* `propext` — 1 theorems: MF.C41_to_ssm_changes_drift
* `Quot.sound, propext` — 1 theorems: MF.C41_drift_shapes
* `Classical.choice, Quot.sound, propext` — 607 theorems: MF.C01_constructor, MF.C01_to_dense_lower, MF.C01_to_dense_symmetric, MF.C01_to_dense_symmetric_general, MF.C02_dense_mult, MF.C03_solve, MF.C04_cholesky, MF.C04_cholesky_raises, MF.C05_abs_log_det, MF.C05_block_diagonal_of_inverse, MF.C06_add, MF.C07_no_sub_diagonal, MF.C07_not_posdef_raises, MF.C07_upper_diagonal_lower, MF.C08_marginal_means, MF.C08_no_transitions, MF.C09_covariances, MF.C09_marginals, MF.C10_joint_cov_exists, MF.C10_precision, MF.C11_log_pdf, MF.C12_sample, MF.C13_dense_formula, MF.C13_kl_divergence, MF.C14_normalizer, MF.C15_from_covariances, MF.C15_from_covariances_raises, MF.C15_no_transitions, MF.C16_expectations, MF.C16_expectations_round_trip, MF.C16_model_round_trip, MF.C16_projection, MF.C17_improper_raises, MF.C17_model_round_trip, MF.C17_naturals, MF.C17_naturals_round_trip, MF.C17_no_smoothing, MF.C17_no_smoothing_round_trip, MF.C18_posterior, MF.C19_log_likelihood, MF.C20_duplicate_indices, MF.C20_improper_sites, MF.C20_sites, MF.C20_sparse_sites, MF.C20_univariate_sites, MF.C21_all, MF.C21_bridge, MF.C21_precision, MF.C21_succeeds, MF.C22_at_training, MF.C22_constant_extrapolation_halves, MF.C22_constant_no_jitter_raises, MF.C22_neighbours, MF.C22_predict_state, MF.C22_state_mean_dropped, MF.C22_succeeds, MF.C23_bayes, MF.C23_interior, MF.C23_prior, MF.C23_prior_is_kernel, MF.C23_with_ends, MF.C24_conditioning_law, MF.C24_given_conditioning, MF.C24_interior, MF.C24_sample_f, MF.C24_succeeds, MF.C24_with_ends, MF.C25_composed, MF.C25_law, MF.C25_projection, MF.C25_stack, MF.C26_product_feedback_is_wrong, MF.C26_sum, MF.C26_transitions_eq_exp, MF.C26_transitions_group, MF.C26_transitions_solve_sde, MF.C27_jitter_accumulates, MF.C27_process_covariance_pd, MF.C27_process_covariance_psd, MF.C27_state_mean_invariant, MF.C27_stationary, MF.C28_constant, MF.C28_constructors, MF.C28_harmonicOscillator, MF.C28_matern12, MF.C28_matern32, MF.C28_matern52, MF.C28_ornsteinUhlenbeck, MF.C28_output_law, MF.C28_restriction, MF.C28_state_mean, MF.C28_succeeds, MF.C29_add, MF.C29_factor_analysis, MF.C29_independent, MF.C29_mul, MF.C29_product, MF.C29_stack, MF.C29_stack_feedback_padding, MF.C29_stack_succeeds, MF.C29_sum, MF.C29_sum_loses_state_mean, MF.C30_any_order, MF.C30_composes, MF.C30_crossing_uses_left_kernel, MF.C30_out_of_range, MF.C30_segment, MF.C30_sorted_times, MF.C30_split_indices, MF.C30_state_space_model, MF.C30_succeeds, MF.C30_unsorted_times, MF.C31_feedback_invertible, MF.C31_impulse, MF.C31_impulse_jump, MF.C31_impulse_transitions, MF.C31_linear, MF.C31_step, MF.C31_step_leaf, MF.C31_step_product_wrong, MF.C31_step_response_unique, MF.C31_step_singular_raises, MF.C31_unsorted_actions, MF.C31_zero, MF.C32_dense_is_bayes, MF.C32_log_likelihood, MF.C32_posterior, MF.C32_samples, MF.C33_elbo, MF.C33_gaussian, MF.C33_init, MF.C33_posterior_exists, MF.C33_prior, MF.C34_classic_elbo, MF.C34_converges, MF.C34_dist_q, MF.C34_elbo_not_a_bound, MF.C34_exact_sites, MF.C34_gradient, MF.C34_k_steps, MF.C34_kalman, MF.C34_mean_function_ignored, MF.C34_one_step, MF.C34_update, MF.C34_updates_succeed, MF.C35_bound, MF.C35_elbo, MF.C35_equal_batches, MF.C35_init, MF.C35_partition, MF.C35_predict_log_density, MF.C35_with_replacement, MF.C35_without_replacement, MF.C36_classic_elbo, MF.C36_dist_q, MF.C36_gaussian_optimal, MF.C36_init, MF.C36_mean_function_ignored, MF.C36_one_interval, MF.C36_order, MF.C36_reachable, MF.C36_totals, MF.C36_update, MF.C37_cavity, MF.C37_cavity_exists, MF.C37_duplicate_indices, MF.C37_energy, MF.C37_ep_update, MF.C37_gaussian_alpha, MF.C37_gaussian_exact, MF.C37_gaussian_objective, MF.C37_gaussian_regression, MF.C37_init, MF.C37_leave_out, MF.C37_log_norm, MF.C37_moment_matching, MF.C37_schedule, MF.C37_update, MF.C37_update_none, MF.C38_bound, MF.C38_dregs, MF.C38_estimate, MF.C38_expected_value_consistent, MF.C38_importance_weights, MF.C38_init_ignores_initial_distribution, MF.C38_objective_bounds, MF.C38_objective_consistent, MF.C38_resampling_consistent, MF.C38_weights_normalised, MF.C39_conjugate, MF.C39_conjugate_one_step, MF.C39_gradient_of_kl, MF.C39_momentum_norm_negative, MF.C39_momentum_step, MF.C39_moving_averages, MF.C39_step, MF.C39_vgp_gaussian, MF.C39_zero_rate, MF.C40_multistage_invalid_counts, MF.C40_multistage_normalised, MF.C40_multistage_samples, MF.C40_multistage_variational_expectations, MF.C40_mvg_log_density, MF.C40_mvg_predict_density, MF.C40_mvg_predict_mean_var, MF.C40_mvg_variational_expectations, MF.C40_predict_y, MF.C40_predict_y_default, MF.C41_drift_difference_is_kl, MF.C41_drift_difference_linear, MF.C41_drift_roundtrip, MF.C41_drift_roundtrip_general, MF.C41_euler_maruyama, MF.C41_euler_maruyama_linear_law, MF.C41_euler_maruyama_shifted, MF.C41_handle_shape, MF.C41_linearize_double_well, MF.C41_linearize_optimal, MF.C41_linearize_ou, MF.C41_scalar_views, MF.C42_actions, MF.C42_back_project_nats, MF.C42_base_conditional, MF.C42_batch_mismatch_accepted, MF.C42_block_tri, MF.C42_block_tri_exact, MF.C42_block_tri_no_blocks_accepted, MF.C42_block_tri_vector_accepted, MF.C42_check_compatible, MF.C42_check_input_shapes, MF.C42_drop_batch, MF.C42_emission, MF.C42_event_shape, MF.C42_flatten_round_trip, MF.C42_kalman_emission_unchecked, MF.C42_kalman_filter, MF.C42_kalman_filter_exact, MF.C42_kalman_sites, MF.C42_leg, MF.C42_log_pdf_states, MF.C42_multivariate_gaussian, MF.C42_project_state, MF.C42_right_hand_side_complete, MF.C42_right_hand_side_refused, MF.C42_right_hand_side_sound, MF.C42_scalar_mean_accepted, MF.C42_sites, MF.C42_stack_emission, MF.C42_stack_kalman, MF.C42_state_space_model, MF.C42_state_space_model_documented, MF.C42_state_space_model_exact, MF.C43_base_conditional, MF.C43_base_conditional_full, MF.C43_base_conditional_full_wrong, MF.C43_bound, MF.C43_cvi_dist_q, MF.C43_cvi_elbo, MF.C43_cvi_gaussian, MF.C43_cvi_gradients, MF.C43_cvi_init, MF.C43_cvi_reachable, MF.C43_cvi_update, MF.C43_elbo, MF.C43_elbo_not_a_bound, MF.C43_elbo_value, MF.C43_init, MF.C43_kernel, MF.C43_predict, MF.C43_predict_exact, MF.C43_predict_log_density, MF.C43_prior, MF.C43_projection, MF.C43_svgp_bound, MF.C44_to_delta_time, MF.C45_formulas, MF.C45_laws, MF.C45_state_psd, MF.C46_copies, MF.C47_cavity, MF.C47_cavity_exists, MF.C47_dist_q, MF.C47_energy, MF.C47_fraction, MF.C47_gaussian_cvi, MF.C47_gaussian_optimal, MF.C47_gaussian_regression, MF.C47_gaussian_updates, MF.C47_init, MF.C47_leave_out, MF.C47_log_norm, MF.C47_mean_function_ignored, MF.C47_update, MF.C48_exact, MF.C48_gaussian_contract, MF.C48_outputs_not_joint, MF.C48_regression, MF.C48_sites, MF.C48_svgp, MF.C49_bridge, MF.C49_conditional_statistics, MF.C49_law, MF.C49_raises, MF.C49_returned, MF.C50_code, MF.C50_extrapolation, MF.C50_matern12, MF.C50_mixing, MF.C51_log_likelihood, MF.C51_predict, MF.C51_reversal, MF.C51_same_covariance, MF.C51_translation, MF.C51_units, MF.C52_affine, MF.C52_bounds, MF.C52_chain_rule, MF.C52_more_data, MF.C52_sequential, MF.C53_kernel_parameters, MF.C53_ordered, MF.C53_site_models, MF.C53_sparse_models, MF.C53_triangular, MF.C54_best, MF.C54_data_times, MF.C54_exact_regression, MF.C54_refine, MF.C54_sparse_cvi, MF.C55_add, MF.C55_bound, MF.C55_elbo, MF.C55_init, MF.C55_mul, MF.C55_multistage_likelihood, MF.C55_partition, MF.C55_predict, MF.C55_prior, MF.C55_samples, MF.C55_sampling_returns_iff, MF.C55_scalar_likelihood, MF.C55_vgp, MF.C56_fixed_point, MF.C56_gradient, MF.C56_optimum, MF.C56_same_bound, MF.C56_sparse_fixed_point, MF.C56_sparse_gradient, MF.C56_sparse_same_bound, MF.C56_sparse_step, MF.C56_sparse_steps, MF.C56_step, MF.C56_steps, MF.C57_conditional_statistics, MF.C57_consistent, MF.C57_first_interval, MF.C57_log_likelihood, MF.C57_no_queries, MF.C57_posterior, MF.C57_predict_state, MF.C57_prior, MF.C57_same_kernel, MF.C57_svgp, MF.C57_svgp_init, MF.C58_continuous, MF.C58_derivative, MF.C58_matern32, MF.C58_matern52, MF.C58_pointwise, MF.C58_predict_f, MF.C58_predict_f_derivative, MF.C58_smooth_kernels, MF.C59_constructors, MF.C59_log_likelihood, MF.C59_posterior, MF.C59_predict_f, MF.C59_predict_state, MF.C59_prior, MF.C60_covariances, MF.C60_gradient, MF.C60_leg_constant, MF.C60_matern, MF.C60_predict, MF.C60_smooth, MF.C61_interpolation, MF.C61_uninformative, MF.C62_block_tri_add, MF.C62_block_tri_constructor, MF.C62_block_tri_factorisations, MF.C62_block_tri_operations, MF.C62_divergence, MF.C62_emission, MF.C62_from_covariances, MF.C62_kalman_filter, MF.C62_kalman_filter_with_sites, MF.C62_log_likelihood_evidence, MF.C62_log_pdf, MF.C62_moments, MF.C62_posterior_bayes, MF.C62_sample, MF.C62_state_space_model, MF.C62_tensors_are_families, MF.C63_conditional_predict, MF.C63_conditional_statistics, MF.C63_factor_analysis, MF.C63_gpr_evidence, MF.C63_gpr_init, MF.C63_gpr_init_default, MF.C63_gpr_init_raises, MF.C63_gpr_log_likelihood, MF.C63_gpr_posterior, MF.C63_gpr_predictions, MF.C63_kernels, MF.C63_leg, MF.C63_mean_functions, MF.C63_one_kernel, MF.C63_pairwise_marginals, MF.C63_predict_f, MF.C63_predict_state, MF.C63_product, MF.C63_set_state_mean, MF.C63_state_space_model, MF.C63_sum_and_multi_output, MF.C64_expectations, MF.C64_model_round_trips, MF.C64_naturals, MF.C64_naturals_no_smoothing, MF.C64_naturals_round_trip, MF.C64_sites_reject_batches, MF.C64_svgp, MF.C64_svgp_bound, MF.C64_svgp_init, MF.C64_trainable_copy, MF.C64_vgp, MF.C64_vgp_bound, MF.C64_vgp_init, MF.C65_gpr_samples, MF.C65_sample_f, MF.C65_sample_state, MF.C65_trajectories, MF.C65_trajectories_law, MF.C66_constants, MF.C66_constructor, MF.C66_default_distribution, MF.C66_predict_f, MF.C66_predict_law, MF.C66_predict_state, MF.C66_rejects_other_batch_shapes, MF.C66_sample_f, MF.C66_samples_law, MF.C66_sampling_returns_iff, MF.C66_state_space_model, MF.C66_svgp, MF.C66_svgp_bound, MF.C66_svgp_init, MF.C66_trajectories, MF.C66_vgp, MF.C66_vgp_bound, MF.C66_vgp_init, MF.C67_gpr_evidence, MF.C67_ignores_times, MF.C67_impulse, MF.C67_impulse_response, MF.C67_impulse_transitions, MF.C67_other_batch_raises, MF.C67_shapes_raise, MF.C67_stack_impulse, MF.C67_stack_not_a_mean_function, MF.C67_stack_step_raises, MF.C67_stack_step_wrong, MF.C67_step, MF.C67_step_response, MF.C67_unsorted, MF.C68_cvi, MF.C68_momentum_first, MF.C68_sparse_cvi, MF.C68_stationary, MF.C68_step, MF.C68_total_gradient, MF.C68_vgp, MF.C69_average_step, MF.C69_gaussian, MF.C69_gradient, MF.C69_progress, MF.C69_unbiased, MF.C70_gradient, MF.C70_momentum_step, MF.C70_step, MF.C70_steps, MF.C70_svgp, MF.C70_vgp, MF.C70_vgp_gaussian, MF.C71_fixed_start, MF.C71_gaussian_process, MF.C71_kernel_sde, MF.C71_linearize_ou, MF.C71_ornstein_uhlenbeck, MF.C71_random_start, MF.C71_random_start_law, MF.C72_cvi_average, MF.C72_cvi_gaussian_runs, MF.C72_cvi_gaussian_tempered, MF.C72_cvi_partition, MF.C72_num_data_ignored, MF.C72_st_cvi_average, MF.C72_st_cvi_gaussian_runs, MF.C72_st_cvi_gaussian_tempered, MF.C72_st_cvi_objective, MF.C72_st_cvi_partition, MF.C72_st_objective, MF.C73_batches_raise, MF.C73_constructor, MF.C73_dimensions, MF.C73_initial_covariance, MF.C73_many_raise, MF.C73_single_batch, MF.C73_state_space_model, MF.C73_unbatched, MF.C74_cvi_classic_elbo, MF.C74_cvi_dist_q, MF.C74_cvi_exact_sites, MF.C74_cvi_init, MF.C74_cvi_k_steps, MF.C74_cvi_kalman, MF.C74_cvi_one_step, MF.C74_cvi_update, MF.C74_cvi_updates_succeed, MF.C74_training_marginals, MF.C74_vgp_elbo, MF.C74_vgp_gaussian, MF.C74_vgp_init, MF.C75_cvi, MF.C75_cvi_init, MF.C75_gradient, MF.C75_natgrad, MF.C75_piecewise_cvi, MF.C75_sparse_cvi, MF.C75_spatio_temporal, MF.C75_svgp_natgrad, MF.C76_pep, MF.C76_pep_init, MF.C76_site, MF.C76_sparse_pep, MF.C77_cvi, MF.C77_cvi_exists, MF.C77_sparse_cvi, MF.C77_sparse_cvi_exists, MF.C77_svgp, MF.C77_svgp_exists, MF.C77_vgp, MF.C77_vgp_exists, MF.C78_cvi, MF.C78_exists, MF.C78_inducing, MF.C78_predict, MF.C78_same_covariance, MF.C78_vgp, MF.C79_best, MF.C79_cvi, MF.C79_cvi_best, MF.C79_exists, MF.C79_fixed_q, MF.C80_history, MF.C80_pep_energy, MF.C80_pep_history, MF.C80_pep_reversal, MF.C80_pep_same_covariance, MF.C80_pep_training, MF.C80_pep_translation, MF.C80_pep_units, MF.C80_pep_update, MF.C80_results, MF.C80_reversal, MF.C80_same_covariance, MF.C80_training, MF.C80_translation, MF.C80_units, MF.C80_update, MF.C81_converges, MF.C81_predictions, MF.C81_training, MF.C82_sparse_cvi, MF.C82_svgp, MF.C82_vgp, MF.C83_cvi_converges, MF.C83_cvi_optimum, MF.C83_fixed_point, MF.C83_gradient, MF.C83_same_bound, MF.C83_step, MF.C83_steps, MF.C83_svgp_converges, MF.C83_svgp_gradient, MF.C83_svgp_stationary, MF.C83_vgp_converges, MF.C83_vgp_stationary, MF.C84_averaging_rates, MF.C84_constant, MF.C84_converges, MF.C84_cyclic, MF.C84_mean, MF.C84_objective, MF.C84_one_epoch, MF.C84_predict, MF.C84_running_average, MF.C84_runs, MF.C84_scatter
