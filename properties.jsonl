{"id": "C01", "title": "Batch splitting covers every index exactly once", "statement": "Splitting n points with batch size b yields contiguous, ordered chunks that start at 0, end at n, never overlap, never leave a gap, each hold at least one and at most max(1,b) points, and all but the last hold exactly max(1,b).", "quantifier": "every n and every batch size, including 0, negative and batch sizes larger than n", "why_tests_cant": "A test checks a few (n,b); an off-by-one only shows for particular remainders.", "anchors": ["fvgp/gp2Scale_covariance.py:ranges"]}
{"id": "C02", "title": "Block-wise distributed prior covariance equals the local kernel evaluation", "statement": "With gp2Scale block-wise, for a symmetric kernel the assembled sparse matrix has at every position (i,j) the value k(x_i,x_j), whatever the order in which the cluster finishes the blocks.", "quantifier": "every kernel that is symmetric and evaluates blocks point-wise, every data set, every batch size, every completion order of tasks", "why_tests_cant": "Completion order is nondeterministic and the number of orders is factorial in the block count.", "anchors": ["fvgp/gp2Scale_covariance.py:distributed_covariance", "fvgp/gp2Scale_covariance.py:block_triplets", "fvgp/gp2Scale_covariance.py:assemble_triplets"]}
{"id": "C03", "title": "Row-wise distributed covariance equals the local kernel evaluation", "statement": "With gp2Scale row-wise, the assembled matrix equals the local kernel evaluation for every kernel (symmetric or not) and every completion order.", "quantifier": "every kernel, data set, batch size, completion order", "why_tests_cant": "Completion order is nondeterministic.", "anchors": ["fvgp/gp2Scale_covariance.py:row_strip_csr", "fvgp/gp2Scale_covariance.py:assemble_row_strips", "fvgp/gp2Scale_covariance.py:distributed_covariance"]}
{"id": "C04", "title": "Distributed cross-covariance equals the local kernel evaluation", "statement": "The cross-covariance between data and other points computed on the cluster equals the local evaluation, whichever of the two axes is cut into strips and whatever the strip width and completion order.", "quantifier": "every kernel, n1, n2, batch size, distribution mode and completion order", "why_tests_cant": "Shape- and order-dependent strategy choice; only finitely many shapes are testable.", "anchors": ["fvgp/gp2Scale_covariance.py:col_strip_csc", "fvgp/gp2Scale_covariance.py:row_strip_csr", "fvgp/gp2Scale_covariance.py:assemble_col_strips", "fvgp/gp2Scale_covariance.py:strip_width", "fvgp/gp2Scale_covariance.py:distributed_covariance"]}
{"id": "C05", "title": "Worker task size never exceeds the declared budget", "statement": "A block-wise task evaluates at most B*B entries, a row-wise task at most B*n2, and a cross-covariance strip at most max(budget, length of the long axis) entries; total work of the symmetric block-wise schedule visits each unordered pair of points exactly once.", "quantifier": "every n1, n2, B and distribution mode", "why_tests_cant": "Memory bounds must hold for sizes far beyond anything a test can allocate.", "anchors": ["fvgp/gp2Scale_covariance.py:task_budget", "fvgp/gp2Scale_covariance.py:strip_width", "fvgp/gp2Scale_covariance.py:ranges", "fvgp/gp2Scale_covariance.py:distributed_covariance"]}
{"id": "C06", "title": "A failed block can never silently produce a covariance matrix", "statement": "If any worker task comes back as an exception, the distributed covariance computation raises; if none does, it returns a matrix. In both cases every future that was consumed has been released.", "quantifier": "every set of failing tasks and every completion order", "why_tests_cant": "Failure subset and order are combinatorial and timing dependent.", "anchors": ["fvgp/gp2Scale_covariance.py:_harvest", "fvgp/gp2Scale_covariance.py:distributed_covariance"]}
{"id": "C07", "title": "Appending data gives the same prior covariance as starting over", "statement": "Growing a stored covariance by the cross block and the new block gives exactly the covariance of the concatenated data set, for a symmetric kernel, in dense mode and in gp2Scale mode.", "quantifier": "every old/new data split (including empty new data) and every symmetric kernel", "why_tests_cant": "Must hold for every split of every data set.", "anchors": ["fvgp/gp2Scale_covariance.py:stack_augmented_covariance", "fvgp/gp_prior.py:_update_prior_covariance_matrix"]}
{"id": "C08", "title": "Distributing or not is invisible in the result", "statement": "Whether the library decides to compute a covariance locally or to send it to the cluster, the returned matrix is the same for a symmetric kernel; the decision depends only on sizes and settings.", "quantifier": "every size, batch size, distribution mode, completion order", "why_tests_cant": "The threshold depends on data size; both sides must agree for all sizes.", "anchors": ["fvgp/gp_prior.py:_gp2Scale_covariance", "fvgp/gp2Scale_covariance.py:should_distribute"]}
{"id": "C09", "title": "Scattered data is released exactly once by its owner", "statement": "Point sets scattered inside one covariance call are released exactly once, also when the call fails; point sets handed in by the caller are never released by the call; after an append only the persistent full-data scatter is live.", "quantifier": "every combination of passed-in / own futures, symmetric or not, success or failure", "why_tests_cant": "Leaks and double releases only show on a live cluster under failure timing.", "anchors": ["fvgp/gp_prior.py:_gp2Scale_covariance", "fvgp/gp_prior.py:_update_prior_covariance_matrix"]}
{"id": "C10", "title": "No uninitialised memory reaches the assembled matrix", "statement": "The buffers pre-allocated for the block-wise assembly are filled completely and without overrun: the number of entries written equals the number allocated, for any blocks and any order.", "quantifier": "every list of harvested blocks, symmetric or not", "why_tests_cant": "An under- or over-count shows only for particular diagonal/zero patterns.", "anchors": ["fvgp/gp2Scale_covariance.py:assemble_triplets"]}
{"id": "C11", "title": "Incremental Cholesky equals the factor of the whole matrix", "statement": "If L is the Cholesky factor of the leading block, the rank-n update returns the lower-triangular positive-diagonal factor L' with L' L'^T equal to the full matrix, and this is the only such factor.", "quantifier": "every size, every symmetric positive definite matrix, every split", "why_tests_cant": "Continuous and unbounded-dimension input space.", "anchors": ["fvgp/gp_lin_alg.py:cholesky_update_rank_1_numpy", "fvgp/gp_lin_alg.py:cholesky_update_rank_n", "fvgp/gp_lin_alg.py:update_Chol_factor"]}
{"id": "C12", "title": "Incremental Cholesky rejects exactly the non-positive-definite appends", "statement": "Given a positive definite leading block, the update raises if and only if the grown matrix is not positive definite.", "quantifier": "every size, every symmetric matrix whose leading block is positive definite", "why_tests_cant": "The boundary is a measure-zero surface in a continuous space.", "anchors": ["fvgp/gp_lin_alg.py:cholesky_update_rank_1_numpy", "fvgp/gp_lin_alg.py:cholesky_update_rank_n"]}
{"id": "C13", "title": "Appending in one batch or many gives the same factor", "statement": "Any sequence of appends that ends in the same matrix ends in the same Cholesky factor.", "quantifier": "every way of splitting the appended rows into batches", "why_tests_cant": "Exponentially many splits.", "anchors": ["fvgp/gp_lin_alg.py:cholesky_update_rank_n", "fvgp/gp_lin_alg.py:update_Chol_factor", "fvgp/gp_kv.py:update_KV"]}
{"id": "C14", "title": "Incremental inverse equals the inverse of the whole matrix", "statement": "If the stored inverse is the inverse of the leading block and the whole symmetric matrix is invertible, the block update returns the inverse of the whole matrix.", "quantifier": "every size and every symmetric matrix with invertible leading block and Schur complement", "why_tests_cant": "Continuous input space.", "anchors": ["fvgp/gp_lin_alg.py:update_inv"]}
{"id": "C15", "title": "Incremental log-determinant equals the log-determinant of the whole matrix", "statement": "Adding the log-determinant of the Schur complement to the stored log-determinant gives the log-determinant of the grown positive definite matrix.", "quantifier": "every size and positive definite matrix", "why_tests_cant": "Continuous input space.", "anchors": ["fvgp/gp_lin_alg.py:update_logdet"]}
{"id": "C16", "title": "Cholesky solve and log-determinant are exact", "statement": "With L the factor of a positive definite A, the Cholesky solve returns the unique x with A x = b, and twice the sum of log of the diagonal of L equals log det A.", "quantifier": "every size, matrix, right-hand side", "why_tests_cant": "Continuous input space.", "anchors": ["fvgp/gp_lin_alg.py:calculate_Chol_solve", "fvgp/gp_lin_alg.py:calculate_Chol_logdet", "fvgp/gp_lin_alg.py:calculate_inv_from_chol"]}
{"id": "C17", "title": "Warm-start vectors are always reshaped to the system", "statement": "A warm-start guess is turned into an array of exactly the right-hand side's shape that keeps the old rows, pads new rows with zeros, drops surplus rows and copies a single column to all columns; it is rejected exactly when its number of columns differs from the right-hand side's and it is not a single column for a multi-column right-hand side.", "quantifier": "every shape of guess and right-hand side", "why_tests_cant": "Unbounded shapes.", "anchors": ["fvgp/gp_lin_alg.py:_normalize_initial_guess"]}
{"id": "C18", "title": "Preconditioner blocks partition the unknowns", "statement": "The graph blocks used by the block-Jacobi preconditioner contain each index exactly once, are non-empty and hold at most the configured number of indices. Each block starts at the smallest index not yet used and grows along stored entries until it is full or has no unused neighbours.", "quantifier": "every sparsity pattern and block size", "why_tests_cant": "All graphs.", "anchors": ["fvgp/gp_lin_alg.py:_build_graph_blocks"]}
{"id": "C19", "title": "Overlap expansion returns exactly the k-hop neighbourhood", "statement": "Expanding a block by overlap k returns, sorted, exactly the indices reachable in at most k steps of the sparsity graph from the block.", "quantifier": "every sparsity pattern, block and overlap", "why_tests_cant": "All graphs.", "anchors": ["fvgp/gp_lin_alg.py:_expand_block_overlap"]}
{"id": "C20", "title": "Block preconditioners are symmetric positive semidefinite", "statement": "The additive block operator built from local Cholesky solves is symmetric and positive semidefinite, and positive definite when the blocks cover all indices.", "quantifier": "every family of blocks and local positive definite matrices", "why_tests_cant": "Continuous input space and all block families.", "anchors": ["fvgp/gp_lin_alg.py:_build_blockwise_operator", "fvgp/gp_lin_alg.py:_build_block_jacobi_preconditioner", "fvgp/gp_lin_alg.py:_build_additive_schwarz_preconditioner"]}
{"id": "C21", "title": "Reported convergence of block CG means a small true residual", "statement": "When the block conjugate-gradient routine reports success, the residual B - A X of the returned X is within the tolerance; the running residual always equals the true residual (exact arithmetic).", "quantifier": "every system, preconditioner, start vector, tolerance, iteration limit", "why_tests_cant": "Unbounded iteration histories.", "anchors": ["fvgp/gp_lin_alg.py:_block_conjugate_gradient"]}
{"id": "C22", "title": "Linear-algebra mode names resolve unambiguously", "statement": "A preconditioned mode name with a suffix resolves to the base mode plus the canonical preconditioner type; conflicting explicit settings raise; the caller's settings are never modified; resolution is insensitive to case and idempotent on canonical names.", "quantifier": "every mode string and settings dictionary", "why_tests_cant": "Unbounded strings and dictionaries.", "anchors": ["fvgp/gp_lin_alg.py:resolve_gp2scale_linalg_mode", "fvgp/gp_lin_alg.py:normalize_sparse_preconditioner_type"]}
{"id": "C23", "title": "Shifted factorisation retries are bounded and minimal", "statement": "The diagonal-shift retry loop makes at most the configured number of attempts, returns the factor for the first shift in the schedule that works, tries the unshifted matrix first when the initial shift is zero, and raises only when all attempts failed; shifts strictly increase for growth factor > 1. The shifts tried are 1e-10 (dense) or 1e-12 (ilupp) times powers of the growth factor, or the given start times these powers.", "quantifier": "every matrix behaviour (which shifts fail), attempt count, growth", "why_tests_cant": "Every failure pattern.", "anchors": ["fvgp/gp_lin_alg.py:_shifted_dense_cholesky", "fvgp/gp_lin_alg.py:_shift_retry_ilupp_factor"]}
{"id": "C24", "title": "The incomplete Cholesky factor reproduces the matrix on its sparsity pattern", "statement": "When the IC(0) factorisation succeeds, (L L^T) agrees with the (shifted) matrix on every stored position and L has no entry outside the pattern.", "quantifier": "every sparse symmetric matrix for which it succeeds", "why_tests_cant": "Continuous input space, all patterns.", "anchors": ["fvgp/gp_lin_alg.py:_build_ic0_factor"]}
{"id": "C25", "title": "Posterior mean and covariance are the Gaussian conditional", "statement": "posterior_mean returns m(x*) + k^T (K+V)^-1 (y-m) and posterior_covariance returns k(x*,x*) - k^T (K+V)^-1 k in each of the direct solver modes; for a Gaussian process with that mean and kernel, observed with that noise, these are the mean and covariance of its conditional distribution at the prediction points given the data (with add_noise=True, of new noisy observations).", "quantifier": "every data set, kernel, noise and prediction set", "why_tests_cant": "Continuous input space.", "anchors": ["fvgp/gp_posterior.py:posterior_mean", "fvgp/gp_posterior.py:posterior_covariance", "fvgp/gp_kv.py:solve"]}
{"id": "C26", "title": "Predictive variance lies between zero and the prior variance", "statement": "For a positive semidefinite kernel and positive noise, the returned variance is at least 0 and at most the prior variance at the point.", "quantifier": "every data set, kernel, noise, prediction point", "why_tests_cant": "Continuous input space.", "anchors": ["fvgp/gp_posterior.py:posterior_covariance"]}
{"id": "C27", "title": "Posterior covariance is symmetric positive semidefinite", "statement": "For a positive semidefinite kernel and positive definite noise the posterior covariance is symmetric positive semidefinite, so clipping is a no-op in exact arithmetic and every linear functional has non-negative variance.", "quantifier": "every data set, kernel, noise, prediction set", "why_tests_cant": "Continuous input space.", "anchors": ["fvgp/gp_posterior.py:posterior_covariance"]}
{"id": "C28", "title": "Prediction chunking does not change the covariance", "statement": "Evaluating the data-term of the posterior covariance in column chunks of any size gives the same matrix as evaluating it at once.", "quantifier": "every chunk size and prediction count", "why_tests_cant": "All chunk sizes.", "anchors": ["fvgp/gp_posterior.py:_cross_solve_product"]}
{"id": "C29", "title": "Multi-task predictions are arranged by point and task", "statement": "For a multi-task GP, m(x)[i,t], v(x)[i,t] and S[i,j,t,u] are the flat prediction entries that belong to point i and task t (and point j and task u); the flat vector is task-major.", "quantifier": "every number of points and tasks", "why_tests_cant": "Index arithmetic for all shapes.", "anchors": ["fvgp/gp_posterior.py:cartesian_product", "fvgp/gp_posterior.py:posterior_mean", "fvgp/gp_posterior.py:posterior_covariance"]}
{"id": "C30", "title": "Multi-task gradients are arranged by point, direction and task", "statement": "For a multi-task GP, dm/dx[i,d,t] and dv/dx[i,d,t] are the derivative in direction d at point i and task t, and dS/dx[i,j,t,u] the covariance gradient between (i,t) and (j,u).", "quantifier": "every number of points, directions and tasks", "why_tests_cant": "Index arithmetic for all shapes.", "anchors": ["fvgp/gp_posterior.py:posterior_mean_grad", "fvgp/gp_posterior.py:posterior_covariance_grad"]}
{"id": "C31", "title": "Noise-free interpolation", "statement": "With zero noise and invertible prior covariance, the posterior mean at a training point is the observed value and the posterior variance there is zero.", "quantifier": "every data set and kernel with invertible K", "why_tests_cant": "Continuous input space.", "anchors": ["fvgp/gp_posterior.py:posterior_mean", "fvgp/gp_posterior.py:posterior_covariance"]}
{"id": "C32", "title": "Predictions and likelihood do not depend on the order of the data", "statement": "Permuting the training points (with their values and noise) changes neither the posterior mean, nor the posterior covariance, nor the log marginal likelihood.", "quantifier": "every permutation of every data set", "why_tests_cant": "Factorially many permutations.", "anchors": ["fvgp/gp_posterior.py:posterior_mean", "fvgp/gp_posterior.py:posterior_covariance", "fvgp/gp_marginal_likelihood.py:log_likelihood"]}
{"id": "C33", "title": "More data never increases uncertainty", "statement": "Appending data with unchanged hyperparameters and unchanged noise on the old points never increases the posterior variance at any point.", "quantifier": "every data set, appended set and prediction point", "why_tests_cant": "Continuous input space.", "anchors": ["fvgp/gp_posterior.py:posterior_covariance", "fvgp/gp.py:update_gp_data"]}
{"id": "C34", "title": "Information measures are non-negative", "statement": "Mutual information, total correlation and KL divergence between Gaussians with positive definite covariance are non-negative, KL of a distribution with itself is zero, so the abs() never changes the value.", "quantifier": "every pair of positive definite covariances and means", "why_tests_cant": "Continuous input space.", "anchors": ["fvgp/gp_posterior.py:kl_div", "fvgp/gp_posterior.py:mutual_information", "fvgp/gp_posterior.py:gp_total_correlation"]}
{"id": "C35", "title": "posterior_probability is the Gaussian overlap", "statement": "The returned probability equals the density of N(mu1 - mu2; 0, S1 + S2), its covariance is (S1^-1+S2^-1)^-1 and its mean the precision-weighted mean.", "quantifier": "every pair of positive definite covariances and means", "why_tests_cant": "Continuous input space.", "anchors": ["fvgp/gp_posterior.py:posterior_probability"]}
{"id": "C36", "title": "variance_only gives the same variances as the full covariance", "statement": "Requesting only variances returns the same variances as computing the full covariance, in the explicit-inverse shortcut and in the generic path, with or without added noise.", "quantifier": "every data set, mode and prediction set", "why_tests_cant": "Mode and shape combinations over continuous input.", "anchors": ["fvgp/gp_posterior.py:posterior_covariance", "fvgp/gp_posterior.py:add_noise"]}
{"id": "C37", "title": "log_likelihood is the multivariate normal log density", "statement": "log_likelihood returns log N(y; m, K+V) for one output column, and the stored-state value (no argument) equals the value for the current hyperparameters; its exponential, as a function of y, is the probability density of the noisy observations of the Gaussian process.", "quantifier": "every data set, kernel, mean, noise, hyperparameters", "why_tests_cant": "Continuous input space.", "anchors": ["fvgp/gp_marginal_likelihood.py:log_likelihood"]}
{"id": "C38", "title": "The likelihood gradient is the derivative of the likelihood", "statement": "neg_log_likelihood_gradient returns the partial derivatives of neg_log_likelihood with respect to every hyperparameter.", "quantifier": "every differentiable kernel, noise and mean and every hyperparameter vector", "why_tests_cant": "Derivative identity over a function space.", "anchors": ["fvgp/gp_marginal_likelihood.py:neg_log_likelihood_gradient"]}
{"id": "C39", "title": "The Hessian returned is symmetric and agrees with the computed differences", "statement": "neg_log_likelihood_hessian returns a symmetric matrix whose upper triangle is the forward difference of the gradient.", "quantifier": "every gradient function and hyperparameter vector", "why_tests_cant": "All dimensions and gradients.", "anchors": ["fvgp/gp_marginal_likelihood.py:neg_log_likelihood_hessian"]}
{"id": "C40", "title": "Model state depends only on current data and hyperparameters, not on history", "statement": "After any sequence of set_hyperparameters, append, overwrite and training results, the prior, noise, factorisation, KVinvY and log-determinant equal those of a GP freshly built from the current data and hyperparameters.", "quantifier": "every finite sequence of public operations in every direct linear-algebra mode", "why_tests_cant": "Unbounded histories.", "anchors": ["fvgp/gp.py:set_hyperparameters", "fvgp/gp.py:update_gp_data", "fvgp/gp_kv.py:_refresh", "fvgp/gp_kv.py:update_KV", "fvgp/gp_prior.py:augment_state_data"]}
{"id": "C41", "title": "A rejected data update leaves the GP unchanged", "statement": "If update_gp_data raises, the data, prior and factorisation observed afterwards are those from before the call.", "quantifier": "every failing update in every state", "why_tests_cant": "All failure points.", "anchors": ["fvgp/gp_data.py:update", "fvgp/gp.py:update_gp_data", "fvgp/fvgp.py:update_gp_data"]}
{"id": "C42", "title": "Data bookkeeping stays consistent", "statement": "After any successful sequence of updates: the point count equals the number of inputs, outputs and (if present) noise variances; noise variances are present either always or never; an append keeps all old points in order in front; overwrite keeps none.", "quantifier": "every sequence of updates", "why_tests_cant": "Unbounded histories.", "anchors": ["fvgp/gp_data.py:update"]}
{"id": "C43", "title": "Pickling preserves the model", "statement": "Saving and restoring a GP keeps data, hyperparameters, prior, noise, factorisation and solution; dropped runtime objects (client, preconditioner) are rebuilt or absent, never stale.", "quantifier": "every reachable state", "why_tests_cant": "All reachable states.", "anchors": ["fvgp/gp_kv.py:__getstate__", "fvgp/gp_data.py:__getstate__", "fvgp/gp_prior.py:__getstate__", "fvgp/gp_training.py:__getstate__"]}
{"id": "C44", "title": "Guarded training never makes the model worse", "statement": "With accept-only-if-improved, after training the log likelihood is at least the incumbent's minus the stated tolerance, and when the new point is rejected hyperparameters and state are those from before.", "quantifier": "every optimizer outcome", "why_tests_cant": "Every optimizer result.", "anchors": ["fvgp/gp.py:_reject_if_not_improved", "fvgp/gp.py:train"]}
{"id": "C45", "title": "Training leaves the user's linear-algebra settings untouched", "statement": "After a training run, whether it returns or raises, the settings dictionary is exactly what it was before; during a non-MCMC run warm starts are off and preconditioners are refreshed at every evaluation.", "quantifier": "every settings dictionary, method, and body behaviour including exceptions", "why_tests_cant": "All dictionaries and exception points.", "anchors": ["fvgp/gp_kv.py:sequential_linalg_state"]}
{"id": "C46", "title": "Likelihood values do not depend on evaluation order outside MCMC", "statement": "For non-MCMC methods the solver receives neither a warm start nor a reused preconditioner, so a likelihood evaluation is a function of the hyperparameters alone.", "quantifier": "every sequence of evaluations", "why_tests_cant": "Unbounded evaluation histories.", "anchors": ["fvgp/gp_kv.py:sequential_linalg_state", "fvgp/gp_kv.py:_get_or_refresh_preconditioner", "fvgp/gp_marginal_likelihood.py:_iterative_initial_guess"]}
{"id": "C47", "title": "A reused preconditioner is always fresh enough", "statement": "A preconditioner is reused only for a matrix of the same shape, with unchanged preconditioner settings, whose trace and Frobenius norm are within the drift limit of the matrix it was built for, and never more than interval-1 times in a row.", "quantifier": "every sequence of requests, resets and setting changes", "why_tests_cant": "Unbounded histories.", "anchors": ["fvgp/gp_kv.py:_can_reuse_sparse_preconditioner", "fvgp/gp_kv.py:_get_or_refresh_preconditioner"]}
{"id": "C48", "title": "Training starts inside the bounds and rejects other starts", "statement": "train raises if the initial hyperparameters violate a bound and otherwise the optimizer is given a start inside the bounds.", "quantifier": "every bounds array and start", "why_tests_cant": "Continuous input.", "anchors": ["fvgp/gp_training.py:train", "fvgp/gp_training.py:_in_bounds", "fvgp/gp.py:out_of_bounds"]}
{"id": "C49", "title": "Trained hyperparameters respect the bounds", "statement": "Hyperparameters returned by train lie inside the given bounds for every built-in method.", "quantifier": "every objective, bounds, random draws", "why_tests_cant": "Randomised algorithms over continuous objectives.", "anchors": ["fvgp/gp_training.py:train", "fvgp/gp_training.py:adam_optimize", "fvgp/gp_bo.py:bayesian_optimize", "fvgp/gp_mcmc.py:run_mcmc"]}
{"id": "C50", "title": "Asynchronous updates adopt only genuine results", "statement": "update_hyperparameters on a running optimizer returns the optimizer's current vector when one is available and the present hyperparameters when the optimizer is unreachable or has nothing yet; anything else raises.", "quantifier": "every answer the optimizer may give", "why_tests_cant": "All answer shapes.", "anchors": ["fvgp/gp_training.py:update_hyperparameters"]}
{"id": "C51", "title": "Adam terminates and records every iterate", "statement": "Adam evaluates at most max_iter times, its histories have equal length equal to the number of iterations, the first entry is the start vector, consecutive entries differ by the Adam step, and it stops at the first small step or stop request.", "quantifier": "every objective, gradient and stop signal", "why_tests_cant": "Unbounded iteration behaviours.", "anchors": ["fvgp/gp_training.py:adam_optimize"]}
{"id": "C52", "title": "The MCMC chain never leaves the prior support", "statement": "With the default prior, if the start is inside the bounds every recorded position is inside the bounds, for every proposal and random draw.", "quantifier": "every likelihood, proposal sequence, random draws", "why_tests_cant": "Randomised algorithm.", "anchors": ["fvgp/gp_mcmc.py:_jump", "fvgp/gp_mcmc.py:run_mcmc"]}
{"id": "C53", "title": "The MCMC trace is self-consistent", "statement": "The likelihood carried by the chain always equals the likelihood of the current position; positions, likelihood values and time stamps have lengths n+1, n, n after n iterations; a rejected proposal repeats the position.", "quantifier": "every run", "why_tests_cant": "Randomised algorithm.", "anchors": ["fvgp/gp_mcmc.py:run_mcmc", "fvgp/gp_mcmc.py:_jump"]}
{"id": "C54", "title": "The acceptance rule satisfies detailed balance", "statement": "For a symmetric proposal the accept/reject rule is reversible with respect to prior times likelihood (up to the overflow guard, which does not change acceptance probabilities).", "quantifier": "every pair of states, likelihood, prior", "why_tests_cant": "Probability identity over all states.", "anchors": ["fvgp/gp_mcmc.py:_jump"]}
{"id": "C55", "title": "The reported best MCMC point attains the reported best value", "statement": "In the MCMC result, the likelihood of 'max x' equals 'max f(x)', which is the maximum over all visited positions.", "quantifier": "every run", "why_tests_cant": "Randomised algorithm.", "anchors": ["fvgp/gp_mcmc.py:run_mcmc", "fvgp/gp_actor.py:_MCMCActor"]}
{"id": "C56", "title": "Adaptation keeps a valid proposal covariance and affects the proposals", "statement": "Adaptation happens exactly every K iterations, keeps the proposal covariance symmetric positive semidefinite, keeps the scale factor positive, and the adapted scale influences later proposals.", "quantifier": "every run", "why_tests_cant": "Randomised algorithm.", "anchors": ["fvgp/gp_mcmc.py:ProposalDistribution._adapt", "fvgp/gp_mcmc.py:ProposalDistribution.normal_proposal_dist"]}
{"id": "C57", "title": "Search-space transform is a bijection between bounds and unit cube", "statement": "Mapping a point of the box to the unit cube and back returns the point, every unit-cube point maps into the box, and every point maps into the unit cube.", "quantifier": "every box (including degenerate and log-scaled axes) and point", "why_tests_cant": "Continuous input space.", "anchors": ["fvgp/gp_bo.py:_LogAffineTransform"]}
{"id": "C58", "title": "The Bayesian-optimisation budget is respected", "statement": "bayesian_optimize never evaluates the objective more than max_iter times.", "quantifier": "every objective, budget, stop signal", "why_tests_cant": "All budgets and behaviours.", "anchors": ["fvgp/gp_bo.py:bayesian_optimize", "fvgp/gp_bo.py:default_initial_design_size"]}
{"id": "C59", "title": "The Bayesian-optimisation recommendation is an evaluated point no worse than the start", "statement": "The recommended hyperparameters are inside the bounds and were actually evaluated; with an exact objective their value is the smallest evaluated one, hence not worse than the start.", "quantifier": "every objective and history of evaluations", "why_tests_cant": "All evaluation histories.", "anchors": ["fvgp/gp_bo.py:bayesian_optimize"]}
{"id": "C60", "title": "Non-finite objective values cannot win", "statement": "A non-finite objective evaluation is stored as a finite penalty at least as large as every finite value seen so far, so it is never recommended when a finite evaluation precedes it with a smaller value.", "quantifier": "every evaluation history", "why_tests_cant": "All histories.", "anchors": ["fvgp/gp_bo.py:bayesian_optimize"]}
{"id": "C61", "title": "The multi-task data transform keeps exactly the observed entries", "statement": "The single-task view of multi-task data contains one point per non-NaN output entry, with the input row, the task index, the value and the noise of that entry, and nothing else.", "quantifier": "every data matrix and missing-value pattern", "why_tests_cant": "All missing patterns.", "anchors": ["fvgp/fvgp.py:_transform_index_set2"]}
{"id": "C62", "title": "Appending multi-task data gives the same model as supplying it at once", "statement": "After appending multi-task data, the single-task view is a permutation of the view of the stacked data and the stored multi-task data are the stacked data; hence predictions agree.", "quantifier": "every data matrix, split and missing-value pattern", "why_tests_cant": "All splits and patterns.", "anchors": ["fvgp/fvgp.py:update_gp_data", "fvgp/fvgp.py:_transform_index_set2"]}
{"id": "C63", "title": "The support-aware sparse kernel equals the dense kernel", "statement": "The sparse compactly supported kernel returns the same matrix as its dense version: pruned blocks and omitted pairs are exactly those with value zero.", "quantifier": "every pair of point sets and hyperparameters", "why_tests_cant": "Continuous input space.", "anchors": ["fvgp/kernels.py:wendland_anisotropic_gp2Scale_cpu_sparse", "fvgp/kernels.py:_wendland_support_aware_cpu_triplets", "fvgp/kernels.py:wendland_anisotropic_gp2Scale_cpu"]}
{"id": "C64", "title": "Stationary kernels are bounded and normalised", "statement": "Each stationary kernel equals 1 at distance zero, lies in (0,1] (or [0,1] with support radius), and is non-increasing in distance.", "quantifier": "every distance and length scale", "why_tests_cant": "Continuous input space.", "anchors": ["fvgp/kernels.py:squared_exponential_kernel", "fvgp/kernels.py:exponential_kernel", "fvgp/kernels.py:matern_kernel_diff1", "fvgp/kernels.py:matern_kernel_diff2", "fvgp/kernels.py:sparse_kernel", "fvgp/kernels.py:wendland_kernel", "fvgp/kernels.py:bump"]}
{"id": "C65", "title": "Robust kernel variants are re-parametrisations", "statement": "Each 'robust' kernel with parameter phi equals the plain kernel with length 1/phi^2.", "quantifier": "every distance and parameter", "why_tests_cant": "Continuous input space.", "anchors": ["fvgp/kernels.py:squared_exponential_kernel_robust", "fvgp/kernels.py:exponential_kernel_robust", "fvgp/kernels.py:matern_kernel_diff1_robust", "fvgp/kernels.py:matern_kernel_diff2_robust"]}
{"id": "C66", "title": "Linear, polynomial, dot-product and feature kernels are positive semidefinite", "statement": "The Gram matrix of each inner-product-type kernel (and of the basis-function non-stationary kernel) is symmetric positive semidefinite for admissible hyperparameters.", "quantifier": "every point set and admissible hyperparameters", "why_tests_cant": "Continuous input space.", "anchors": ["fvgp/kernels.py:linear_kernel", "fvgp/kernels.py:polynomial_kernel", "fvgp/kernels.py:dot_product_kernel", "fvgp/kernels.py:non_stat_kernel"]}
{"id": "C67", "title": "Default kernel gradient is the derivative of the default kernel", "statement": "The analytical hyperparameter gradient of the default kernel equals its partial derivatives, including at coincident points.", "quantifier": "every pair of points and positive length scales", "why_tests_cant": "Derivative identity.", "anchors": ["fvgp/gp_prior.py:_default_kernel_analytical_gradient", "fvgp/kernels.py:matern_kernel_diff1_grad"]}
{"id": "C68", "title": "GGMP hyperparameter packing is lossless", "statement": "Packing weights and per-component hyperparameters into one vector and unpacking returns the originals, and bounds are packed in the same order.", "quantifier": "every number of components and parameters", "why_tests_cant": "All shapes.", "anchors": ["fvgp/ggmp.py:hyperparameters"]}
{"id": "C69", "title": "EM weights stay on the simplex", "statement": "Every EM weight update returns non-negative weights (not below the floor before renormalisation) that sum to one, and terminates within the iteration limit.", "quantifier": "every density table and start weights", "why_tests_cant": "Continuous input space, unbounded iterations.", "anchors": ["fvgp/ggmp.py:optimize_weights_em_density", "fvgp/ggmp.py:optimize_weights_em_multivariate_samples"]}
{"id": "C70", "title": "EM never decreases the mixture log likelihood", "statement": "Without the weight floor, each EM iteration does not decrease the weighted mixture log likelihood.", "quantifier": "every positive density table", "why_tests_cant": "Continuous input space.", "anchors": ["fvgp/ggmp.py:optimize_weights_em_density"]}
{"id": "C71", "title": "Mixture variance obeys the law of total variance", "statement": "The GGMP predictive mean is the weighted mean of component means, and its variance is the within-component plus between-component variance, non-negative and at least the weighted component variance.", "quantifier": "every weights, means, variances", "why_tests_cant": "Continuous input space.", "anchors": ["fvgp/ggmp.py:posterior_mean", "fvgp/ggmp.py:posterior_variance"]}
{"id": "C72", "title": "Component alignment only permutes", "statement": "Aligning local mixtures re-orders the components of every input by a permutation and moves means, covariances and weights together; the reference input is unchanged.", "quantifier": "every list of local mixtures and every assignment-solver outcome", "why_tests_cant": "All permutations.", "anchors": ["fvgp/ggmp.py:align_local_gmms_sequence", "fvgp/ggmp.py:align_local_gmms_mst"]}
{"id": "C73", "title": "Tree traversal visits every input after its parent", "statement": "The traversal order of the input spanning tree starts at the root, contains every input exactly once, and every other input appears after its parent.", "quantifier": "every tree", "why_tests_cant": "All graphs.", "anchors": ["fvgp/ggmp.py:build_input_mst"]}
{"id": "C74", "title": "Normalised densities integrate to one", "statement": "The density normalisation returns non-negative values whose Riemann sum with the returned spacing is one.", "quantifier": "every density table and grid", "why_tests_cant": "Continuous input space.", "anchors": ["fvgp/ggmp.py:_normalize_pdf"]}
{"id": "C75", "title": "Asynchronous snapshots are consistent", "statement": "Every snapshot read from a running asynchronous optimizer is either empty or a complete record of one past iteration; successive reads never go back in time.", "quantifier": "every interleaving of reads and iterations", "why_tests_cant": "Interleavings.", "anchors": ["fvgp/gp_actor.py:_MCMCActor", "fvgp/gp_actor.py:_AdamActor", "fvgp/gp_actor.py:_BOActor"]}
{"id": "C76", "title": "A stop request ends an asynchronous run", "statement": "After stop() is called the optimizer performs at most one further iteration, wherever the call lands.", "quantifier": "every interleaving of stop with start and iterations", "why_tests_cant": "Interleavings.", "anchors": ["fvgp/gp_actor.py:_MCMCActor", "fvgp/gp_actor.py:_AdamActor", "fvgp/gp_actor.py:_BOActor", "fvgp/gp_actor.py:AsyncOptimizer"]}
{"id": "C77", "title": "Error metrics obey their defining inequalities", "statement": "rmse, mae, interval width and interval score are non-negative and zero only for perfect predictions; mae <= rmse; coverage lies in [0,1] and is monotone in the level; r2 <= 1; the interval score is at least the interval width.", "quantifier": "every prediction and truth", "why_tests_cant": "Continuous input space.", "anchors": ["fvgp/gp.py:rmse", "fvgp/gp.py:mae", "fvgp/gp.py:picp", "fvgp/gp.py:mpiw", "fvgp/gp.py:interval_score", "fvgp/gp.py:r2"]}
{"id": "C78", "title": "Only one live GP per cluster client", "statement": "Creating a gp2Scale GP on a client that already serves a live GP raises; after the first one is gone creation succeeds.", "quantifier": "every sequence of creations and deletions", "why_tests_cant": "Unbounded histories.", "anchors": ["fvgp/gp.py:__init__"]}
{"id": "C79", "title": "Measured noise is used only at the measured points", "statement": "Noise variances given by the user are attached to the training points they belong to; at other points the average is used.", "quantifier": "every prediction set", "why_tests_cant": "All sizes.", "anchors": ["fvgp/gp_likelihood.py:_measured_noise_function", "fvgp/gp_posterior.py:add_noise"]}
{"id": "C80", "title": "K+V is the same whatever the storage format", "statement": "Adding noise to the covariance gives the entrywise sum for every admissible combination of dense/sparse covariance and vector/dense/sparse noise, never modifies the stored covariance, and rejects other combinations.", "quantifier": "every matrix and format combination", "why_tests_cant": "All formats and sizes.", "anchors": ["fvgp/gp_kv.py:addKV"]}
{"id": "C81", "title": "Sparse indices never overflow their index type", "statement": "Every row and column index of an assembled covariance fits the index type the library picked for its shape, and the narrow 32-bit type is used exactly when both sides are below 2^31.", "quantifier": "every pair of sizes below 2^63 and every assembled covariance", "why_tests_cant": "Overflow only appears for matrices with more than two billion rows.", "anchors": ["fvgp/gp2Scale_covariance.py:index_dtype_for", "fvgp/gp2Scale_covariance.py:block_triplets", "fvgp/gp2Scale_covariance.py:assemble_triplets"]}
{"id": "C82", "title": "A rejected multi-task update changes nothing", "statement": "When fvGP.update_gp_data raises, the stored multi-task data (fvgp_x_data, fvgp_y_data, fvgp_noise_variances) are what they were before the call, and a later correct update works.", "quantifier": "every fvGP object and every update that raises", "why_tests_cant": "All states and all ways an update can be malformed.", "anchors": ["fvgp/fvgp.py:fvGP.update_gp_data", "fvgp/gp_data.py:GPdata.update", "fvgp/gp_data.py:GPdata.set_fvgp_data"]}
{"id": "C83", "title": "The gradient of the non-stationary basis kernel is its derivative", "statement": "non_stat_kernel_gradient returns the partial derivatives of non_stat_kernel with respect to every basis weight and to the basis width.", "quantifier": "every pair of points, basis locations, weights and non-zero width", "why_tests_cant": "Derivative identity over a continuous input space.", "anchors": ["fvgp/kernels.py:non_stat_kernel_gradient", "fvgp/kernels.py:non_stat_kernel"]}
{"id": "C84", "title": "The default kernel is positive semidefinite and the default model is always accepted", "statement": "The exponential and Matern kernels of the Euclidean distance, and the default anisotropic Matern kernel with non-negative amplitude, have positive semidefinite Gram matrices in every dimension; therefore a GP with the default kernel and positive noise can be constructed for every data set, repeated points included.", "quantifier": "every dimension, point set, amplitude, length scales and linear-algebra mode", "why_tests_cant": "Positive semidefiniteness over all finite point sets in every dimension.", "anchors": ["fvgp/gp_prior.py:_default_kernel", "fvgp/kernels.py:matern_kernel_diff1", "fvgp/kernels.py:matern_kernel_diff2", "fvgp/kernels.py:exponential_kernel"]}
{"id": "C85", "title": "Distances between densities", "statement": "The Bhattacharyya distance of two positive densities is symmetric and non-negative; the one-dimensional Wasserstein distance is non-negative, symmetric, zero for equal densities and obeys the triangle inequality; the Kullback-Leibler divergence of a density from itself is zero.", "quantifier": "every pair or triple of positive densities on a common grid", "why_tests_cant": "Continuous input space; inequalities between all pairs of densities.", "anchors": ["fvgp/ggmp.py:bhattacharyya_distance", "fvgp/ggmp.py:kl_divergence", "fvgp/ggmp.py:wasserstein_1d"]}
{"id": "C86", "title": "Failures of asynchronous runs are visible", "statement": "If the objective raises inside an asynchronous training run, the caller can tell from get_latest() that the run has failed rather than being slow.", "quantifier": "every schedule and every failing objective", "why_tests_cant": "Concerns all interleavings of reads with the background thread.", "anchors": ["fvgp/gp_actor.py:_MCMCActor", "fvgp/gp_actor.py:_AdamActor", "fvgp/gp_actor.py:_BOActor"]}
{"id": "C87", "title": "Prediction intervals have the stated probability", "statement": "The interval used by picp and interval_score for level q has probability q under the predictive normal distribution.", "quantifier": "every mean, positive variance and level in (0,1)", "why_tests_cant": "Measure-theoretic identity over continuous parameters.", "anchors": ["fvgp/gp.py:picp", "fvgp/gp.py:interval_score", "fvgp/gp.py:mpiw"]}
{"id": "C88", "title": "crps is the continuous ranked probability score", "statement": "crps returns the mean over the test points of the integral of the squared difference between the predicted normal distribution function and the unit step at the observed value; it is positive, increases with the error and is within a fixed multiple of the standard deviation of the absolute error.", "quantifier": "every test set with positive variances", "why_tests_cant": "Identity between a closed form and an improper integral for all parameters.", "anchors": ["fvgp/gp.py:_crps_s", "fvgp/gp.py:crps"]}
{"id": "C89", "title": "Log density scores are the log densities", "statement": "nlpd is the mean negative logarithm of the predictive normal density, minimal in the variance at the squared error; msll is zero for the baseline prediction and differences of msll are differences of nlpd; gaussian_1d is the normal density.", "quantifier": "every test set with positive variances", "why_tests_cant": "Identities over continuous inputs.", "anchors": ["fvgp/gp.py:nlpd", "fvgp/gp.py:msll", "fvgp/gp.py:gaussian_1d"]}
{"id": "C90", "title": "Metrics never combine mismatching shapes", "statement": "Every metric refuses test values whose shape differs from that of the prediction instead of broadcasting.", "quantifier": "every shape of the test values", "why_tests_cant": "All shapes; the wrong value is silent.", "anchors": ["fvgp/gp.py:picp", "fvgp/gp.py:coverage_curve"]}
{"id": "C91", "title": "Metrics accept every test set of the documented shape", "statement": "For any number of test points every metric accepts test values of shape V (one output) or (V x No).", "quantifier": "every number of test points, outputs and tasks", "why_tests_cant": "All sizes, including the degenerate size one.", "anchors": ["fvgp/gp.py:rmse", "fvgp/gp.py:nlpd", "fvgp/gp_posterior.py:posterior_mean", "fvgp/gp_posterior.py:posterior_covariance"]}
{"id": "C92", "title": "Gradients with respect to the prediction point are derivatives of the prediction", "statement": "posterior_mean_grad returns, for every direction and component, the derivative of the posterior mean at the prediction point, also when hyperparameters are passed; posterior_covariance_grad returns the derivative of the posterior variance and covariance. The error is bounded by the change of the kernel slopes within the finite-difference step.", "quantifier": "every dataset, admissible kernel, mean and noise, prediction point, direction and component", "why_tests_cant": "Derivative statement with an error bound for all kernels and points.", "anchors": ["fvgp/gp_posterior.py:posterior_mean_grad", "fvgp/gp_posterior.py:posterior_covariance_grad", "fvgp/gp_prior.py:d_kernel_dx"]}
{"id": "C93", "title": "Default prior mean and default noise are the documented ones", "statement": "Without a mean function the prior mean is the average of all values at every point; without noise information the noise is uncorrelated with variance (0.01 * mean |y|)^2 at every point.", "quantifier": "every dataset, hyperparameter vector and set of points", "why_tests_cant": "All sizes, number of columns and values.", "anchors": ["fvgp/gp_prior.py:_default_mean_function", "fvgp/gp_likelihood.py:_default_noise_function"]}
{"id": "C94", "title": "Predictions are linear in the observed values", "statement": "With the default prior mean the posterior mean is linear in the observed values, constant data is predicted by the constant, shifting all values shifts the prediction, and the posterior covariance does not depend on the values.", "quantifier": "every dataset, kernel, hyperparameters, prediction points, scale and offset", "why_tests_cant": "Relation between two runs for all values.", "anchors": ["fvgp/gp_posterior.py:posterior_mean", "fvgp/gp_posterior.py:posterior_covariance", "fvgp/gp_likelihood.py:_default_noise_function"]}
{"id": "C95", "title": "Joint prior, entropy and entropy gradient", "statement": "joint_gp_prior returns the prior mean and the prior covariance (plus a diagonal jitter of at most 2e-9) at data and prediction points, positive definite even for repeated points; gp_entropy is the differential entropy 1/2 log det(2 pi e S) of that distribution; gp_entropy_grad is its derivative when the prediction points move, up to the finite-difference error.", "quantifier": "every dataset, positive semidefinite kernel, prediction set and direction", "why_tests_cant": "Derivative and definiteness statement for all kernels and point sets.", "anchors": ["fvgp/gp_posterior.py:joint_gp_prior", "fvgp/gp_posterior.py:joint_gp_prior_grad", "fvgp/gp_posterior.py:gp_entropy", "fvgp/gp_posterior.py:gp_entropy_grad"]}
{"id": "C96", "title": "MCMC proposals move only their own coordinates", "statement": "A hyperparameter that belongs to no proposal distribution keeps its start value for the whole MCMC run, and an iteration with one proposal distribution changes only the hyperparameters that distribution was created for.", "quantifier": "every list of proposal distributions, start vector, likelihood, prior, random outcome and number of iterations", "why_tests_cant": "A run-long invariant over all random outcomes and partitions of the hyperparameters.", "anchors": ["fvgp/gp_mcmc.py:gpMCMC.run_mcmc", "fvgp/gp_mcmc.py:ProposalDistribution"]}
{"id": "C97", "title": "Default MCMC break condition", "statement": "With the default break condition a run does not stop before iteration 1000 unless the requested number of updates is reached, and it stops at the first later iteration at which the documented moving averages agree.", "quantifier": "every likelihood, prior, proposal list, random outcome and number of updates", "why_tests_cant": "Quantifies over every iteration of arbitrarily long random runs.", "anchors": ["fvgp/gp_mcmc.py:gpMCMC._default_break_condition", "fvgp/gp_mcmc.py:gpMCMC.run_mcmc"]}
{"id": "C98", "title": "MCMC result describes the whole trace", "statement": "run_mcmc returns the positions and likelihoods of all iterations together with median, mean and variance of the last part of the trace.", "quantifier": "every run, whether it ends by number of updates or by break condition", "why_tests_cant": "All run lengths and both ways of ending.", "anchors": ["fvgp/gp_mcmc.py:gpMCMC.run_mcmc"]}
{"id": "C99", "title": "Warm starts come from a nearby system of the same shape", "statement": "With sparse_krylov_warm_start the iterative solver of a training evaluation starts from the solution of the previous evaluation exactly if the matrix has changed by at most the drift limit since, with the shape of the right-hand side; without it every evaluation starts from nothing and no solution is kept.", "quantifier": "every solver, matrix sequence, right-hand side, drift limit and refresh setting", "why_tests_cant": "Relation between consecutive evaluations for arbitrary matrices and failures in between.", "anchors": ["fvgp/gp_marginal_likelihood.py:_iterative_initial_guess", "fvgp/gp_kv.py:_validated_warm_start", "fvgp/gp_marginal_likelihood.py:compute_new_KVlogdet_KVinvY"]}
{"id": "C100", "title": "Early stop of Bayesian optimisation", "statement": "After early_stop has answered yes the objective is not evaluated again; stopped_early is reported exactly if it answered yes.", "quantifier": "every objective, budget, surrogate behaviour and answer sequence of early_stop", "why_tests_cant": "All poll sequences and all surrogate behaviours, including runs that raise.", "anchors": ["fvgp/gp_bo.py:bayesian_optimize"]}
{"id": "C101", "title": "stopping_reason tells why the search ended", "statement": "stopping_reason is 'converged' exactly if the last patience evaluations after the design left best value and best place within the tolerances, and the search never runs past such a point; 'ei_tolerance' only if the acquisition value fell below the tolerance; 'stopped' if early_stop answered yes; 'budget' only if the budget is used up or the surrogate failed.", "quantifier": "every objective, tolerance, patience, budget, surrogate and acquisition behaviour", "why_tests_cant": "Equivalence over all runs, needs the meaning of the stall counter as an invariant.", "anchors": ["fvgp/gp_bo.py:bayesian_optimize"]}
{"id": "C102", "title": "Callback of Bayesian optimisation reports the best point so far", "statement": "The callback is called once per evaluation, in order, with the best point among the evaluations made so far, its value and the evaluation's number.", "quantifier": "every run that returns", "why_tests_cant": "All run lengths and objective values including ties.", "anchors": ["fvgp/gp_bo.py:bayesian_optimize"]}
{"id": "C103", "title": "Analytic derivatives of the Bayesian-optimisation surrogate are derivatives", "statement": "The derivatives the surrogate is trained and searched with (kernel with respect to the query point, signal variance, each length scale and the learned noise level; noise with respect to its level above 1e-12) are the partial derivatives of the kernel and noise functions, also where two points coincide.", "quantifier": "all dimensions, points, signal variances, nonzero length scales", "why_tests_cant": "A finite-difference comparison covers sampled points; coincident points, where the distance is not differentiable, need an argument.", "anchors": ["fvgp/gp_bo.py:_surrogate_kernel_dx", "fvgp/gp_bo.py:_surrogate_kernel_grad", "fvgp/gp_bo.py:_homoscedastic_noise_grad"]}
{"id": "C104", "title": "Fitting the Bayesian-optimisation surrogate does not fail", "statement": "For every set of evaluated points (repeated points included), values and reported noise (zero and negative included), the surrogate's bounds are proper intervals of positive numbers, its starting point lies in them, and the surrogate is accepted for all hyperparameters in the bounds. The bounds of the signal variance are scaled by the variance of what the mean function leaves over.", "quantifier": "all dimensions, evaluated points, values, noise reports, least-squares answers", "why_tests_cant": "Near-duplicate designs are the rule late in a run; positive definiteness for all of them is not testable.", "anchors": ["fvgp/gp_bo.py:_fit_surrogate", "fvgp/gp_bo.py:_polynomial_mean"]}
{"id": "C105", "title": "The gradient search of the acquisition sees the surrogate's own prediction", "statement": "The mean, variance and gradients that _posterior_mean_var_and_grad returns at a point are the posterior mean and variance the surrogate GP reports there (variance raised to a small floor), and their derivatives.", "quantifier": "all fitted surrogates and points", "why_tests_cant": "Two code paths compute the same quantity; agreement at sampled points with one design size says nothing about the other mean function.", "anchors": ["fvgp/gp_bo.py:_posterior_mean_var_and_grad", "fvgp/gp_bo.py:_polynomial_mean_dx", "fvgp/gp_posterior.py:posterior_mean"]}
{"id": "C106", "title": "The acquisition is the expected improvement and its gradient is exact", "statement": "The acquisition value at a point is the expected improvement of the surrogate's normal prediction averaged over the sampled incumbents; it is positive; the returned gradient is its derivative; and the function the gradient search maximises is the function the random candidates are screened with.", "quantifier": "all fitted surrogates, incumbent samples and points (gradient: posterior variance not exactly at the floor)", "why_tests_cant": "Expectation and derivative are statements about all points, and the disagreement of the two implementations depends on the number of evaluations and the average of the values.", "anchors": ["fvgp/gp_bo.py:_noisy_expected_improvement", "fvgp/gp_bo.py:_nei_value_and_grad"]}
{"id": "C107", "title": "The proposal of the acquisition search is the best point seen", "statement": "The acquisition search proposes a point of the unit cube; the reported value is at least that of every random candidate and every successful local search and is the acquisition of the proposal; it fails only without candidates or restarts.", "quantifier": "all candidates, restarts, local searches that stay in the box", "why_tests_cant": "Depends on the outcomes of the external optimiser, all of which are quantified over.", "anchors": ["fvgp/gp_bo.py:_maximize_acquisition"]}
{"id": "C108", "title": "Laplace approximation of the hyperparameter posterior", "statement": "The curvature reported after Bayesian optimisation is symmetric and, for a surrogate quadratic in the searched coordinates, its exact Hessian in those coordinates; a covariance is returned exactly when the curvature is positive definite, and it is then positive definite and its inverse.", "quantifier": "all dimensions, spans, surrogates, points", "why_tests_cant": "The change of coordinates and the exactness hold for all spans and matrices only by proof.", "anchors": ["fvgp/gp_bo.py:_laplace_posterior"]}
{"id": "C109", "title": "One-dimensional Wasserstein distance between observation rows", "statement": "kernels.wasserstein_1d of two rows is the least mean displacement over all ways of matching their entries; it is zero on equal rows, symmetric, obeys the triangle inequality and is zero exactly when one row is a permutation of the other, so an exponential kernel of it is positive semidefinite on rows of one length. Claim of the documentation examined: rows as unnormalised measures.", "quantifier": "all row lengths and entries", "why_tests_cant": "Optimality ranges over all matchings; the triangle inequality and positive semidefiniteness over all rows.", "anchors": ["fvgp/kernels.py:wasserstein_1d", "fvgp/kernels.py:wasserstein_1d_outer_vec"]}
{"id": "C110", "title": "Gaussian 2-Wasserstein distance", "statement": "gaussian_w2_squared is the least mean squared displacement over all couplings of the two normal distributions; it is symmetric, non-negative, zero for equal arguments and positive for different ones.", "quantifier": "all dimensions, means and covariances; exactness for covariances of at least 1e-6", "why_tests_cant": "Minimality over all couplings cannot be sampled.", "anchors": ["fvgp/ggmp.py:gaussian_w2_squared", "fvgp/ggmp.py:_sqrtm_psd", "fvgp/ggmp.py:_sym_psd"]}
{"id": "C111", "title": "Energy distance of samples", "statement": "energy_distance_multivariate equals 2 E|X-Y| - E|X-X'| - E|Y-Y'| of the empirical distributions, which is never negative, so the clipping never acts; it is symmetric and zero for samples of the same empirical distribution, whatever their sizes.", "quantifier": "all sample sizes, dimensions and points", "why_tests_cant": "That a clip at zero never hides a negative value is a statement about all samples (negative type of the Euclidean distance).", "anchors": ["fvgp/ggmp.py:energy_distance_multivariate"]}
{"id": "C112", "title": "Maximum mean discrepancy of samples", "statement": "mmd_rbf does not depend on the order of its arguments or of the points, also with the default bandwidth; it is NaN exactly for one-point samples; on identical samples it is not positive; for a given bandwidth and independent samples its expectation is the squared discrepancy of the two distributions (it is unbiased).", "quantifier": "all sample sizes of at least two, dimensions, bandwidths and probability distributions", "why_tests_cant": "Unbiasedness is an identity between integrals over all samples of arbitrary distributions.", "anchors": ["fvgp/ggmp.py:mmd_rbf"]}
{"id": "C113", "title": "Fixed-weight mixture fit", "statement": "fit_gmm_fixed_weights raises only for an empty series; it iterates its EM step from the given means until no mean moves by tol or max_iter is reached; with at least one iteration means stay within the range of the data and variances are at least 1e-6; a step does not lower the likelihood by more than the added 1e-6 costs; the fit does not depend on the order in which components are listed, and the returned means belong to the weights passed in.", "quantifier": "all series, weights, initial means, iteration limits and tolerances", "why_tests_cant": "EM ascent and order independence are statements about every data set; the failure with reordered weights appears only when components cross.", "anchors": ["fvgp/ggmp.py:fit_gmm_fixed_weights"]}
{"id": "C114", "title": "Cache of local mixture fits", "statement": "Over any sequence of calls with caching, in any order and with any overlap of stations, the results are those of uncached calls; a stored station is one that was asked for and fitted successfully; cached stations are not refitted; results are never taken from a fit with other parameters or another series.", "quantifier": "all sequences of calls, station lists, parameters and fitting routines", "why_tests_cant": "The claim is about all call histories sharing a directory.", "anchors": ["fvgp/ggmp.py:fit_station_gmms_fixed_weights_cached"]}
{"id": "C115", "title": "Training of component GPs in chunks and in parallel", "statement": "train_gp_mcmc_until_converged chains chunks, each starting at the end of the one before, records them, and stops with the first chunk after which the last patience chunks changed the hyperparameters by less than tol_rel or max_total iterations are reached, never running more than max_total; train_component_gps_mcmc returns the hyperparameters of component k at place k whatever the order in which parallel workers finish, and fails exactly when a component fails.", "quantifier": "all training routines, chunk sizes, limits, tolerances, numbers of components and completion orders", "why_tests_cant": "Completion orders are chosen by the scheduler; the stopping rule is about every trajectory.", "anchors": ["fvgp/ggmp.py:train_gp_mcmc_until_converged", "fvgp/ggmp.py:train_component_gps_mcmc"]}
{"id": "C116", "title": "Multivariate mixtures: likelihood, sampling and fit", "statement": "loglik_multivariate_mixture_samples at y is the logarithm of the weighted sum of the normal densities with the symmetrised, ridged covariances, raises exactly when one of them is not positive definite, does not depend on the order of components, and its exponential integrates to the total weight; sample_gmm_multivariate draws independent rows with the mixture as law, rejects weights that are no distribution; every covariance storage (full, diag, spherical, tied) is expanded to the covariance it stands for; fit_gmm_free_weights_multivariate returns weights on the simplex, weights, means and covariances of the same component together, sorted by mean if asked for in one dimension.", "quantifier": "all numbers of components, dimensions, weights, means, covariances, points, generators and sample sizes", "why_tests_cant": "Density, law and independence are statements about all points and all outcomes of the generator.", "anchors": ["fvgp/ggmp.py:_log_mvn_density", "fvgp/ggmp.py:loglik_multivariate_mixture_samples", "fvgp/ggmp.py:sample_gmm_multivariate", "fvgp/ggmp.py:fit_gmm_free_weights_multivariate", "fvgp/ggmp.py:_covariances_to_full"]}
{"id": "C117", "title": "Sliced Wasserstein distance of samples", "statement": "sliced_wasserstein_distance is defined exactly for samples that are not empty, symmetric, not negative, satisfies the triangle inequality for a fixed random_state, never exceeds the work of any transport plan between the samples, is zero for samples in which every point has the same share and, with probability one over the directions, only for them; in one dimension it is the optimal transport cost whatever the random_state; it is an unbiased estimate of the mean over directions and converges to it with the number of projections.", "quantifier": "all samples of all sizes and dimensions, numbers of projections and draws of the generator", "why_tests_cant": "Metric laws, optimality over all plans and almost sure statements range over infinitely many samples and directions.", "anchors": ["fvgp/ggmp.py:sliced_wasserstein_distance", "fvgp/ggmp.py:_as_2d"]}
{"id": "C118", "title": "A train call is resolved into a run that optimises what was asked for", "statement": "train runs asynchronously exactly when asked to, for a method that supports it and without gp2Scale, on the given client or else that of the GP; gp2Scale keeps mcmc and bo and turns every other method into synchronous mcmc; the call is rejected exactly if an asynchronous run has no client or an objective of the user has no gradient for local or hgdl; mcmc is given the log likelihood, every other method the objective of the user or else the negative log likelihood; gradient and Hessian handed to the optimizer are those of the objective; only a vector returned by the optimizer becomes the hyperparameters.", "quantifier": "all combinations of method, mode, clients, objective, gradient, Hessian and Bayesian-optimisation arguments, all likelihoods and objectives", "why_tests_cant": "The cases multiply and coherence of objective and derivative is a statement about functions on all of hyperparameter space.", "anchors": ["fvgp/gp.py:train", "fvgp/gp_training.py:train"]}
{"id": "C119", "title": "Default hyperparameters and bounds fit the data", "statement": "A GP built without hyperparameters starts from ones if inputs are Euclidean and kernel, mean and noise are the defaults, and is rejected otherwise. The default training bounds are a hundredth to ten times the variance of all values and of the extent of every input column, follow the units and ignore shifts and order of the data, are positive and nonempty exactly if values and every column vary, and then every hyperparameter vector within them (so every start of a training) gives a valid model in every linear-algebra mode.", "quantifier": "all data sets, dimensions, constructor arguments, start vectors and vectors within the bounds", "why_tests_cant": "Validity is claimed for a continuum of hyperparameters and all data sets; degenerate data are rare in tests.", "anchors": ["fvgp/gp.py:__init__", "fvgp/gp.py:_get_default_hyperparameter_bounds", "fvgp/gp_prior.py:_default_kernel"]}
{"id": "C120", "title": "GGMP work flow keeps components, GPs, weights and hyperparameters in step", "statement": "GGMP.initLikelihoods seeds every component from the mean and variance of the normalised empirical densities: the mean of a station lies on its grid, does not depend on the scale of the density and moves with the grid, the variance is at least 1e-6, the default components are distinct and centred on the station means, the default weights are 1/K. initGPs builds one GP per component from the moments of that component and stores exactly the hyperparameters of the GPs in hps_obj. When train returns, every component was trained on its own bounds from its own start, the returned hyperparameters, hps_obj, the GPs and the weights agree, the weights are positive and sum to one, and data and moments are unchanged. A GGMP is created exactly if there are as many points as densities. Calls out of order raise the documented ValueError. Training from the current hyperparameters does not set them first.", "quantifier": "all numbers of components and stations, all grids and densities, all hyperparameter sets and bounds, all optimisers and predictions of the component GPs, all failures in between", "why_tests_cant": "Tests run the documented sequence on a few densities with several components; they do not cover one component, failures in the middle of a training, starts outside the bounds or calls out of order, and cannot quantify over optimisers.", "anchors": ["fvgp/ggmp.py:GGMP.__init__", "fvgp/ggmp.py:GGMP.__getattr__", "fvgp/ggmp.py:initLikelihoods", "fvgp/ggmp.py:initGPs", "fvgp/ggmp.py:GGMP.train", "fvgp/ggmp.py:_safe_set_hyperparameters", "fvgp/ggmp.py:prepare_station_terms_density"]}
{"id": "C121", "title": "Keyword arguments and devices reach the component GPs", "statement": "GGMP hands every keyword of gp_init_kwargs that GP knows to every component GP, with the kernel and mean function of the component and its noise variances; compute_device fills the device keys of args that are not given and never overrides given ones; device ids are used exactly if a GPU is asked for and exists, are never empty and always exist; without a GPU everything is told to use the CPU; unknown keywords are reported; the constructor retry loop ends and never drops a required keyword; the device context restores the device and passes success and exceptions of its body on.", "quantifier": "all keyword arguments, device requests, numbers of GPUs, constructor behaviours, engines and bodies", "why_tests_cant": "Depends on the number and state of GPUs and on constructor versions that are not present on a test machine.", "anchors": ["fvgp/ggmp.py:initGPs", "fvgp/ggmp.py:_normalize_gp_kwargs", "fvgp/ggmp.py:_safe_gp_init", "fvgp/ggmp.py:_make_component_gp", "fvgp/ggmp.py:_gpu_device"]}
{"id": "C122", "title": "Polling a finished asynchronous run gives what the synchronous run returns", "statement": "When an asynchronous Adam, MCMC or BO run is over, get_latest reports the same hyperparameters as train with the same arguments and random draws would return, together with the value and gradient norm (Adam), trace and tail statistics (MCMC) or recommendation (BO) that belong to them. A run whose stop flag is found cleared makes no further iteration.", "quantifier": "all objectives, gradients, priors, proposals, draws, budgets and times of stop requests", "why_tests_cant": "The two code paths run in different processes with different random streams; only a proof relates their results step by step.", "anchors": ["fvgp/gp_actor.py:_AdamActor", "fvgp/gp_actor.py:_MCMCActor", "fvgp/gp_actor.py:_BOActor", "fvgp/gp_training.py:adam_optimize", "fvgp/gp_mcmc.py:run_mcmc"]}
{"id": "C123", "title": "Starting, stopping and adopting asynchronous training", "statement": "train(asynchronous=True) starts at the same vector, inside the bounds, as the synchronous call and refuses the same starts; stop_training and kill_client never raise, end the run unless they warn, a warning means no training was running, and kill_client closes the Dask client; update_hyperparameters leaves the GP as if freshly built with the vector reported, keeps everything if nothing was reported yet and otherwise raises without changing anything.", "quantifier": "all bounds, starts, draws, methods, handles, states of client and workers, answers and GPs", "why_tests_cant": "Depends on unreachable workers, on handles of every kind and on all vectors that an optimizer may report.", "anchors": ["fvgp/gp_training.py:train_async", "fvgp/gp_training.py:stop_training", "fvgp/gp_training.py:kill_client", "fvgp/gp.py:update_hyperparameters", "fvgp/gp_actor.py:AsyncOptimizer"]}
{"id": "C124", "title": "Derivatives used when none are supplied", "statement": "If no derivative functions are supplied, the likelihood gradient uses central differences of kernel, mean and noise functions (zeros for default mean and noise), the same with and without ram_economy; each difference, the gradient of the likelihood built from them, the Hessian and the gradient check differ from the true derivatives by a stated multiple of the step and of higher derivatives; supplied derivative functions written for the chosen ram_economy are used; and the user's functions are evaluated within the bounds only.", "quantifier": "all kernels, means, noise functions, data, hyperparameters and combinations of supplied functions", "why_tests_cant": "Tests compare a few kernels at a few points with a tolerance; the error bound must hold for every smooth user function.", "anchors": ["fvgp/gp_prior.py:_dkernel_dh", "fvgp/gp_prior.py:_finitediff_dm_dh", "fvgp/gp_likelihood.py:_finitediff_dnoise_dh", "fvgp/gp_likelihood.py:_finitediff_dnoise_dh_econ", "fvgp/gp_marginal_likelihood.py:neg_log_likelihood_hessian", "fvgp/gp_marginal_likelihood.py:test_log_likelihood_gradient"]}
{"id": "C125", "title": "The storage type of hyperparameter arrays does not matter", "statement": "Gradients, Hessians, gradient checks and MCMC training from hyperparameters in an integer or single precision array are those for the same numbers in a double precision array.", "quantifier": "all hyperparameters, kernels, likelihoods, priors, proposals and draws", "why_tests_cant": "The result is a finite, plausible-looking vector; that it is not a derivative, or that a chain cannot leave the integer lattice, is a statement about all functions and all draws.", "anchors": ["fvgp/gp_prior.py:_dkernel_dh", "fvgp/gp_prior.py:_finitediff_dm_dh", "fvgp/gp_marginal_likelihood.py:neg_log_likelihood_hessian", "fvgp/gp_marginal_likelihood.py:test_log_likelihood_gradient", "fvgp/gp_mcmc.py:_jump"]}
{"id": "C126", "title": "Prediction grids", "statement": "make_1d_x_pred and make_2d_x_pred return the requested number of points, evenly spaced from the lower to the upper bound with both ends included; the 2d points come in the order in which reshaping a prediction to (resx, resy) puts the value at (x_i, y_j) at position i, j; no point leaves the bounds, no point is repeated and every location is at most half a spacing from a grid line; invalid resolutions raise.", "quantifier": "all bounds and resolutions", "why_tests_cant": "Tests use a few resolutions; order, spacing and covering must hold for all.", "anchors": ["fvgp/gp.py:make_1d_x_pred", "fvgp/gp.py:make_2d_x_pred"]}
{"id": "C127", "title": "gp2Scale time estimate", "statement": "get_gp2Scale_exec_time returns an estimate of the time the covariance computation needs with the given number of workers and time per block: no distribution of the blocks is faster, and some distribution comes close to it.", "quantifier": "all data sizes, batch sizes, numbers of workers, times per block and assignments of blocks to workers", "why_tests_cant": "A test checks the formula against itself; whether the formula describes the scheduled work is a statement about all schedules.", "anchors": ["fvgp/gp.py:get_gp2Scale_exec_time", "fvgp/gp_prior.py"]}
{"id": "C128", "title": "Deep kernel networks", "statement": "number_of_hps is the number of weights and biases; weights and biases that are set are read back to single precision; evaluation is the three-layer network they describe, point by point, fails exactly if the shapes do not fit together, moves nearby points to nearby points, and does not map different points to the same point.", "quantifier": "all dimensions, widths, weights, biases and points", "why_tests_cant": "The classes are excluded from the coverage of the tests; the claims are about all weights the training may propose.", "anchors": ["fvgp/deep_kernel_network.py:Network", "fvgp/deep_kernel_network.py:WarpNet"]}
{"id": "C129", "title": "Choice of the GPU engine", "statement": "A request for a GPU that cannot be met is followed by exactly one warning with the reason, and never by silence; an engine named in args is used everywhere or not at all, never replaced by the other one; without a name an engine is found whenever the machine has a usable GPU, torch first; an engine that is returned has a GPU that exists.", "quantifier": "all machines (packages, devices), all values of GPU_engine, GPU_device, GPU_device_index", "why_tests_cant": "The GPU branches are excluded from the coverage of the tests and need machines with different hardware.", "anchors": ["fvgp/gp_lin_alg.py:get_gpu_engine", "fvgp/gp_lin_alg.py:_torch_gpu_device", "fvgp/gp_lin_alg.py:gpu_engine_unavailable_reason", "fvgp/gp_marginal_likelihood.py:neg_log_likelihood_gradient"]}
{"id": "C130", "title": "Results do not depend on the device", "statement": "If the libraries compute the same values, all dense linear algebra functions return them for every device, engine, override in args and machine; without a GPU everything falls back to the CPU; NonPositiveDefiniteError means that the matrix is not positive definite; unknown devices raise; documented device entries of args have an effect.", "quantifier": "all machines, args, devices and behaviours of the libraries", "why_tests_cant": "Needs GPUs, failing GPUs and all combinations of options.", "anchors": ["fvgp/gp_lin_alg.py:calculate_Chol_factor", "fvgp/gp_lin_alg.py:calculate_Chol_solve", "fvgp/gp_lin_alg.py:calculate_Chol_logdet", "fvgp/gp_lin_alg.py:cholesky_update_rank_1", "fvgp/gp_lin_alg.py:calculate_logdet", "fvgp/gp_lin_alg.py:calculate_inv", "fvgp/gp_lin_alg.py:solve", "fvgp/gp_lin_alg.py:matmul", "fvgp/gp_lin_alg.py:calculate_random_logdet"]}
{"id": "C131", "title": "Reported variance of the likelihood", "statement": "log_likelihood_variance returns the variance of the most recent likelihood: a quarter of the variance of the stochastic log-determinant, which is on average the variance of the mean of the probes, and None if the likelihood was computed exactly. With it, the guard of training rejects hyperparameters that are not worse with probability at most 1/9, and compares exactly computed likelihoods strictly.", "quantifier": "all histories of evaluations, updates and cached readings; all modes; all distributions of the probes", "why_tests_cant": "Statement about distributions and about all histories; stale values are plausible numbers.", "anchors": ["fvgp/gp_lin_alg.py:calculate_random_logdet", "fvgp/gp_kv.py:_random_logdet", "fvgp/gp_kv.py:_set_gp2Scale_mode", "fvgp/gp_marginal_likelihood.py:log_likelihood_variance", "fvgp/gp.py:_reject_if_not_improved"]}
{"id": "C132", "title": "Changing args of a living GP", "statement": "After set_args, calling set_hyperparameters or overwriting the data makes the GP indistinguishable from one freshly built with the new args; until then predictions are those of the old args, and appending data works like appending to a GP with one set of args.", "quantifier": "all kernels, mean and noise functions that read args, all sequences of set_args, data updates and hyperparameter changes that did not raise", "why_tests_cant": "A statement about all histories; mixtures of old and new args are plausible numbers.", "anchors": ["fvgp/gp.py:set_args", "fvgp/gp.py:update_gp_data", "fvgp/gp.py:set_hyperparameters"]}
{"id": "C133", "title": "Which preconditioner is used", "statement": "A preconditioner named in the linear algebra mode is used by every solve of the GP; with other modes it is the one named in the current args, ilu if none; an unknown one gives an unpreconditioned solve and a warning, never another preconditioner. The dictionary passed at construction with such a mode is copied, so that later changes by the caller do not matter.", "quantifier": "all modes, dictionaries, and sequences of writes, new dictionaries and set_args", "why_tests_cant": "All histories of shared mutable dictionaries; a wrong preconditioner changes only the speed or the accuracy.", "anchors": ["fvgp/gp_kv.py:GPkv.__init__", "fvgp/gp_kv.py:_get_or_refresh_preconditioner", "fvgp/gp_lin_alg.py:calculate_sparse_preconditioner", "fvgp/gp.py:set_args"]}
{"id": "C134", "title": "GPU kernels", "statement": "The Wendland kernels on the GPU return the covariances of the CPU kernels up to a small relative error of the single precision, for all points; they are symmetric, and the sparse one evaluates one function point by point.", "quantifier": "all point sets, hyperparameters, engines and rounding functions", "why_tests_cant": "Needs GPUs; errors depend on the size of the coordinates, which tests take near the origin.", "anchors": ["fvgp/kernels.py:wendland_anisotropic_gp2Scale_gpu", "fvgp/kernels.py:_get_distance_matrix_gpu", "fvgp/kernels.py:wendland_anisotropic_gp2Scale_gpu_sparse", "fvgp/kernels.py:_wendland_support_aware_gpu_triplets"]}
{"id": "C135", "title": "Settings of the iterative solvers", "statement": "The iteration limit of CG and MINRES is their own entry of args, the common entry if their own is at its default, scipy's default otherwise, and does not depend on the entry of the other solver; the same for the tolerance with default 1e-5; block CG is used exactly if asked for and with blocks of one column is columnwise CG; MINRES solves the columns independently, warns once for each that failed and otherwise solved all of them.", "quantifier": "all dictionaries, right-hand sides, guesses, solvers that satisfy the contract of scipy", "why_tests_cant": "All combinations of settings and all behaviours of the solvers.", "anchors": ["fvgp/gp_lin_alg.py:_resolve_krylov_mode", "fvgp/gp_lin_alg.py:_resolve_krylov_maxiter", "fvgp/gp_lin_alg.py:calculate_sparse_minres", "fvgp/gp_lin_alg.py:calculate_sparse_conj_grad"]}
{"id": "C136", "title": "Sparse approximate inverse", "statement": "Every step of spai is the best one in the direction of the residual, so more steps never give an approximate inverse with a larger residual; for a symmetric matrix the result is symmetric and commutes with it; for a positive definite matrix no step fails, the squared residual shrinks by a factor below 1 that depends on the matrix only, and the results converge to the inverse whatever the estimate of the norm; once the residual is below 1 the result is positive definite, i.e. a preconditioner for CG.", "quantifier": "all matrices, all step numbers, all estimates of the norm", "why_tests_cant": "Convergence for every positive definite matrix and every result of the randomised norm estimate.", "anchors": ["fvgp/gp_lin_alg.py:spai"]}
{"id": "C137", "title": "The default kernel of gp2Scale is a covariance function", "statement": "The Wendland kernel of the (anisotropic) distance, which gp2Scale uses if no kernel is given, is symmetric positive semidefinite, so a model with positive noise variances is accepted whatever the points are.", "quantifier": "all numbers of coordinates, all finite sets of points, amplitudes >= 0, length scales != 0, all direct linear-algebra modes", "why_tests_cant": "All finite point sets; a violation needs special sets of points in many dimensions.", "anchors": ["fvgp/kernels.py:wendland_kernel", "fvgp/kernels.py:wendland_anisotropic", "fvgp/kernels.py:wendland_anisotropic_gp2Scale_cpu", "fvgp/gp_prior.py:__init__"]}
{"id": "C138", "title": "The warnings before a Bayesian optimisation are accurate", "statement": "train(method='bo') warns that no Bayesian optimisation will be performed exactly when the initial design takes the whole budget: then the result does not depend on surrogate or acquisition, the stated number is the number of evaluations made, and otherwise a run without failures evaluates a point proposed by the acquisition. There is one warning about the number of hyperparameters above 10 (a stronger one above 20). Following the advice in the warning (raise max_iter well above the stated number) restores the optimisation.", "quantifier": "all objectives, surrogates, acquisitions, stop signals, budgets, design sizes and numbers of hyperparameters", "why_tests_cant": "The absence of any influence of the surrogate is a statement about all surrogates and all objectives.", "anchors": ["fvgp/gp.py:GP._warn_about_bo_suitability", "fvgp/gp_bo.py:bayesian_optimize", "fvgp/gp_bo.py:default_initial_design_size"]}
{"id": "C139", "title": "MCMC traces on disk are whole, separate and aligned", "statement": "While component GPs are trained (possibly in parallel threads) a crash at any moment leaves each trace file either as it was or with a complete payload saved for exactly that component and tag; after a thread has finished, its files hold its last saves; files of different components and tags never overwrite each other; row j of a thinned file holds a position, its likelihood value and its time stamp.", "quantifier": "all interleavings of the writers, all crash points, all numbers of components and saves, all tags, thinnings and MCMC runs", "why_tests_cant": "Interleavings and crash points cannot be enumerated; alignment concerns every run.", "anchors": ["fvgp/ggmp.py:_atomic_savez", "fvgp/ggmp.py:_save_gp_mcmc_info", "fvgp/ggmp.py:train_component_gps_mcmc", "fvgp/gp_mcmc.py:run_mcmc"]}
{"id": "C140", "title": "Periodic and sparse kernels of a distance are covariance functions", "statement": "periodic_kernel and sparse_kernel, applied to the matrix of Euclidean distances as their signature asks, give positive semidefinite Gram matrices, so that a model using them with positive noise variances is accepted whatever the points are.", "quantifier": "all dimensions, length scales, periods and radii, all finite sets of points", "why_tests_cant": "Positive semidefiniteness concerns every finite set of points; the sets that break it are special.", "anchors": ["fvgp/kernels.py:periodic_kernel", "fvgp/kernels.py:sparse_kernel", "fvgp/kernels.py:get_distance_matrix"]}
{"id": "C141", "title": "Block conjugate gradients solve every system they are given", "statement": "For a positive definite K+V and a positive definite preconditioner, the block mode of the conjugate gradient solver returns a solution of every right-hand side within the tolerance, in at most n/k + 1 iterations for n unknowns and k right-hand sides; every iterate is the best approximation that its number of iterations can reach, so the result is never worse than the initial guess.", "quantifier": "all positive definite matrices and preconditioners, right-hand sides, initial guesses and tolerances", "why_tests_cant": "Optimality and finite termination concern every system and every iterate; breakdowns need special right-hand sides.", "anchors": ["fvgp/gp_lin_alg.py:_block_conjugate_gradient", "fvgp/gp_lin_alg.py:calculate_sparse_conj_grad"]}
{"id": "C142", "title": "GGMP objects survive copying and pickling, and calls of missing methods are reported", "statement": "copy.copy, copy.deepcopy and a pickle round trip of a GGMP, hyperparameters or NormalLikelihood object give an object with the same attributes; using an attribute or method that does not exist raises AttributeError.", "quantifier": "all objects, attribute names and arguments, all pickle protocols and Python versions", "why_tests_cant": "The claim is about every attribute name, including those a test does not think of; the failure mode is silent.", "anchors": ["fvgp/ggmp.py:GGMP.__getattr__", "fvgp/ggmp.py:hyperparameters", "fvgp/ggmp.py:NormalLikelihood"]}
{"id": "C143", "title": "Scores are proper for the values the GP predicts", "statement": "If the test values are distributed as the GP says (posterior mean, posterior variance plus noise variance), then the expected interval score, nlpd and crps of the GP are not larger than those of any other prediction, the expected coverage is the level, and msll is negative when the GP predicts the values better than the baseline.", "quantifier": "all predictions with positive variances, all joint distributions of the test values with the predicted marginals, all levels in (0,1)", "why_tests_cant": "Expectations over continuous distributions, and a comparison with all other predictions.", "anchors": ["fvgp/gp.py:nlpd", "fvgp/gp.py:crps", "fvgp/gp.py:msll", "fvgp/gp.py:interval_score", "fvgp/gp.py:picp"]}
{"id": "C144", "title": "The MCMC run samples prior times likelihood", "statement": "If the start of run_mcmc is distributed with density proportional to prior times likelihood, then so is every recorded position.", "quantifier": "all measurable likelihoods and priors on all dimensions, all lists of proposal objects on any subsets of the hyperparameters, all numbers of updates", "why_tests_cant": "A statement about probability distributions on a continuous space; a test sees finitely many samples and cannot separate a small bias from chance.", "anchors": ["fvgp/gp_mcmc.py:gpMCMC.run_mcmc", "fvgp/gp_mcmc.py:gpMCMC._jump", "fvgp/gp_mcmc.py:ProposalDistribution.normal_proposal_dist"]}
{"id": "C145", "title": "Information about a set of points is at least that about any part of it", "statement": "gp_relative_information_entropy, gp_mutual_information and gp_total_correlation of a set of prediction points are at least their values for any part of the set and do not depend on the order of the points; gp_relative_information_entropy_set returns the single-point values; points uncorrelated with the data have value zero; the value tells how much an observation there would gain.", "quantifier": "all data, positive semidefinite kernels, noise models, factorisation modes, prediction sets and parts of them", "why_tests_cant": "An inequality between determinants and quadratic forms of all sizes; a test compares a few matrices.", "anchors": ["fvgp/gp_posterior.py:GPposterior.gp_relative_information_entropy", "fvgp/gp_posterior.py:GPposterior.gp_relative_information_entropy_set", "fvgp/gp_posterior.py:GPposterior.gp_mutual_information", "fvgp/gp_posterior.py:GPposterior.gp_total_correlation"]}
{"id": "C146", "title": "Noise-free data are accepted exactly if the inputs are distinct", "statement": "With one of the supplied kernels, data with noise variances zero are accepted if and only if no input occurs twice; they are then reproduced exactly by the posterior mean, and the posterior variance is zero at the data points and positive everywhere else (positive off the data also with noise and repeated points).", "quantifier": "all data sets, numbers of dimensions, hyperparameters and direct linear-algebra modes", "why_tests_cant": "Positive definiteness for every finite set of distinct points, in any dimension; a test factorises a few matrices, and rounding hides the difference between small and zero.", "anchors": ["fvgp/kernels.py:squared_exponential_kernel", "fvgp/kernels.py:exponential_kernel", "fvgp/kernels.py:matern_kernel_diff1", "fvgp/kernels.py:matern_kernel_diff2", "fvgp/kernels.py:wendland_anisotropic", "fvgp/kernels.py:non_stat_kernel", "fvgp/kernels.py:periodic_kernel", "fvgp/gp_prior.py:GPprior._default_kernel", "fvgp/gp_likelihood.py:GPlikelihood._measured_noise_function"]}
{"id": "C147", "title": "A proposal object does what its constructor arguments say", "statement": "ProposalDistribution draws with the covariance it was given, adapts only if adaptation was requested, refuses arguments it cannot use, does not share its state with other objects, and every run_mcmc uses the acceptance rates of its own run.", "quantifier": "all combinations of proposal_dist, init_prop_Sigma, adapt_callable and prop_args, all dimensions, all earlier runs", "why_tests_cant": "The combinations multiply, errors appear only at the first draw or the first adaptation, and sharing of a dictionary between objects is invisible in single-object tests.", "anchors": ["fvgp/gp_mcmc.py:ProposalDistribution.__init__", "fvgp/gp_mcmc.py:ProposalDistribution._adapt", "fvgp/gp_mcmc.py:ProposalDistribution.normal_proposal_dist", "fvgp/gp_mcmc.py:gpMCMC.run_mcmc"]}
{"id": "C148", "title": "The adaptation of the MCMC proposals dies out", "statement": "Within bounds, the proposal covariances stay bounded and change by less and less: by at most (M + 2R^2)/(i/K+3)^c1 at iteration i, uniformly in likelihood, draws and start; they stay positive definite; the initial covariance keeps the weight prod(1-(j+4)^-c1), which tends to zero exactly for exponents up to one.", "quantifier": "every run, all likelihoods, draws, starts, proposal objects with K of at least 3 and positive c_1", "why_tests_cant": "A uniform limit over all random runs (the diminishing-adaptation condition of adaptive MCMC).", "anchors": ["fvgp/gp_mcmc.py:ProposalDistribution._adapt", "fvgp/gp_mcmc.py:gpMCMC.run_mcmc"]}
{"id": "C149", "title": "Learning in two steps is learning at once", "statement": "A GP of all observations predicts what the GP of the first observations predicts after conditioning its posterior on the remaining ones, and its log likelihood is that of the first observations plus the log of the density the first GP predicts (posterior mean, posterior covariance with add_noise=True) for the remaining values.", "quantifier": "all kernels, prior means, data, splits into two parts with uncorrelated noise, hyperparameters, prediction points, linear algebra modes (likelihood: except sparseSolve)", "why_tests_cant": "An identity between two GP objects over all data and splits; a test compares a few numbers within a tolerance.", "anchors": ["fvgp/gp_posterior.py:GPposterior.posterior_mean", "fvgp/gp_posterior.py:GPposterior.posterior_covariance", "fvgp/gp_posterior.py:GPposterior.add_noise", "fvgp/gp_marginal_likelihood.py:GPMarginalLikelihood.log_likelihood"]}
{"id": "C150", "title": "Repeated measurements count as their average", "statement": "Measuring a point several times gives the predictions of measuring it once with the precision-weighted average of the values and the inverse sum of the inverse noise variances, and the two log likelihoods differ by a constant that does not depend on the hyperparameters, so both have the same optimum.", "quantifier": "all kernels, prior means, data, groupings of observations into repetitions, positive noise variances, hyperparameters, prediction points", "why_tests_cant": "An identity over all data sets with repetitions, between matrices of different sizes.", "anchors": ["fvgp/gp_posterior.py:GPposterior.posterior_mean", "fvgp/gp_posterior.py:GPposterior.posterior_covariance", "fvgp/gp_marginal_likelihood.py:GPMarginalLikelihood.log_likelihood", "fvgp/gp_likelihood.py:GPlikelihood._measured_noise_function"]}
{"id": "C151", "title": "Observations out of reach change nothing", "statement": "If the kernel vanishes between two groups of observations and their errors are uncorrelated, predictions at points out of reach of one group are those of a GP of the other group alone, and the log likelihood is the sum of the two log likelihoods.", "quantifier": "all symmetric kernels, data, splits into groups without correlation, hyperparameters, prediction points, linear algebra modes (likelihood: except sparseSolve); with the compactly supported kernel all groups at scaled distance of at least one", "why_tests_cant": "Concerns all data sets and kernels; compactly supported kernels make it the normal case for large data.", "anchors": ["fvgp/gp_posterior.py:GPposterior.posterior_mean", "fvgp/gp_posterior.py:GPposterior.posterior_covariance", "fvgp/gp_marginal_likelihood.py:GPMarginalLikelihood.log_likelihood", "fvgp/kernels.py:wendland_anisotropic"]}
{"id": "C152", "title": "One observation moves predictions towards itself, less the noisier it is", "statement": "One more observation changes the prediction at x by cov(x,b)/(var(b)+t) times its deviation from the prediction at b, and the variance at x falls by cov(x,b)^2/(var(b)+t). At b the new prediction lies between the old one and the observed value and meets it if t=0; the change of the mean anywhere is at most |cov(x,b)| |z-mean(b)|/t, so an observation with huge noise counts as none.", "quantifier": "all positive semidefinite kernels, data, new points, values and noise variances, prediction points", "why_tests_cant": "A formula and bounds over all data, points and noise levels, including the limit of large noise.", "anchors": ["fvgp/gp_posterior.py:GPposterior.posterior_mean", "fvgp/gp_posterior.py:GPposterior.posterior_covariance", "fvgp/gp_likelihood.py:GPlikelihood.calculate_V"]}
{"id": "C153", "title": "Units of measurement do not matter", "statement": "Expressing values and coordinates in other units (values a*v+s, coordinates c_i*x_i+t_i, noise variances a^2*v, default-kernel amplitude times a^2, length scales times |c_i|) converts the predictions: means become a*m+s, variances and covariances are multiplied by a^2, the log likelihood changes by -n*log|a|, and which hyperparameters are better does not change.", "quantifier": "all data, units and origins (also negative factors), hyperparameters, prediction points, linear algebra modes (likelihood: except sparseSolve)", "why_tests_cant": "An equivariance over all data and all conversions; a test tries a few conversions within a tolerance.", "anchors": ["fvgp/gp_prior.py:GPprior._default_kernel", "fvgp/gp_prior.py:GPprior._default_mean_function", "fvgp/gp_likelihood.py:GPlikelihood._default_noise_function", "fvgp/gp_likelihood.py:GPlikelihood._measured_noise_function", "fvgp/gp_posterior.py:GPposterior.posterior_mean", "fvgp/gp_posterior.py:GPposterior.posterior_covariance", "fvgp/gp_marginal_likelihood.py:GPMarginalLikelihood.log_likelihood"]}
{"id": "C154", "title": "The numbering of the tasks does not matter", "statement": "Storing the tasks of a multi-task data set in another column order (values, missing entries and noise variances), with kernel, mean and noise function that know the tasks by their new numbers, gives the same posterior mean, variance and covariance for every task and the same log likelihood.", "quantifier": "all numbers of tasks, permutations, data with missing entries, kernels, means, noise (given, default, or one variance per point), prediction points and tasks, linear algebra modes (likelihood: except sparseSolve)", "why_tests_cant": "An equivariance under all permutations for all data; the code orders the points by task, so every permutation takes a different path through the linear algebra.", "anchors": ["fvgp/fvgp.py:fvGP._transform_index_set2", "fvgp/gp_posterior.py:GPposterior.cartesian_product", "fvgp/gp_posterior.py:GPposterior.posterior_mean", "fvgp/gp_posterior.py:GPposterior.posterior_covariance", "fvgp/gp_prior.py:GPprior._default_kernel", "fvgp/gp_marginal_likelihood.py:GPMarginalLikelihood.log_likelihood"]}
{"id": "C155", "title": "Malformed prediction requests are rejected, not answered wrongly", "statement": "posterior_mean, posterior_covariance and posterior_mean_grad answer exactly the requests that ask for points of the input space (and, in a multi-task GP, for tasks), with the values for those points and tasks; every other request (wrong number of dimensions or columns, tasks in another form, tasks for a single-task GP, nothing to predict) raises.", "quantifier": "all requests, data, hyperparameters and weights; Euclidean inputs, default kernel and mean", "why_tests_cant": "What is accepted results from an explicit check and from index errors inside the kernel; tests try a handful of bad arguments, not all shapes.", "anchors": ["fvgp/gp_posterior.py:GPposterior._perform_input_checks", "fvgp/gp_posterior.py:GPposterior.cartesian_product", "fvgp/gp_posterior.py:GPposterior.posterior_mean", "fvgp/gp_posterior.py:GPposterior.posterior_covariance", "fvgp/gp_posterior.py:GPposterior.posterior_mean_grad", "fvgp/gp_prior.py:GPprior._default_kernel", "fvgp/gp_prior.py:GPprior._d_kernel_dx"]}
{"id": "C156", "title": "Labels chosen by the local fits do not matter", "statement": "If the local mixture fits list their components in other orders, align_local_gmms returns the same aligned mixtures, all relabelled by the order chosen at the reference input (the first, or the root of the tree), provided that every match is unambiguous. Calls are answered exactly if method, reference, x_data and root fit together, otherwise they raise.", "quantifier": "all mixtures, orders of components, references, inputs, roots and optimal solvers", "why_tests_cant": "The labels are arbitrary results of the local EM fits; the claim is about all of the (K!)^N orders and about how matches chain along a sequence or a tree.", "anchors": ["fvgp/ggmp.py:align_local_gmms", "fvgp/ggmp.py:align_local_gmms_sequence", "fvgp/ggmp.py:align_local_gmms_mst", "fvgp/ggmp.py:align_gmm_components_hungarian", "fvgp/ggmp.py:_choose_mst_root"]}
{"id": "C157", "title": "Arrays handed to a GP stay shared with the caller", "statement": "A GP never writes into the arrays it is given, and after an appending update it no longer depends on any array that existed before. Until then it holds the caller's arrays: after in-place changes set_hyperparameters makes it the GP of the data it then shows, but before that its predictions are neither those of the old nor those of the new data and hyperparameters.", "quantifier": "all contents of the arrays, all sequences of in-place writes, updates and hyperparameter changes, all prediction points", "why_tests_cant": "Aliasing shows only in particular interleavings of writes by the caller with calls of the GP; tests build fresh arrays and do not write into them afterwards.", "anchors": ["fvgp/gp_data.py:GPdata.__init__", "fvgp/gp_data.py:GPdata.update", "fvgp/gp.py:GP.set_hyperparameters", "fvgp/gp.py:GP.hyperparameters", "fvgp/gp_posterior.py:GPposterior.posterior_mean"]}
{"id": "C158", "title": "Updates accept the data that constructors accept", "statement": "A GP can be constructed exactly from data that fit together: points as a non-empty 2-d array or as a list, as many values, as many positive noise variances if any, no NaN among points and values of an array, and not both noise variances and a noise function. On such a GP update_gp_data accepts data of the same kind exactly if the constructor would accept the resulting data, and leaves the same data; so after any history the arrays it shows could have been given to a constructor. This fails for what updates do not check: sign and number of noise variances, empty arrays, and another number of columns when overwriting.", "quantifier": "all arguments of any type and shape, all values including NaN and infinities, all sequences of updates", "why_tests_cant": "Tests try a few malformed arguments; that acceptance by two separately written sets of checks agrees for all arguments and histories, apart from a listed set of exceptions, is a statement about all of them.", "anchors": ["fvgp/gp.py:GP.__init__", "fvgp/gp.py:GP.update_gp_data", "fvgp/gp_data.py:GPdata.__init__", "fvgp/gp_data.py:GPdata.update", "fvgp/gp_data.py:GPdata._check_for_nan", "fvgp/gp_likelihood.py:GPlikelihood.__init__", "fvgp/gp_posterior.py:GPposterior._perform_input_checks"]}
{"id": "C159", "title": "The functions given to a GP are the functions it uses", "statement": "A constructed GP uses the kernel, mean and noise functions, args and hyperparameters it was given, and the documented defaults for those it was not given (in gp2Scale the Wendland kernel of the device). Each function receives its compulsory arguments, and args too exactly if it has one parameter more, at all points, on the client and on workers; a signature that cannot be called that way is refused at construction, so no later evaluation fails because of it. Derivatives chosen by the library are always called with the arguments they take, supplied ones as documented for ram_economy. This fails for parameters with defaults, keyword-only parameters, unknown devices, noise derivatives in ram_economy mode with the default kernel, and signatures of derivatives.", "quantifier": "all combinations of supplied functions, all signatures, devices and options, all later evaluations", "why_tests_cant": "The combinations of supplied and missing functions, signatures, modes and devices are too many to test, and what a later evaluation receives is decided at construction.", "anchors": ["fvgp/gp.py:GP.__init__", "fvgp/gp_prior.py:GPprior.__init__", "fvgp/gp_prior.py:compute_covariances", "fvgp/gp_prior.py:compute_mean", "fvgp/gp_prior.py:dk_dh", "fvgp/gp_likelihood.py:GPlikelihood.__init__", "fvgp/gp_likelihood.py:calculate_V", "fvgp/gp_likelihood.py:calculate_V_grad", "fvgp/gp2Scale_covariance.py:evaluate_kernel"]}
{"id": "C160", "title": "Preconditioners that cut nothing are exact and finish the solver in one iteration", "statement": "For a symmetric positive definite matrix and initial shift 0, the block-Jacobi preconditioner is always built and is the exact inverse if and only if the matrix has no entry between two different blocks; this is so whenever the block size exceeds the number of points, and never if a smaller block size cuts a chain of coupled points. Additive Schwarz with such a block size is exact for every overlap; if the overlap makes every block the whole index set it is the inverse times the number of blocks. Incomplete Cholesky on a pattern closed under elimination (for instance a chain of points or a full matrix) never needs a shift and is exact. With a preconditioner that is exact up to a positive factor, the block conjugate-gradient solver returns the exact solution of all systems after one iteration, whatever the iteration limit and starting point, unless the start is already good enough or the residuals are linearly dependent.", "quantifier": "all positive definite matrices, patterns, block sizes, overlaps, iteration orders, shift settings, right-hand sides and starting points", "why_tests_cant": "Exactness is a statement about all matrices with a given sparsity, and iteration counts observed on test matrices do not show it.", "anchors": ["fvgp/gp_lin_alg.py:_build_graph_blocks", "fvgp/gp_lin_alg.py:_expand_block_overlap", "fvgp/gp_lin_alg.py:_build_block_jacobi_preconditioner", "fvgp/gp_lin_alg.py:_build_additive_schwarz_preconditioner", "fvgp/gp_lin_alg.py:_build_ic0_factor", "fvgp/gp_lin_alg.py:_block_conjugate_gradient"]}
{"id": "C161", "title": "The workers of a gp2Scale GP hold the points the client holds", "statement": "In gp2Scale mode, after any history of appends, overwrites and hyperparameter changes, of which some may have raised, the points on the workers are the points of x_data, so that the covariance after the next hyperparameter change is the kernel of the current data. This holds if no append raised since the last overwrite or successful append. Otherwise the points of the failed appends stay in x_data without being on the workers: further appends raise on a healthy cluster; a hyperparameter change, if it returns, gives those points prior covariance zero with all points including themselves; predictions with a distributed cross-covariance are those without these points; predictions computed on the client count them as independent observations, and their posterior variance is negative whenever the noise is below the prior variance. Overwriting the data repairs it, an append afterwards keeps the zeros until the hyperparameters are set.", "quantifier": "all histories with arbitrary failures of the cluster or the kernel, all kernels, batch sizes, distributions, completion orders", "why_tests_cant": "It takes a worker lost in the middle of an append; afterwards nothing raises and the numbers are plausible.", "anchors": ["fvgp/gp.py:update_gp_data", "fvgp/gp_data.py:update", "fvgp/gp_prior.py:augment_state_data", "fvgp/gp_prior.py:compute_prior_covariance_matrix", "fvgp/gp_prior.py:compute_data_cross_covariance", "fvgp/gp2Scale_covariance.py:distributed_covariance"]}
{"id": "C162", "title": "A GP can be put in order after a call has raised", "statement": "After any history of set_hyperparameters and update_gp_data calls whose exceptions were caught, update_gp_data(append=False) with a complete dataset that is admissible for the hyperparameters of the last set_hyperparameters call succeeds and gives a GP that cannot be told apart from a new one. If the arguments of all updates fitted the data, set_hyperparameters does the same for the data of all updates, including those that raised. After an append with a wrong number of value columns neither works: every further set_hyperparameters and every further append raises. A set_hyperparameters call that raises should leave the model as it was; instead the rejected hyperparameters stay, predictions combine them with the old weights, and a following append can succeed with a factorisation that belongs to no hyperparameters.", "quantifier": "all histories of calls with arbitrary arguments, each successful or not; all kernels, means, noise models, direct linear algebra modes", "why_tests_cant": "The state after an exception depends on the point of failure and on everything called before and after it.", "anchors": ["fvgp/gp.py:set_hyperparameters", "fvgp/gp.py:update_gp_data", "fvgp/gp_data.py:update", "fvgp/gp_kv.py:_refresh"]}
