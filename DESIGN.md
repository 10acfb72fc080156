# Formal model of fvGP: design

Everything is in Lean 4 (`/verif/lean`), namespace `Verif`. The model is hand written from the
Python text in `/repo`; nothing is extracted and nothing is executed.

## Conventions

* **Numbers.** Floating point numbers are modelled by exact real numbers (`ℝ`), or by an arbitrary
  ordered field / ring where the code only uses `+ - * / <`. Rounding, overflow and NaN are not modelled
  except where the code branches on them (`np.isnan` in the multi-task transform and in MCMC, non-finite
  objective values in BO); those are modelled by `Option` or by an explicit flag.
* **Arrays.** A 1-d array is a `List`, or a function `Fin n → α` where the shape is fixed. Matrices are
  Mathlib `Matrix` where algebra is needed and `ℕ → ℕ → α` plus a size, or lists of rows, where the code
  computes with indices.
* **Exceptions** are values (`Except`/`Option`), so "raises" is an observable result.
* **Nondeterminism** (dask completion order, random draws, user callables, optimizers, thread
  interleavings) is a universally quantified argument: a permutation, a stream of draws, a function, a
  schedule.
* **Mutable objects** are records; a method is a function from record to record (or to an exception
  together with the record it leaves behind).
* Each definition carries a comment with the file and lines of `/repo` it models, and the simplifications.
* Property theorems live in `Props.lean` of every area, apart from model (`Model.lean`) and helper lemmas
  (`Lemmas.lean`). Every property theorem has an `example` with a concrete instance next to it.
* Where the code violates a property the negation is proved with a concrete witness (name ends in
  `_violated`), and what does hold is proved under a name ending in `_partial`.

## Plan per property

| id | model | proof |
|----|-------|-------|
| C01 | `ranges` as in the code (`range(0,n,b)` by recursion) | induction: concatenation of the chunks is `range n`, chunk size bounds |
| C02 | worker tasks, COO triplets, `as_completed` = any permutation of the results, `assemble_triplets` with pop order and mirroring, CSR conversion = summation of duplicates | sum over triplets at (i,j) has exactly one contribution; permutation invariance of sums |
| C03, C04 | row / column strips keyed by start, dict + sorted + v/hstack | sorting a permutation of strictly increasing keys gives the original list; concatenation of strips is the matrix |
| C05 | task list of `distributed_covariance`, size of each task | arithmetic on `ranges`, `strip_width`; counting |
| C06 | harvest stream of `Except` results with a release log | induction over the stream |
| C07 | block assembly of lists of rows | entrywise |
| C08 | `_gp2Scale_covariance` decision + both branches | from C02–C04 |
| C09 | trace of scatter/release events incl. `try/finally` | case analysis over ownership flags and outcome |
| C10 | write cursor and allocation count of `assemble_triplets` | induction over parts |
| C11–C13 | `solve_triangular` by forward substitution, rank-1 step, rank-n loop, on `ℕ → ℕ → ℝ` with explicit size | induction over appended rows; uniqueness of Cholesky; bridge to Mathlib `PosDef` through the Schur complement |
| C14, C15 | block formulas on Mathlib block matrices | `Matrix.fromBlocks` algebra, Schur determinant |
| C16 | two triangular solves, sum of logs of diagonal | triangular determinant; substitution correctness |
| C17 | guess as list of rows | list lemmas |
| C18 | BFS with queue, visited set, block limit | invariant over the loop |
| C19 | frontier iteration | induction over overlap |
| C20 | sum of `Rᵀ A_i⁻¹ R` | quadratic forms |
| C21 | the block CG loop as recursion with matrix state, inner solves arbitrary (may fail) | loop invariant R = B − A X |
| C22 | string functions, dictionary as association list | case analysis |
| C23 | retry loop with arbitrary success predicate | induction on attempts |
| C24 | row-wise IC(0) recurrence on a pattern | induction over rows/columns |
| C25–C28, C31–C33, C36 | posterior formulas on Mathlib matrices, with the solver modes as separate functions | matrix algebra, Schur complement PSD; C25 also as a conditional distribution: `gauss_conditional` for Mathlib's Gaussian measures |
| C29, C30 | flat index arithmetic of `cartesian_product`, `reshape(order='F')`, `transpose` | arithmetic; C30 is violated, see below |
| C34, C35 | entropy/KL formulas with `Real.log` of determinants | spectral bound `log det A ≤ tr A − n`, Hadamard–Fischer inequality |
| C37 | `log_likelihood` formula vs. the density defined in the spec | algebra with `Real.log`/`Real.exp`; `gaussLaw_density` identifies the spec with the density of the Gaussian measure |
| C38 | gradient loop | derivative of log det and inverse along one parameter; violated when a mean gradient component is non-zero |
| C39 | Hessian assembly | index lemma |
| C40–C42 | state machine of GP with data, prior, noise, kv in Chol/CholInv/Inv/sparse modes, operations as transitions | invariant by induction over operation sequences; violated for default noise with rank-n update |
| C43 | getstate/setstate as record maps | round trip |
| C44 | decision function on values | case analysis |
| C45, C46, C47 | settings dictionary as association list; cache record; request histories | invariant by induction |
| C48–C51 | bounds check, Adam loop, dispatcher | loop induction; C49 violated for Adam |
| C52–C56 | MCMC loop with streams of proposals and uniforms | loop invariants; detailed balance as identity with `Real.exp`; C55 and part of C56 violated |
| C57–C60 | BO transform and loop with arbitrary acquisition results | field algebra with `exp/log`; loop invariant; C58 violated for budgets < 2 |
| C61, C62 | double loop over tasks and rows with `Option` for NaN | list algebra, permutations |
| C63–C67 | kernel formulas | real analysis |
| C68–C74 | GGMP helpers | list algebra; Jensen inequality for EM; C74 partial (fallback) |
| C75, C76 | actor as labelled transition system | invariant over schedules; C76 violated for stop before start |
| C77 | metric formulas | inequalities (Cauchy–Schwarz etc.) |
| C78 | registry of live objects | state invariant |
| C79 | length comparison | violated when the number of prediction points equals the number of data points |
| C80 | storage formats as a sum type | case analysis |
| C81 | index dtype choice of the sparse conversion | arithmetic on the bound 2³¹−1 |
| C82 | `fvGP.update_gp_data` on the State model, stored multi-task arrays | case analysis per exception point; violated when noise is forgotten |
| C83 | basis-function kernel and its gradient array | derivative rules |
| C84 | default kernel and default noise on any data | Gaussian mixtures: kernels as integrals of squared exponentials |
| C85 | density distances on grids | inequalities (Jensen, Cauchy–Schwarz) |
| C86 | actor transition system with failure events | invariant; two runs with equal observations |
| C87–C89 | interval, CRPS and log-density metrics | Mathlib normal distribution, integrals |
| C90, C91 | shapes of predictions and test values, broadcasting | case analysis on shapes |
| C92 | x-gradients with finite-difference kernel part | derivative of the posterior formulas |
| C93, C94 | default mean/noise; posterior mean as matrix expression | algebra |
| C95 | joint prior, entropy and its gradient | block matrices, derivative of log det |
| C96–C98 | MCMC loop with proposal objects, break condition and collected result | loop invariants; the result is a function of where the loop ended |
| C99 | warm-start state of the training evaluations | state after an evaluation, then the guess of the next one |
| C100–C102 | BO loop with arbitrary objective, surrogate and stop signal | invariants: polls = evaluations, stall counter = number of quiet evaluations at the end, callback log |
| C103 | surrogate kernel and noise, gp_bo.py:115-303 | Matérn-5/2 as a function of the squared distance, one-sided derivative at 0, chain rule |
| C104, C105 | `_fit_surrogate`, `_posterior_mean_var_and_grad` on the GP model of C25 | refinement: equal to the GP's own prediction; derivatives |
| C106 | `_noisy_expected_improvement`, `_nei_value_and_grad` | integral of the improvement over the normal prediction; derivative |
| C107, C108 | `_maximize_acquisition`, `_laplace_posterior` | invariant of the loop over starts; exactness on quadratics |
| C109 | `kernels.wasserstein_1d` | sorted matching against all permutations; Schoenberg for the exponential kernel |
| C110 | `gaussian_w2_squared` with `eigh` as contract | trace inequality over all couplings of the two covariances |
| C111, C112 | `energy_distance_multivariate`, `mmd_rbf` | negative type of the norm; expectation over product measures |
| C113 | `fit_gmm_fixed_weights` | EM ascent by Gibbs' inequality; equivariance under permutations |
| C114 | the station cache of the fixed-weight fits | invariant of the directory over call histories |
| C115 | `train_gp_mcmc_until_converged`, `train_component_gps_mcmc` | loop invariant; all completion orders |
| C116 | `_log_mvn_density`, `loglik_multivariate_mixture_samples`, `sample_gmm_multivariate`, `fit_gmm_free_weights_multivariate` | Gaussian laws; generator as contract; joint law of the rows |
| C117 | `sliced_wasserstein_distance` | distribution functions; couplings; strong law over directions |
| C118 | `GP.train` up to the optimizer, end of `GPtraining.train` | case analysis of the resolved plan; Fréchet gradients for coherence |
| C119 | constructor defaults, `_get_default_hyperparameter_bounds`, default kernel with NaN | extent and pairwise spread as specification; box composed with C48 and C84 |
| C120 | `GGMP` state with missing attributes, `initLikelihoods`, `initGPs`, `train` | probability vector of a station as specification; induction over the component loop; composes C68, C69 |
| C121 | keyword and device resolution, constructor retry loop, device context | membership specification; induction on the number of keywords |
| C122 | Adam and MCMC loops with the callbacks of the actors, next to the synchronous loops | simulation by induction on the budget |
| C123 | start selection of `train_async`, `stop_training`, `kill_client`, `update_hyperparameters` | case analysis of the world; refinement to a freshly built GP (C40) |
| C124 | finite differences and selection of derivative functions | Taylor bounds by repeated integration of derivative bounds; perturbation of the gradient formula of C38 |
| C125 | item assignment into arrays of type float64, float32, int64 | arithmetic of floor and rounding; invariant of the MCMC loop |
| C126 | grids as lists of points | evenly spaced lists, row-major order of the product |
| C127 | the estimate and the block and strip tasks of gp2Scale | schedules as assignments of tasks to workers; counting lower bound and round robin |
| C128 | networks as arrays of any shape | arithmetic of single precision storage; layers as functions of vectors; Lipschitz bound |
| C129 | machine as a record of packages and devices; engine choice branch by branch | decision logic against a specification of existing GPUs |
| C130 | every function with a device as a choice between three library results | refinement: agreement of the libraries gives independence of the device |
| C131 | `GPkv` with mode and last variance as a state machine; probes as random variables | invariant over histories; expectation of the sample variance, Chebyshev |
| C132 | model functions that read `args`; `set_args` as an operation of the state machine of C40 | invariant over histories that survives mixtures; flush theorem; concrete mixtures |
| C133 | dictionaries as a heap with addresses; construction copies, `set_args` shares | invariant over writes; decision logic |
| C134 | GPU kernels with abstract conversion and rounding | refinement to the CPU kernels for exact arithmetic; Lipschitz bound for the conversion |
| C135 | lookups branch by branch; MINRES loop over columns | decision logic; induction over columns; refinement of block CG with one column |
| C136 | iteration on matrices, NaN as `none`, norm estimate arbitrary | step minimises a parabola; contraction by the smallest value of the trace form; limit through the inverse |
| C137 | the kernel of `Kernels/Model`; constructor of `GP/Model` | overlap integrals in space (rotation, slices, fundamental theorem), mixture identity; negation by corners of a cube with alternating signs |
| C138 | `_warn_about_bo_suitability` as a list of warnings | replace the surrogate in the environment of the BO model (induction over the design), prefix invariant of the main loop; negation of the advice for every factor |
| C139 | `_atomic_savez`, `_save_gp_mcmc_info`: file names as character lists, a directory, writers as lists of steps, schedules | invariant per writer over all schedules, frame lemma for the other writers' names, digits for injectivity; walk as witness for the pairing |
| C140 | `periodic`, `sparseKernel` of `distance`, and models built on them (`Kernels/DistPsdProps.lean`; `Kernels/Accept.lean` shows for any kernel that is not positive semidefinite that some data with positive noise are rejected) | on the line by pulling back C66; in the plane three points with distances p, p, p/2; strict monotonicity of the sparse profile for two points closer than 1e-5 |
| C141 | the block CG loop of C21 (`LinAlg/KrylovModel.lean`); `krylov` and `energy` are the specification; contract of `np.linalg.solve`: raises exactly for singular matrices (`LinAlg/BlockCGLemmas.lean`, `LinAlg/BlockCGProps.lean`) | invariant of the loop: residual orthogonal and direction conjugate to the Krylov space, whose dimension is m k; dimension count for termination |
| C142 | attribute lookup (`__dict__`, class, `__getattr__`) and the protocols of `copy` and `pickle` for an object with opaque values (`Ggmp/CopyModel.lean`, `Ggmp/CopyProps.lean`) | case analysis on the hooks the protocols look up on the object |
| C143 | mean, variance and noise variance at the test points and which of them each score takes (`Metrics/ProperModel.lean`), expectations in `Metrics/ProperLemmas.lean`, `Metrics/ProperProps.lean` | closed form and `log x ≤ x - 1` for nlpd; Fubini for crps (the excess is the integrated squared distance of the distribution functions); subgradient at the quantile for the interval score |
| C144 | the run of C52-C56 with random draws: increments and uniform numbers independent of everything before (`MCMC/StationaryLemmas.lean`, `MCMC/StationaryProps.lean`) | one step leaves the density invariant by the symmetry of `min (t x) (t y)`, Tonelli and translation invariance; the deterministic run equals the recursion of steps by loop invariants; induction on the steps with independence |
| C145 | `gp_relative_information_entropy_set` on top of the measures of C34 (`GP/RieModel.lean`, `GP/RieLemmas.lean`, `GP/RieProps.lean`) | dropping coordinates does not increase the divergence of two Gaussians: compare with the distribution that has the first marginal and the second conditional (explicit inverse and determinant), non-negativity of the divergence and of the explained part; submatrices of prior, posterior and joint covariances |
| C146 | kernels of C66/C84/C137 and the constructor of C25 (`Kernels/StrictLemmas.lean`, `Kernels/StrictWendland.lean`, `Kernels/StrictProps.lean`) | null vectors of a Gaussian matrix annihilate a Vandermonde system along a separating direction; Matérn kernels are Gaussian mixtures with positive weights; a Wendland form contains the integral of a square of ball functions, one of which has a private point; the posterior variance is the form at the data and the new point plus a noise term |
| C147 | `ProposalDistribution.__init__` with a heap of `prop_args` dictionaries, first draw and first adaptation (`MCMC/CtorModel.lean`, `MCMC/CtorProps.lean`) | decision table; usability with `prop_args` characterised exactly; slices of an extended jump list |
| C148 | `_adapt` and the run of C52-C56 (`MCMC/DiminishProps.lean`) | invariant over the loop: covariances of samples in a box are at most 2R²; convex combination; product formula for the initial weight; divergence and convergence of the p-series |
| C149 | the GP model of C25-C39 (`GP/SeqLemmas.lean`, `GP/SeqProps.lean`) | block inverse and determinant by Schur complements; conditioning in two steps; refinement of the stored solve to the specification |
| C150 | the GP model of C25-C39 with measured noise (`GP/RepLemmas.lean`, `GP/RepProps.lean`) | solution of the large system from the small one; determinant of the pooled system; the remaining quadratic form is the spread within groups |
| C151 | the GP model of C25-C39 and the Wendland kernel of C63 (`GP/ReachProps.lean`) | two-step conditioning of C149 with a vanishing cross block |
| C152 | the GP model of C25-C39 (`GP/ReachProps.lean`) | instance of C149 with one new point; the Schur complement is a number |
| C153 | the GP model of C25-C39 with the default kernel of C84 (`GP/UnitProps.lean`) | scaling of inverse, determinant and quadratic form; reindexing along the renamed points |
| C154 | the multi-task transform of C61/C62, the task layout of C29, the GP model of C25-C39 (`FV/TaskProps.lean`) | the points of the renumbered data are a permutation of the renamed points; C153 (renaming) and C32 (order) |
| C155 | checks, task product, default kernel by shapes, kernel calls of mean, covariance and gradient (`GP/ShapeModel.lean`) | case analysis on the request; index conditions of the kernel; monotonicity of a difference of Matern kernels for the witness |
| C156 | dispatch, checks, default root (`Ggmp/AlignCallModel.lean`) on top of the alignment model | conjugation of an optimal assignment by two permutations; induction along sequence and tree; case analysis of the call |
| C157 | memory with addresses for inputs, values, noise variances and hyperparameters under the State model (`State/ShareModel.lean`) | invariant over arbitrary interleavings (reusing C132), view unchanged under writes to other addresses, conditional mean with mixed matrices, concrete witnesses |
| C158 | arguments by type and shape, both sets of checks in order, `index_set_dim` (`State/AcceptModel.lean`) | case analysis over arguments, float sums classified by induction, invariant over sequences of updates, concrete witnesses computed through the State model |
| C159 | signatures as lists of parameters with kinds and defaults, resolution of the constructor arguments branch by branch, dispatch on the number of parameters (`Resolve/Model.lean`) | characterisation of what Python can call for plain signatures, case analysis of the resolution, later calls from the success of the first |
| C160 | the models of C18-C24 and C21 (`PrecondModel.lean`, `GraphModel.lean`, `KrylovModel.lean`) | rows of the matrix times the block operator split over the blocks, converse by a right-hand side supported on one block; induction over the rows of the incomplete factor with the determinant of the grown matrix; one step of block CG computed for N = c A⁻¹ |
| C161 | client state with `x_data`, persistent scatter and stored covariance; overwrite, append and hyperparameter change with every point of failure (`Gp2Scale/StaleModel.lean`) | induction on histories against a specification of who holds which points; a short point set is reduced to a padded full one, so that the assembly theorems C02-C04 apply; sums over the held points for predictions |
| C162 | histories in which every exception is caught (`State/RecoverModel.lean`) over the object model of C40-C42 | invariants by induction on the history, whatever the outcome of each call: what no call destroys (configuration, mode, presence of noise variances, last hyperparameters) is enough for an overwrite; specified data are enough for a hyperparameter change; more inputs than values is kept by everything but an overwrite |

## Trusted base

* Lean 4.33.0 kernel, Mathlib as installed. Axioms allowed: `propext`, `Classical.choice`, `Quot.sound`.
* That the Lean definitions mirror the cited Python lines (checked by reading only).
* Exact arithmetic instead of floating point.
* Behaviour of libraries taken as specified: numpy indexing/reshape, scipy triangular solve and sparse
  constructors (duplicate COO entries add up), dask (`as_completed` yields each future once, in any order).

Not modelled: GPU code paths, timing, logging, warnings, plotting and printing, scipy/HGDL optimizers
(their result is an arbitrary value), stochastic Lanczos (its result is an arbitrary value), user callables
(arbitrary functions).

## Disagreements between code and property

Each entry names the theorem with the witness. Entries without a theorem were found by reading and are outside the model.

State and data

* `C40_default_noise_violated` — the default noise depends on all values, so `update_gp_data(append=True)` with a rank-n update
  keeps a factor for the old noise.
* `C41_columns_violated`, `C41_nan_violated`, `C41_factorisation_violated` — these rejected updates leave the new data (or part of
  it) in the object. `C42_noise_length_violated` — noise variances of the wrong length are accepted.
* `C44_unfactorisable_violated` — a trained vector whose matrix cannot be factorised stays set.
* `C82_missing_noise_violated` — an append to an `fvGP` that forgets the noise variances drops the stored ones and blocks later appends.
* `C79_same_size_violated` — measured noise is reused at any other set of as many points as there are data.
* `C80_broadcast_violated` — noise of a broadcastable shape is added to a dense matrix.
* `C94_default_noise_violated` — the default noise depends on the offset of the data.

Posterior, likelihood

* `C25_hyperparameters_gp2Scale_violated` — `posterior_mean(hyperparameters=…)` raises under gp2Scale with dense noise.
* `C30_all_directions_violated`, `C30_dS_violated` — multi-task gradients are reshaped in the wrong order.
* `C35_single_point_violated` — `posterior_probability` raises for one prediction point.
* `C38_shared_hyperparameter_violated`, `C38_columns_violated` — the kernel part is dropped where the mean gradient is not zero; only
  the first output column enters.
* `C39_default_argument_violated` — `neg_log_likelihood_hessian()` without argument raises.
* `C92_covariance_gradient_violated` — off-diagonal entries of dS/dx are not derivatives of S.

Training

* `C48_length_violated` — a start of length one passes for several bounds. `C49_adam_violated` — Adam may leave the bounds.
* `C55_max_x_violated` — "max x" is one position off. `C56_small_block_violated`, `C56_scale_unused_violated` — adaptation of
  proposals. `C98_break_violated`, `C98_first_break_violated` — the last position is missing after a break.
* `C99_first_evaluation_violated`, `C99_failed_evaluation_violated` — warm starts that skip the drift check.
* `C57_degenerate_violated`, `C57_tiny_violated`, `C58_small_budget_violated`, `C60_huge_value_violated`,
  `C101_design_stop_violated` — Bayesian optimisation at the edges of its arguments.
* `C105_default_mean_violated`, `C106_agree_violated` — with fewer than 2(1+2d) evaluations the gradient search of the acquisition
  leaves out the surrogate's constant prior mean: it maximises another function than the one candidates are screened with.
* `C104_start_violated` — for a nearly constant objective the surrogate's training starts outside its bounds.
* `C76_stop_before_start_violated`, `C76_unbounded_violated`, `C86_failure_silent_violated` — asynchronous runs.
* `C78_threads_violated` — the client guard is not safe against threads.

Kernels, mixture process, metrics

* `C64_matern2_robust_violated`, `C65_matern2_violated`, `C66_matern2_robust_violated` — the coefficient of
  `matern_kernel_diff2_robust`. `C65_squared_exponential_violated`, `C64_sparse_kernel_violated`.
* `C68_longer_component_violated`, `C68_shorter_component_violated`, `C69_no_observation_violated`, `C70_clamp_violated`,
  `C72_mst_identical_violated`, `C73_identical_inputs_violated`, `C74_fallback_violated`.
* `C118_gradient_violated` — `train(method="adam", objective_function=f)` without gradient is accepted and Adam is handed the gradient
  of the negative log likelihood; `adam_ignores_objective`: `f` has no influence on the result. `C118_hessian_violated` — `local` and
  `hgdl` with objective and gradient of the user but no Hessian are handed the Hessian of the negative log likelihood.
* `C119_constant_column_violated`, `C119_single_task_violated` — the default bounds of the length scale of a constant input column (the
  task index of a single-task `fvGP`) are `[0, 0]`; training replaces any valid start by zero and the covariance is NaN throughout.
  `C119_constant_values_violated` — constant values give signal bounds `[0, 0]` and a prior without uncertainty.
* `C120_single_component_violated`, `C120_single_component_posterior_violated` — with `likelihood_terms=1` the default component means are
  the station means minus one (`np.linspace(-1, 1, 1)` is `-1`), and so is the posterior mean. `C120_call_order_violated` — `GGMP.__getattr__`
  answers for missing attributes, so `hasattr` guards never fire and calls out of order raise a `TypeError` about a function. (For the same
  reason a misspelt method prints a message and returns `None`, and so does `copy.deepcopy`.) `C120_train_refused_late_violated` — an unknown
  `weight_method` is refused after the GPs were trained. `C120_start_outside_bounds_violated` — `initGPs` moves the last hyperparameter to
  the average of the values even outside its bounds; `train` then raises. The argument `gp_eval_parallel` is stored and never used.
* `C121_cpu_fallback_violated` — without GPU `compute_device="gpu"` survives if all device keys are given. `C121_unknown_keyword_violated` —
  misspelt keywords of `gp_init_kwargs` are dropped without report. `C121_exception_masked_violated` — an exception inside the device context
  becomes `RuntimeError: generator didn't stop after throw()`.
* `C122_adam_violated` — the Adam actor publishes the point *before* the step of an iteration (gp_training.py:657-664), so the vector polled after
  the end is one step behind what the synchronous run returns. `C122_mcmc_break_violated` — when the default break condition ends a run the
  callback has seen one position more than the returned dictionary, so the medians differ.
* `C123_start_violated` — the length of the start is checked by synchronous runs and by asynchronous `hgdl` only.
  `C123_stop_warning_violated` — a worker that does not answer is reported as "no training is running". `C123_kill_violated`
  — `kill_client` only stops MCMC, Adam and BO runs; the Dask client stays connected.
* `C124_economy_violated` — with the default kernel the prior sets `ram_economy=False` (gp_prior.py:69-71) after the user chose `True`; a
  `noise_function_grad` with `direction` parameter, as documented for `ram_economy=True`, then fails in every gradient. `C124_bounds_violated` —
  central differences at a bound evaluate kernel, mean and noise function outside of it (NaN for a square root at 0).
* `C125_integer_differences_violated`, `C125_integer_gradient_violated`, `C125_integer_hessian_violated` — hyperparameter arrays are never converted to
  float, so `a[i] += 1e-8` on a copy of an integer array truncates: derivatives are differences to the preceding integer times 5e7, Hessians are 0.
  `C125_integer_chain_violated`, `C125_integer_stuck_violated` — MCMC proposals are truncated to integers in the same way (`train()` uses MCMC by
  default and starts from `init_hyperparameters`). `C125_single_violated` — in single precision `1 ± 1e-8` is 1 and kernel derivatives are 0.
* `C127_rowwise_violated` — `get_gp2Scale_exec_time` counts blocks, the row-wise computation has strips: the estimate is too large by any factor.
  `C127_small_violated` — data within one batch are computed by one call in the calling process; the estimate is `tb / (2 n)`.
* `C128_distinct_violated` — `Network` ends with an activation; weights exist for which all points get the same image.
* `C129_cpu_violated`, `C129_index_violated` — `GPU_device="cpu"` or a device index that does not exist counts as a usable GPU.
  `C129_gradient_violated` — `neg_log_likelihood_gradient` calls `solve` without `args`: named engine and device are ignored there.
* `C130_nonPD_violated` — `RuntimeError` of a GPU (memory, device number) becomes `NonPositiveDefiniteError`. `C130_rank1_violated` — `None`
  instead of the CPU. `C130_unknown_violated` — unknown devices are accepted by two functions. `C130_singular_violated` — least squares on the CPU
  only. `C130_update_key_violated`, `C130_logdet_key_violated` — documented entries of `args` that are never read.
* `C131_stale_violated` — `last_logdet_variance` is not reset by exact evaluations; the guard of training then keeps worse hyperparameters.
  `C131_cached_violated` — `log_likelihood()` followed by `log_likelihood_variance()` combines two evaluations.
* `C132_prediction_violated` — after `set_args` predictions combine the new kernel at the prediction points with the old `K + V`.
  `C132_append_violated` — an append in that state can raise although both consistent models are fine.
* `C133_set_args_violated` — the preconditioner named in the mode lives in `args` and is lost with `set_args`; `"ilu"` is built instead.
* `C134_large_coordinates_violated` — the dense GPU kernel rounds coordinates before subtracting; 2^30 and 2^30 + 1 become one point.
* `C135_explicit_default_violated` — the documented default `None` given explicitly beats the common iteration limit.
  `C135_tolerance_violated` — CG follows the tolerance of MINRES (a fallback kept for compatibility that the documentation of `GP` omits).
* `C136_singular_violated` — `spai` of a singular matrix divides zero by zero and returns NaN.
  `C136_indefinite_violated` — with few steps `spai` of a positive definite matrix is not positive definite, so it is no preconditioner for CG.
* `C137_dimension_violated`, `C137_rejected_violated` — the default kernel of gp2Scale is a covariance function for up to three coordinates only; the
  code accepts any number. For 25 and more coordinates there are data with positive noise for which the Cholesky factorisation fails.
* `C138_advice_violated` — the warning says the design needs `n_init` evaluations and advises to raise `max_iter` well above that, but `n_init` has
  already been cut at `max_iter` (gp.py:1194), so the number stated is always the budget; with many hyperparameters any multiple of it is
  swallowed as well.
* `C139_tmp_violated`, `C139_two_writers_violated`, `C139_pairing_violated` — the temporary file of tag `t` has the name of the trace file of tag
  `t.tmp`; two runs in the same directory share the temporary file; `x` of the MCMC result starts with the start position, `f(x)` with the value
  of the position after it, and both are thinned from index 0 (ggmp.py:2052-2053), so no row of the file pairs a position with its value.
* `C140_periodic_violated`, `C140_sparse_violated`, `C140_sparse_close_violated`, `C140_periodic_rejected_violated`,
  `C140_sparse_rejected_violated` — `periodic_kernel` (kernels.py:260) is a covariance function of the distance only on the
  line: in the plane, points O, A, B with |OA| = |AB| = p and |OB| = p/2 have correlations 1, 1 and exp(-2/l²). `sparse_kernel`
  (kernels.py:233) puts 1e-5 for a zero distance, also on the diagonal, so that two points closer than that have a covariance
  larger than their variances.
* `C141_dependent_violated`, `C141_wide_violated`, `C141_zero_column_violated`, `C141_nonsymmetric_violated` — block conjugate
  gradients (gp_lin_alg.py:1024) break down with code 2 in the first iteration when the initial residuals are linearly
  dependent, and return the initial guess for all columns; `calculate_sparse_conj_grad` only warns. With
  `sparse_krylov_mode="block"` a single prediction point outside the support of all data therefore turns the solution for all
  points of its block into zero. The comment at gp_lin_alg.py:1073 ("usually breaks down in the alpha solve above first") is
  true without "usually" (`C141_outcome_partial`).
* `C142_copy_violated`, `C142_pickle_violated`, `C142_misspelt_violated` — `GGMP.__getattr__` (ggmp.py:125) returns a printing
  function for every missing name, also for `__deepcopy__` and `__setstate__`: `copy.deepcopy(ggmp)` is `None`, `copy.copy` and
  a pickle round trip lose all attributes, and a misspelt method call returns `None`.
* `C143_noise_violated`, `C143_loss_violated`, `C143_msll_violated` — `nlpd`, `crps` and `msll` (gp.py:1778, 1844, 2060) compare noisy
  test values with the variance of the noise-free function, while `picp`, `mpiw` and `interval_score` (gp.py:1899, 1955, 1981)
  add the noise. The GP that predicts the distribution of the values exactly has larger expected `nlpd` and `crps` than a GP
  that overstates its uncertainty about the function; the loss in `nlpd` has no bound as the GP learns the function; `msll`,
  documented as negative when the GP beats the baseline, can exceed 20 for a GP whose log loss is better by one half.
* `C144_asymmetric_violated` — the acceptance rule (gp_mcmc.py:209-214) is that of symmetric proposals, but `proposal_dist` may be any
  callable and the documentation does not ask for symmetry. With a uniform target on [0, 2] and the increment 1 the start is below 1
  with probability 1/2, the next position with probability 0.
* `C145_gain_violated` — the documentation says the relative information entropy reflects "how much information is predicted to be
  gained through observing" at x_pred (gp.py:1672-1673, 1699-1701). It is the divergence between prior and posterior, that is what the
  data already say: zero at a point uncorrelated with the data, positive at the measured point, although the posterior variance is larger
  at the first.
* `C145_noise_violated` — `add_noise=True` adds the noise to the posterior covariance only (gp_posterior.py:505-507), so the value is
  positive where posterior and prior agree.
* `C145_list_violated` — `gp_relative_information_entropy_set` calls `x_pred[i].reshape` (gp_posterior.py:523); the documentation
  admits lists for non-Euclidean inputs, whose entries have no such method.
* `C146_non_stat_violated` — `non_stat_kernel` (kernels.py:382-404) is a product of one function with itself, so two points without
  noise are always rejected and more than one noise-free point can never be used; the docstring calls it a kernel like the others.
* `C146_periodic_violated` — with `periodic_kernel` (kernels.py:241-261) points one period apart are the same point; noise-free data
  there are rejected even if the inputs differ.
* `C147_no_adaptation_violated` — the documentation says `adapt_callable=None`, the default, means "the proposal distribution will
  not be adapted" (gp_mcmc.py:268-270). With the normal proposal `_adapt` is used for every value but a callable
  (gp_mcmc.py:305-306), undocumented strings included.
* `C147_dropped_covariance_violated` — `prop_args` together with `init_prop_Sigma` drops the covariance unless
  `adapt_callable == "normal"` (gp_mcmc.py:313-317); the first draw raises a KeyError.
* `C147_missing_covariance_violated` — a user proposal with `adapt_callable="normal"` and no `init_prop_Sigma` stores `None`
  (gp_mcmc.py:312) and raises a TypeError at the first adaptation (gp_mcmc.py:359).
* `C147_shared_violated` — the constructor writes into the caller's dictionary (gp_mcmc.py:314-317), so two objects given the same one
  have one covariance, that of the object constructed last.
* `C147_second_run_violated` — `run_mcmc` resets the trace (gp_mcmc.py:140) but not `jump_trace`, so a second run adapts the scale
  with the acceptance rates of the first.
* `C149_default_mean_violated` — the default prior mean is the average of all observed values (gp_prior.py:449-458), so it changes with
  new observations; the log likelihood of all data exceeds the sum of predicted log densities, by one half in the example.
* `C150_default_mean_violated` — the default prior mean is the plain average of all values (gp_prior.py:449-458): repeating a measurement
  shifts predictions far from the data, in the example 4/3 instead of 3/2.
* `C151_default_mean_violated` — with the default prior mean (gp_prior.py:449-458) an observation that has no correlation with the point
  predicted moves the prediction there, in the example from 0 to 1.
* `C153_default_noise_violated` — the default noise is computed from the absolute values (gp_likelihood.py:102-104), so moving the origin
  of the values (Kelvin for Celsius) changes the predicted variances, in the example from 1/10001 to 4/10004.
* `C154_default_kernel_violated` — the default kernel of `fvGP` takes the task number for one more coordinate (fvgp.py:89-91 says so and
  advises against it). With three tasks of which only task 0 is observed, exchanging tasks 1 and 2 does not change the data, but task 1 is
  predicted with a smaller variance than task 2.
* `C155_gradient_violated`, `C155_gradient_merged` — `_perform_input_checks` (gp_posterior.py:582) admits a list for `x_out`, but only an
  array triggers the product with the tasks (line 199). `posterior_mean_grad(x, x_out=[0, 1])` of a multi-task GP then calls the kernel
  with points without task first, and the default kernel loops over the columns of its first argument only: the gradient returned takes
  all tasks for one. `posterior_mean` and `posterior_covariance` raise an IndexError for the same request.
* `C155_mean_tasks_violated` — `posterior_mean(x, x_out=np.array([4, 7]))` of a single-task GP is answered (the mean without tasks, once for
  each), `posterior_covariance` raises.
* `C156_weights_violated` — the cost of `align_gmm_components_hungarian` (ggmp.py:1275-1277) does not see the weights: if a local fit finds two
  components with the same mean and covariance but different weights, their labels after alignment depend on the order in which the fit
  listed them.
* `C156_metric` — `align_local_gmms(..., metric="anything")` is accepted if there is only one mixture.
* `C157_hyperparameters_violated`, `C157_inputs_violated` — `GPdata` and the trainer keep the caller's arrays (gp_data.py:37-39, 94-96,
  gp.py:686) and `gp.hyperparameters`, `gp.x_data` hand them out (gp.py:577-586, 638-639). Changing the hyperparameter array in place
  (`gp.hyperparameters *= 4` or reusing the initial array) makes the next prediction combine the new kernel with the old factorisation; a value 2
  is then predicted as 4. Reusing the array of an input moves the measured value to another place.
* `C158_negative_noise_violated`, `C158_empty_violated`, `C158_width_violated`, `C158_nan_list_violated`, `C158_ignored_violated` — `update_gp_data` does
  not repeat the checks of the constructor (gp_likelihood.py:17-25, gp_data.py:22-31). A noise variance of -1/2 is accepted and makes the GP predict 4
  with variance 0 where 2 was measured; the data can be emptied; overwriting with points of another dimension leaves `index_set_dim` at the old value,
  so predictions at the new points are refused. NaN values are never detected for inputs given as a list. The documentation says that
  `noise_variances_new` is ignored when there is a noise function (gp.py:717-718); an exception is raised instead (gp_data.py:88-90).
* `C159_default_violated`, `C159_keyword_violated`, `C159_device_violated`, `C159_economy_violated`, `C159_derivative_violated` — whether a function receives
  `args` is decided by `len(inspect.signature(f).parameters)` (gp_prior.py:61). A kernel `k(x1, x2, hps, scale=1.)` therefore receives the dictionary
  `args` as its scale, and `functools.partial(k, scale=1.)` is refused. With gp2Scale and a device other than `cpu` and `gpu` the dense Matern kernel is
  used although a warning announces the Wendland kernel (gp_prior.py:43-54). With `ram_economy=True` and the default kernel the mode is switched off
  (gp_prior.py:69-71), and a noise derivative written for it raises `TypeError`. Signatures of derivatives are not checked at construction.
* `C161_failed_append_violated` — `update_gp_data(append=True)` appends to `x_data` first (gp_data.py:103-112) and refreshes the scatter last
  (gp_prior.py:158-166). If the cluster loses a task in between, the client has more points than the workers; `compute_prior_covariance_matrix`
  compares `len(x)` with `len(self.x_data)`, not with the scattered set (gp_prior.py:193-194), and the workers slice past its end. The next
  `set_hyperparameters` or training then stores a covariance with zero rows without raising, and posterior variances can be negative.
* `C162_failed_set_violated` — `set_hyperparameters` assigns `trainer.hyperparameters` first (gp.py:684) and factorises `K + V` last (gp.py:687).
  If that raises, the GP keeps the rejected hyperparameters and predicts with their kernel and mean and the weights of the old ones, without
  any error: a constant function with observed value `2` is predicted as `-5`.
* `C162_append_after_failed_set_violated` — the append after that extends the old factor (gp_kv.py:462-508) by covariances of the rejected
  hyperparameters and may return normally, although a GP with the data and hyperparameters shown cannot be built.
* `C113_weights_violated` — fixed-weight fit sorts means and variances but not the weights. `C113_empty_component_violated` — a
  component without data is moved to zero, and `means_init` of the caller is overwritten. `C113_decrease_violated` — the added 1e-6
  can lower the likelihood.
* `C114_failed_violated` — a failed station fit is returned as a zero row. `C114_series_violated` — the series is not part of the cache
  key. `C114_stamp_violated` — rows fitted with other parameters are merged and restamped.
* `C115_budget_violated` — chunked training exceeds `max_total`.
* `C109_measures_violated` — `kernels.wasserstein_1d` compares rows as samples, not as measures. `C110_singular_violated` — clipped
  eigenvalues shift the distance of singular covariances.
* `C86_flag_after_failure_violated` — the running flag of an actor stays set when its run fails.
* `C90_picp_column_violated`, `C91_single_point_violated` — shapes of test values.

Outside the model

* `add_noise` swallows every exception of the noise function. `wendland_kernel` overwrites its argument.
* `cholesky_update_rank_1` with GPU and without engine returns `None`.
* An assertion in `_gp2Scale_covariance` stands before the `try`, so its own scatter is not released.
* Integer-typed prediction points make the gradient methods raise (`+= 1e-8` on an integer array).
* `GGMP.__getattr__` defeats the guards of the class: deepcopy gives `None`, pickling raises.
