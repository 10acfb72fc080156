{
 "claims": [
  {
   "property": "C01",
   "status": "proved",
   "theorems": [
    "Verif.Gp2Scale.C01_ranges_enumerate",
    "Verif.Gp2Scale.C01_chunk_bounds",
    "Verif.Gp2Scale.C01_full_chunks",
    "Verif.Gp2Scale.C01_contiguous"
   ],
   "note": "Model: ranges over integers batch sizes including zero and negative."
  },
  {
   "property": "C02",
   "status": "proved",
   "theorems": [
    "Verif.Gp2Scale.C02_blockwise_equals_local",
    "Verif.Gp2Scale.C02_blockwise_mirrors"
   ],
   "note": "Exact arithmetic; completion order is an arbitrary permutation. Non-symmetric kernels: see the mirrors theorem."
  },
  {
   "property": "C03",
   "status": "proved",
   "theorems": [
    "Verif.Gp2Scale.C03_rowwise_equals_local"
   ],
   "note": ""
  },
  {
   "property": "C04",
   "status": "proved",
   "theorems": [
    "Verif.Gp2Scale.C04_cross_equals_local"
   ],
   "note": ""
  },
  {
   "property": "C05",
   "status": "proved",
   "theorems": [
    "Verif.Gp2Scale.C05_symmetric_task_size",
    "Verif.Gp2Scale.C05_cross_task_size",
    "Verif.Gp2Scale.C05_pairs_visited_once",
    "Verif.Gp2Scale.C05_positions_visited_once"
   ],
   "note": "Entry counts of the rectangles handed to workers; bytes are not modelled."
  },
  {
   "property": "C06",
   "status": "proved",
   "theorems": [
    "Verif.Gp2Scale.C06_returns_iff_no_failure",
    "Verif.Gp2Scale.C06_success_releases_all",
    "Verif.Gp2Scale.C06_consumed_are_released"
   ],
   "note": "A task that raised by itself is not yielded by dask, hence not consumed; cancelled tasks are released before the error is raised."
  },
  {
   "property": "C07",
   "status": "proved",
   "theorems": [
    "Verif.Gp2Scale.C07_stack_equals_from_scratch",
    "Verif.Gp2Scale.C07_history_equals_from_scratch",
    "Verif.Gp2Scale.C07_dense_append"
   ],
   "note": ""
  },
  {
   "property": "C08",
   "status": "proved",
   "theorems": [
    "Verif.Gp2Scale.C08_any_route_is_covariance",
    "Verif.Gp2Scale.C08_distribution_invisible",
    "Verif.Gp2Scale.C08_small_is_local"
   ],
   "note": ""
  },
  {
   "property": "C09",
   "status": "proved",
   "theorems": [
    "Verif.Gp2Scale.C09_call_releases_own",
    "Verif.Gp2Scale.C09_lifetime"
   ],
   "note": "Release of the overwritten persistent scatter happens in dask's __del__; modelled as happening when it is overwritten."
  },
  {
   "property": "C10",
   "status": "proved",
   "theorems": [
    "Verif.Gp2Scale.C10_buffers_exactly_filled",
    "Verif.Gp2Scale.C10_position_equals_total"
   ],
   "note": ""
  },
  {
   "property": "C11",
   "status": "proved",
   "theorems": [
    "Verif.LinAlg.C11_update_gives_factor",
    "Verif.LinAlg.C11_factor_unique",
    "Verif.LinAlg.C11_update_equals_from_scratch",
    "Verif.LinAlg.C11_appended_columns_lower"
   ],
   "note": "LAPACK potrf is represented by the row-by-row Cholesky algorithm; equality with any other factorisation follows from the uniqueness theorem. GPU branches not modelled."
  },
  {
   "property": "C12",
   "status": "proved",
   "theorems": [
    "Verif.LinAlg.C12_rejects_iff_not_posDef",
    "Verif.LinAlg.C12_from_scratch_iff_posDef"
   ],
   "note": ""
  },
  {
   "property": "C13",
   "status": "proved",
   "theorems": [
    "Verif.LinAlg.C13_batching_irrelevant",
    "Verif.LinAlg.C13_two_splits_agree"
   ],
   "note": ""
  },
  {
   "property": "C14",
   "status": "proved",
   "theorems": [
    "Verif.LinAlg.C14_update_inv_exact",
    "Verif.LinAlg.C14_update_inv_rejects_iff_singular"
   ],
   "note": "np.linalg.inv raises iff the determinant is zero."
  },
  {
   "property": "C15",
   "status": "proved",
   "theorems": [
    "Verif.LinAlg.C15_update_logdet_exact",
    "Verif.LinAlg.C15_slogdet_posDef"
   ],
   "note": ""
  },
  {
   "property": "C16",
   "status": "proved",
   "theorems": [
    "Verif.LinAlg.C16_solve_exact",
    "Verif.LinAlg.C16_solve_unique",
    "Verif.LinAlg.C16_logdet_exact",
    "Verif.LinAlg.C16_inverse_exact"
   ],
   "note": ""
  },
  {
   "property": "C17",
   "status": "proved",
   "theorems": [
    "Verif.LinAlg.C17_guess_reshaped",
    "Verif.LinAlg.C17_rejected_iff",
    "Verif.LinAlg.C17_single_column_never_rejected",
    "Verif.LinAlg.C17_none"
   ],
   "note": ""
  },
  {
   "property": "C18",
   "status": "proved",
   "theorems": [
    "Verif.LinAlg.C18_blocks_partition",
    "Verif.LinAlg.C18_unique_block",
    "Verif.LinAlg.C18_block_sizes",
    "Verif.LinAlg.C18_size_one",
    "Verif.LinAlg.C18_continue_branch_dead",
    "Verif.LinAlg.C18_blocks_grown",
    "Verif.LinAlg.C18_blocks_separate"
   ],
   "note": "Pattern given as neighbour lists with in-range columns. Includes a proof that the 'continue' branch in the code is dead."
  },
  {
   "property": "C19",
   "status": "proved",
   "theorems": [
    "Verif.LinAlg.C19_overlap_is_neighbourhood",
    "Verif.LinAlg.C19_overlap_sorted",
    "Verif.LinAlg.C19_overlap_zero"
   ],
   "note": ""
  },
  {
   "property": "C20",
   "status": "proved",
   "theorems": [
    "Verif.LinAlg.C20_operator_linear",
    "Verif.LinAlg.C20_operator_symmetric",
    "Verif.LinAlg.C20_operator_psd",
    "Verif.LinAlg.C20_operator_pd",
    "Verif.LinAlg.C20_block_jacobi_spd",
    "Verif.LinAlg.C20_schwarz_spd",
    "Verif.LinAlg.C20_block_jacobi_builds",
    "Verif.LinAlg.C20_block_jacobi_local",
    "Verif.LinAlg.C20_schwarz_local"
   ],
   "note": ""
  },
  {
   "property": "C21",
   "status": "proved",
   "theorems": [
    "Verif.LinAlg.C21_running_residual_exact",
    "Verif.LinAlg.C21_success_means_solved",
    "Verif.LinAlg.C21_exit_codes",
    "Verif.LinAlg.C21_no_warning_means_solved"
   ],
   "note": "scipy cg for one column is a contract hypothesis; numpy solve arbitrary and allowed to fail."
  },
  {
   "property": "C22",
   "status": "proved",
   "theorems": [
    "Verif.LinAlg.Modes.C22_type_is_canonical",
    "Verif.LinAlg.Modes.C22_type_idempotent",
    "Verif.LinAlg.Modes.C22_type_case_insensitive",
    "Verif.LinAlg.Modes.C22_prefixed_mode_resolves",
    "Verif.LinAlg.Modes.C22_conflict_raises",
    "Verif.LinAlg.Modes.C22_unknown_suffix_raises",
    "Verif.LinAlg.Modes.C22_other_modes_unchanged",
    "Verif.LinAlg.Modes.C22_caller_settings_untouched",
    "Verif.LinAlg.Modes.C22_resolution_idempotent",
    "Verif.LinAlg.Modes.C22_mode_case_insensitive"
   ],
   "note": "str.lower is a parameter; dictionaries in a heap model aliasing."
  },
  {
   "property": "C23",
   "status": "proved",
   "theorems": [
    "Verif.LinAlg.C23_first_working_shift",
    "Verif.LinAlg.C23_raises_iff_all_fail",
    "Verif.LinAlg.C23_tried_shifts",
    "Verif.LinAlg.C23_unshifted_first",
    "Verif.LinAlg.C23_factor_of_shifted",
    "Verif.LinAlg.C23_shifts_increase",
    "Verif.LinAlg.C23_ilupp_unshifted_first",
    "Verif.LinAlg.C23_shift_values"
   ],
   "note": ""
  },
  {
   "property": "C24",
   "status": "proved",
   "theorems": [
    "Verif.LinAlg.C24_first_working_shift",
    "Verif.LinAlg.C24_reproduces_on_pattern",
    "Verif.LinAlg.C24_no_fill_in",
    "Verif.LinAlg.C24_full_pattern_is_cholesky",
    "Verif.LinAlg.C24_operator_spd"
   ],
   "note": "Includes shift retries; exact arithmetic."
  },
  {
   "property": "C25",
   "status": "partial",
   "theorems": [
    "Verif.GP.C25_conditional_law",
    "Verif.GP.C25_predictive_law",
    "Verif.GP.C25_posterior_mean",
    "Verif.GP.C25_posterior_covariance",
    "Verif.GP.C25_posterior_mean_hyperparameters_partial",
    "Verif.GP.C25_hyperparameters_gp2Scale_violated"
   ],
   "note": "Every direct linear algebra mode; single task, any number of output columns. C25_conditional_law / C25_predictive_law: the returned mean and covariance (with add_noise) are the conditional distribution, in Mathlib's sense, of a Gaussian process given its noisy observations; user-given mean and noise, one column. posterior_mean(hyperparameters=...) with a sparse prior and dense noise raises (violated theorem)."
  },
  {
   "property": "C26",
   "status": "proved",
   "theorems": [
    "Verif.GP.C26_variance_between"
   ],
   "note": "Exact arithmetic."
  },
  {
   "property": "C27",
   "status": "proved",
   "theorems": [
    "Verif.GP.C27_covariance_psd"
   ],
   "note": ""
  },
  {
   "property": "C28",
   "status": "proved",
   "theorems": [
    "Verif.GP.C28_chunking",
    "Verif.GP.C28_covariance_chunk_independent"
   ],
   "note": ""
  },
  {
   "property": "C29",
   "status": "proved",
   "theorems": [
    "Verif.GP.C29_flat_is_task_major",
    "Verif.GP.C29_mean",
    "Verif.GP.C29_covariance_layout",
    "Verif.GP.C29_covariance"
   ],
   "note": ""
  },
  {
   "property": "C30",
   "status": "partial",
   "theorems": [
    "Verif.GP.C30_single_direction_partial",
    "Verif.GP.C30_all_directions_partial",
    "Verif.GP.C30_all_directions_violated",
    "Verif.GP.C30_dS_violated"
   ],
   "note": "The gradient arrays are reshaped without order='F'; entries are scrambled for several tasks (violated theorems); partial: layout correct where one of the axes is trivial."
  },
  {
   "property": "C31",
   "status": "proved",
   "theorems": [
    "Verif.GP.C31_interpolation"
   ],
   "note": ""
  },
  {
   "property": "C32",
   "status": "proved",
   "theorems": [
    "Verif.GP.C32_order_of_data"
   ],
   "note": ""
  },
  {
   "property": "C33",
   "status": "proved",
   "theorems": [
    "Verif.GP.C33_more_data"
   ],
   "note": ""
  },
  {
   "property": "C34",
   "status": "proved",
   "theorems": [
    "Verif.GP.C34_kl_div",
    "Verif.GP.C34_mutual_information",
    "Verif.GP.C34_gp_measures",
    "Verif.GP.C34_gp_kl"
   ],
   "note": "Exact arithmetic, positive semidefinite kernel; the jitter makes the joint positive definite."
  },
  {
   "property": "C35",
   "status": "partial",
   "theorems": [
    "Verif.GP.C35_overlap",
    "Verif.GP.C35_posterior_probability_partial",
    "Verif.GP.C35_single_point_violated"
   ],
   "note": "One prediction point raises: the squeezed mean is 0-d (violated theorem)."
  },
  {
   "property": "C36",
   "status": "proved",
   "theorems": [
    "Verif.GP.C36_variance_only"
   ],
   "note": "Exact arithmetic."
  },
  {
   "property": "C37",
   "status": "proved",
   "theorems": [
    "Verif.GP.C37_observation_density",
    "Verif.GP.C37_log_likelihood_at",
    "Verif.GP.C37_log_likelihood_stored",
    "Verif.GP.C37_one_column"
   ],
   "note": "sparseSolve mode excluded: its log determinant is a stochastic estimate. C37_observation_density: exp(log_likelihood) as a function of y is the density of the law of the observations of the Gaussian process."
  },
  {
   "property": "C38",
   "status": "partial",
   "theorems": [
    "Verif.GP.C38_gradient_partial",
    "Verif.GP.C38_shared_hyperparameter_violated",
    "Verif.GP.C38_columns_violated"
   ],
   "note": "Correct for one output column when no hyperparameter is shared between mean and kernel; otherwise the violated theorems give concrete wrong gradients (shared hyperparameter; several output columns)."
  },
  {
   "property": "C39",
   "status": "partial",
   "theorems": [
    "Verif.GP.C39_hessian_partial",
    "Verif.GP.C39_hessian_only_if",
    "Verif.GP.C39_default_argument_violated"
   ],
   "note": "The Hessian is the symmetrised forward difference of the gradient as coded; the default argument raises (violated theorem). No error bound for the finite difference yet."
  },
  {
   "property": "C40",
   "status": "partial",
   "theorems": [
    "Verif.State.C40_history_independent_partial",
    "Verif.State.C40_two_histories_partial",
    "Verif.State.C40_measured_noise_kept",
    "Verif.State.C40_pointwise_noise_kept",
    "Verif.State.C40_default_noise_violated"
   ],
   "note": "Exact arithmetic. Proved for every interleaving of set_hyperparameters and update_gp_data whose steps are legal (noise of the old points kept, or a full refactorisation). The default noise with append and rank-n update breaks the claim; the negation has a concrete witness (C40_default_noise_violated)."
  },
  {
   "property": "C41",
   "status": "partial",
   "theorems": [
    "Verif.State.C41_rejected_by_checks_partial",
    "Verif.State.C41_hyperparameters_kept",
    "Verif.State.C41_columns_violated",
    "Verif.State.C41_columns_poisons",
    "Verif.State.C41_nan_violated",
    "Verif.State.C41_factorisation_violated"
   ],
   "note": "Updates rejected by the argument checks leave the object as it was. Column mismatch, NaN and factorisation failures do not; each has a concrete witness (_violated)."
  },
  {
   "property": "C42",
   "status": "partial",
   "theorems": [
    "Verif.State.C42_bookkeeping_partial",
    "Verif.State.C42_noise_count",
    "Verif.State.C42_noise_length_violated",
    "Verif.State.C42_noise_length_consequence"
   ],
   "note": "Counts of points, values and noise variances follow the calls when the noise argument has the right length; a wrong length is accepted by the code (C42_noise_length_violated)."
  },
  {
   "property": "C43",
   "status": "proved",
   "theorems": [
    "Verif.Train.Pickle.C43_round_trip",
    "Verif.Train.Pickle.C43_observables_kept",
    "Verif.Train.Pickle.C43_preconditioner_rebuilt",
    "Verif.Train.Pickle.C43_worker_list_kept"
   ],
   "note": "Attribute-level model of __getstate__/__setstate__ of every class; C43_worker_list_kept records that a pickled GP keeps its compute_workers list although the client is dropped."
  },
  {
   "property": "C44",
   "status": "partial",
   "theorems": [
    "Verif.Train.C44_never_worse_partial",
    "Verif.Train.C44_optimizer_raises",
    "Verif.Train.C44_guarded_iff",
    "Verif.Train.C44_unfactorisable_violated"
   ],
   "note": "Proved for every factorisable optimizer result in the direct modes; violated when the result cannot be factorised (no rollback)."
  },
  {
   "property": "C45",
   "status": "proved",
   "theorems": [
    "Verif.Train.C45_restored_exactly",
    "Verif.Train.C45_restored_any_run",
    "Verif.Train.C45_settings_in_force",
    "Verif.Train.C45_refused_iff"
   ],
   "note": ""
  },
  {
   "property": "C46",
   "status": "proved",
   "theorems": [
    "Verif.Train.C46_function_of_hyperparameters",
    "Verif.Train.C46_order_independent",
    "Verif.Train.C46_value",
    "Verif.Train.C46_without_guard_order_matters"
   ],
   "note": "Warm starts are enabled in the sequential settings only through the validated guess; the theorem assumes an exact solver answer within tolerance, and C46_without_guard_order_matters shows the guard is what is needed."
  },
  {
   "property": "C47",
   "status": "proved",
   "theorems": [
    "Verif.Train.C47_reuse_is_fresh",
    "Verif.Train.C47_nothing_reused_after_drop",
    "Verif.Train.C47_who_gets_a_preconditioner"
   ],
   "note": "Preconditioner cache decision logic; matrix fingerprints are modelled as in the code (trace, Frobenius norm, nnz, shape), the factorisations themselves are opaque."
  },
  {
   "property": "C48",
   "status": "partial",
   "theorems": [
    "Verif.Train.C48_trainer_raises",
    "Verif.Train.C48_start_used",
    "Verif.Train.C48_start_in_bounds_partial",
    "Verif.Train.C48_length_violated"
   ],
   "note": "GP.train replaces an out-of-bounds start by a draw (with a warning) instead of raising; the trainer itself raises. Wrong-length starts are accepted in two broadcasting cases (violated)."
  },
  {
   "property": "C49",
   "status": "partial",
   "theorems": [
    "Verif.BO.C49_bo_in_bounds_partial",
    "Verif.MCMC.C49_mcmc_in_bounds",
    "Verif.Train.C49_adam_violated"
   ],
   "note": "Proved for mcmc with the default prior (median of the tail). Adam ignores the bounds (violated). Bayesian optimisation: proved for axes of positive width."
  },
  {
   "property": "C50",
   "status": "proved",
   "theorems": [
    "Verif.Train.C50_only_genuine_results",
    "Verif.Train.C50_unambiguous"
   ],
   "note": ""
  },
  {
   "property": "C51",
   "status": "proved",
   "theorems": [
    "Verif.Train.C51_adam_trace"
   ],
   "note": ""
  },
  {
   "property": "C52",
   "status": "proved",
   "theorems": [
    "Verif.MCMC.C52_support",
    "Verif.MCMC.C52_in_bounds"
   ],
   "note": "Proved for every prior, and with the default prior as bounds."
  },
  {
   "property": "C53",
   "status": "proved",
   "theorems": [
    "Verif.MCMC.C53_completes",
    "Verif.MCMC.C53_trace",
    "Verif.MCMC.C53_rejected_repeats"
   ],
   "note": ""
  },
  {
   "property": "C54",
   "status": "proved",
   "theorems": [
    "Verif.MCMC.C54_acceptance",
    "Verif.MCMC.C54_detailed_balance",
    "Verif.MCMC.C54_support",
    "Verif.MCMC.C54_stationary"
   ],
   "note": ""
  },
  {
   "property": "C55",
   "status": "partial",
   "theorems": [
    "Verif.MCMC.C55_max_f_partial",
    "Verif.MCMC.C55_max_x_violated"
   ],
   "note": "max f(x) is the maximum over the positions after the start (partial); max x is off by one (violated)."
  },
  {
   "property": "C56",
   "status": "partial",
   "theorems": [
    "Verif.MCMC.C56_only_every_K",
    "Verif.MCMC.C56_adaptation_step",
    "Verif.MCMC.C56_valid_covariance_partial",
    "Verif.MCMC.C56_small_block_violated",
    "Verif.MCMC.C56_default_step",
    "Verif.MCMC.C56_scale_unused_violated"
   ],
   "note": "Covariance stays PSD and scale positive for K >= 3; for K = 1, 2 the covariance becomes NaN (violated); the scale is never used by the normal proposal (violated)."
  },
  {
   "property": "C57",
   "status": "partial",
   "theorems": [
    "Verif.BO.C57_bijection_partial",
    "Verif.BO.C57_to_unit_degenerate",
    "Verif.BO.C57_log_axes",
    "Verif.BO.C57_degenerate_violated",
    "Verif.BO.C57_tiny_violated"
   ],
   "note": "Proved for axes of positive width (log axes from 1e-300 on). Violated: an axis with equal bounds is mapped outside the box; a log axis starting below 1e-300 does not round-trip."
  },
  {
   "property": "C58",
   "status": "partial",
   "theorems": [
    "Verif.BO.C58_budget_partial",
    "Verif.BO.C58_small_budget",
    "Verif.BO.C58_small_budget_violated"
   ],
   "note": "Proved for max_iter >= 2, for runs that raise too. Violated below: two evaluations are always made."
  },
  {
   "property": "C59",
   "status": "partial",
   "theorems": [
    "Verif.BO.C59_evaluated_in_bounds_partial",
    "Verif.BO.C59_exact_smallest",
    "Verif.BO.C59_start_evaluated",
    "Verif.BO.C59_not_worse_than_start",
    "Verif.BO.C59_noisy",
    "Verif.BO.C59_noisy_choice",
    "Verif.BO.C59_stopped_before_start_raises",
    "Verif.BO.C59_completes"
   ],
   "note": "In bounds for axes of positive width (an axis with equal bounds is violated, see C57). The inner GP, Sobol points and acquisition are arbitrary functions. A run stopped before its first evaluation raises."
  },
  {
   "property": "C60",
   "status": "partial",
   "theorems": [
    "Verif.BO.C60_stored_partial",
    "Verif.BO.C60_not_recommended",
    "Verif.BO.C60_huge_value_violated",
    "Verif.BO.C60_noise"
   ],
   "note": "Proved when finite objective values stay below the penalty 1.8e302; violated by larger finite values."
  },
  {
   "property": "C61",
   "status": "proved",
   "theorems": [
    "Verif.FV.C61_exactly_observed",
    "Verif.FV.C61_accepts_iff"
   ],
   "note": ""
  },
  {
   "property": "C62",
   "status": "proved",
   "theorems": [
    "Verif.FV.C62_view_of_stack",
    "Verif.FV.C62_stored",
    "Verif.FV.C62_predictions"
   ],
   "note": "Stored data and view for every history of successful operations; predictions for histories whose operations are legal in the sense of C40 (positive definite K+V, noise of old points kept under a rank-n append)."
  },
  {
   "property": "C63",
   "status": "proved",
   "theorems": [
    "Verif.Kernels.C63_sparse_pointwise",
    "Verif.Kernels.C63_sparse_equals_dense",
    "Verif.Kernels.C63_empty",
    "Verif.Kernels.C63_distributed"
   ],
   "note": "Holds for every KD-tree answer meeting QueryContract (contains all pairs within the support radius, each once). The empty first set, where the dense version raises and the sparse one returns an empty matrix, is stated in C63_empty."
  },
  {
   "property": "C64",
   "status": "partial",
   "theorems": [
    "Verif.Kernels.C64_squared_exponential",
    "Verif.Kernels.C64_squared_exponential_robust",
    "Verif.Kernels.C64_exponential",
    "Verif.Kernels.C64_exponential_robust",
    "Verif.Kernels.C64_matern1",
    "Verif.Kernels.C64_matern1_robust",
    "Verif.Kernels.C64_matern2",
    "Verif.Kernels.C64_matern2_robust_violated",
    "Verif.Kernels.C64_wendland",
    "Verif.Kernels.C64_bump",
    "Verif.Kernels.C64_periodic",
    "Verif.Kernels.C64_sparse_kernel_partial",
    "Verif.Kernels.C64_sparse_kernel_violated"
   ],
   "note": "Holds for squared exponential, exponential, Matern 1 and 2, Wendland, bump and periodic kernels and for the robust versions except Matern 2. Violated: matern_kernel_diff2_robust exceeds 1.8 at some distance (coefficient 15 phi^4); sparse_kernel is below 0.28 at distance zero."
  },
  {
   "property": "C65",
   "status": "partial",
   "theorems": [
    "Verif.Kernels.C65_exponential",
    "Verif.Kernels.C65_matern1",
    "Verif.Kernels.C65_squared_exponential_partial",
    "Verif.Kernels.C65_squared_exponential_violated",
    "Verif.Kernels.C65_matern2_violated"
   ],
   "note": "Exponential and Matern 1: proved. Squared exponential: the robust version is the plain one with length 1/(sqrt 2 phi), not 1/phi^2. Matern 2: no equivalent length exists."
  },
  {
   "property": "C66",
   "status": "partial",
   "theorems": [
    "Verif.Kernels.C66_linear",
    "Verif.Kernels.C66_polynomial",
    "Verif.Kernels.C66_dot_product",
    "Verif.Kernels.C66_non_stat",
    "Verif.Kernels.C66_squared_exponential",
    "Verif.Kernels.C66_squared_exponential_robust",
    "Verif.Kernels.C66_squared_exponential_aniso",
    "Verif.Kernels.C66_periodic",
    "Verif.Kernels.C66_sle",
    "Verif.Kernels.C66_matern2_robust_violated"
   ],
   "note": "Also proved for squared exponential, periodic and smoothed linear kernels in every dimension; violated by matern_kernel_diff2_robust."
  },
  {
   "property": "C67",
   "status": "proved",
   "theorems": [
    "Verif.Kernels.C67_length_scale",
    "Verif.Kernels.C67_amplitude",
    "Verif.Kernels.C67_coincident"
   ],
   "note": "Every pair of points, including coincident ones, and positive length scales."
  },
  {
   "property": "C68",
   "status": "partial",
   "theorems": [
    "Verif.Ggmp.C68_new_roundtrip",
    "Verif.Ggmp.C68_vector_roundtrip",
    "Verif.Ggmp.C68_set_roundtrip",
    "Verif.Ggmp.C68_bounds_order",
    "Verif.Ggmp.C68_longer_component_violated",
    "Verif.Ggmp.C68_shorter_component_violated",
    "Verif.Ggmp.C68_likelihood_roundtrip"
   ],
   "note": "Packing and unpacking are inverse for components of the declared sizes, through new, set and vector forms. Violated: set accepts a longer component and drops the surplus, and refuses a shorter one only after replacing the attributes."
  },
  {
   "property": "C69",
   "status": "partial",
   "theorems": [
    "Verif.Ggmp.C69_station_rows",
    "Verif.Ggmp.C69_step",
    "Verif.Ggmp.C69_start",
    "Verif.Ggmp.C69_em",
    "Verif.Ggmp.C69_stop",
    "Verif.Ggmp.C69_no_observation_violated",
    "Verif.Ggmp.C69_no_sample"
   ],
   "note": "Both EM versions, any number of rounds, given at least one usable observation (rows built from a station are usable, C69_station_rows). Violated: without observations the density version returns NaN weights."
  },
  {
   "property": "C70",
   "status": "partial",
   "theorems": [
    "Verif.Ggmp.C70_decrease_bound",
    "Verif.Ggmp.C70_step_partial",
    "Verif.Ggmp.C70_floor",
    "Verif.Ggmp.C70_history",
    "Verif.Ggmp.C70_clamp_violated"
   ],
   "note": "Exact for floor <= 0 and weights of at least 1e-300; C70_decrease_bound and C70_floor bound the loss otherwise. Violated by the clamp at 1e-300: a decrease of the order of 1e-300 is possible."
  },
  {
   "property": "C71",
   "status": "proved",
   "theorems": [
    "Verif.Ggmp.C71_mean",
    "Verif.Ggmp.C71_variance",
    "Verif.Ggmp.C71_bounds"
   ],
   "note": "Mean and variance are those of the Gaussian mixture measure."
  },
  {
   "property": "C72",
   "status": "partial",
   "theorems": [
    "Verif.Ggmp.C72_sequence",
    "Verif.Ggmp.C72_sequence_total",
    "Verif.Ggmp.C72_sequence_closest",
    "Verif.Ggmp.C72_mst",
    "Verif.Ggmp.C72_mst_all_partial",
    "Verif.Ggmp.C72_mst_identical_violated"
   ],
   "note": "Sequence and tree alignment, for every assignment solver. Violated: if all of several inputs coincide, the tree alignment succeeds with inputs that have no result."
  },
  {
   "property": "C73",
   "status": "partial",
   "theorems": [
    "Verif.Ggmp.C73_nearest_first",
    "Verif.Ggmp.C73_traversal_ends",
    "Verif.Ggmp.C73_traversal",
    "Verif.Ggmp.C73_reach",
    "Verif.Ggmp.C73_parents_first",
    "Verif.Ggmp.C73_all_inputs_partial",
    "Verif.Ggmp.C73_identical_inputs_violated"
   ],
   "note": "For every adjacency: root first, no repetition, parents first, exactly the reachable inputs. All inputs are listed if there is one input or two that differ. Violated if all of several inputs coincide: only the root is listed. Contract for scipy's spanning tree stated in MstContract."
  },
  {
   "property": "C74",
   "status": "partial",
   "theorems": [
    "Verif.Ggmp.C74_positive_mass",
    "Verif.Ggmp.C74_grid",
    "Verif.Ggmp.C74_histogram",
    "Verif.Ggmp.C74_fallback_violated"
   ],
   "note": "For densities with positive mass. Violated: the uniform fallback has Riemann sum 1/n."
  },
  {
   "property": "C75",
   "status": "proved",
   "theorems": [
    "Verif.Actor.C75_snapshots",
    "Verif.Actor.C75_lock_released",
    "Verif.Actor.C75_adam",
    "Verif.Actor.C75_mcmc",
    "Verif.Actor.C75_bo"
   ],
   "note": "Interleaving model of worker, lock and any number of readers; the records published by the Adam, MCMC and BO actors are instances. Includes that the lock is free whenever nobody holds it."
  },
  {
   "property": "C76",
   "status": "partial",
   "theorems": [
    "Verif.Actor.C76_stop_partial",
    "Verif.Actor.C76_ends_partial",
    "Verif.Actor.C76_stop_before_start_violated",
    "Verif.Actor.C76_unbounded_violated"
   ],
   "note": "At most one further iteration if stop arrives after start has begun, and the worker then ends. Violated: a stop before start is overwritten by start, after which the number of iterations is unbounded (train does not wait for start)."
  },
  {
   "property": "C77",
   "status": "proved",
   "theorems": [
    "Verif.Metrics.C77_rmse",
    "Verif.Metrics.C77_mae",
    "Verif.Metrics.C77_r2",
    "Verif.Metrics.C77_picp",
    "Verif.Metrics.C77_mpiw",
    "Verif.Metrics.C77_interval_score",
    "Verif.Metrics.C77_coverage_curve",
    "Verif.Metrics.C77_default_levels",
    "Verif.Metrics.C77_nrmse_scale",
    "Verif.Metrics.C77_mape"
   ],
   "note": "norm.ppf enters through its contract (existence proved). Also for nrmse, mape and the coverage curve with its default levels."
  },
  {
   "property": "C78",
   "status": "partial",
   "theorems": [
    "Verif.Guard.C78_exclusive",
    "Verif.Guard.C78_refused",
    "Verif.Guard.C78_after_collect",
    "Verif.Guard.C78_failed_constructor",
    "Verif.Guard.C78_none_inside",
    "Verif.Guard.C78_threads_violated"
   ],
   "note": "Single-threaded histories of constructor, failure and collection. Violated for constructors overlapping in threads: both pass the check."
  },
  {
   "property": "C79",
   "status": "partial",
   "theorems": [
    "Verif.GP.C79_training_points",
    "Verif.GP.C79_elsewhere_partial",
    "Verif.GP.C79_same_size_violated"
   ],
   "note": "Proved at the training points, and elsewhere under the stated condition. When the number of prediction points equals the number of measured variances the measured values are reused for unrelated points (C79_same_size_violated)."
  },
  {
   "property": "C80",
   "status": "partial",
   "theorems": [
    "Verif.GP.C80_sum_partial",
    "Verif.GP.C80_rejects",
    "Verif.GP.C80_broadcast_violated"
   ],
   "note": "Sum of K and V proved for compatible shapes; broadcasting accepts 1 x n noise (C80_broadcast_violated)."
  },
  {
   "property": "C81",
   "status": "proved",
   "theorems": [
    "Verif.Gp2Scale.C81_indices_fit",
    "Verif.Gp2Scale.C81_narrow_when_possible"
   ],
   "note": ""
  },
  {
   "property": "C82",
   "status": "partial",
   "theorems": [
    "Verif.FV.C82_rejected_early_partial",
    "Verif.FV.C82_missing_noise_violated"
   ],
   "note": "Holds for updates whose lengths, task number or input dimension do not fit (append). Violated: an append that forgets the noise variances raises after the multi-task data were replaced, noise variances dropped; with two or more tasks every later append then fails."
  },
  {
   "property": "C83",
   "status": "proved",
   "theorems": [
    "Verif.Kernels.C83_weights",
    "Verif.Kernels.C83_width"
   ],
   "note": ""
  },
  {
   "property": "C84",
   "status": "proved",
   "theorems": [
    "Verif.Kernels.C84_exponential",
    "Verif.Kernels.C84_matern1",
    "Verif.Kernels.C84_matern2",
    "Verif.Kernels.C84_exponential_robust",
    "Verif.Kernels.C84_matern1_robust",
    "Verif.Kernels.C84_default_kernel",
    "Verif.Kernels.C84_default_model",
    "Verif.Kernels.C84_default_noise",
    "Verif.Kernels.C84_zero_values_rejected"
   ],
   "note": "Every dimension, through Gaussian mixture integrals. Positive noise variances, or the default noise with some nonzero value. With all values zero the default noise is zero and a repeated point is rejected (C84_zero_values_rejected). Wendland kernels, positive definite only up to three dimensions, are not covered."
  },
  {
   "property": "C85",
   "status": "proved",
   "theorems": [
    "Verif.Ggmp.C85_bhattacharyya_symm",
    "Verif.Ggmp.C85_bhattacharyya_nonneg",
    "Verif.Ggmp.C85_wasserstein",
    "Verif.Ggmp.C85_kl"
   ],
   "note": "Also lower bound of the Kullback-Leibler divergence."
  },
  {
   "property": "C86",
   "status": "partial",
   "theorems": [
    "Verif.Actor.C86_failure_silent_violated",
    "Verif.Actor.C86_flag_means_working",
    "Verif.Actor.C86_flag_after_failure_violated",
    "Verif.Actor.C86_bo_flag",
    "Verif.Actor.C86_adam_mcmc_flag_violated"
   ],
   "note": "Violated for the Adam and MCMC actors and, apart from the status staying 'running', the BO actor: a failed run is indistinguishable from a slow one."
  },
  {
   "property": "C87",
   "status": "proved",
   "theorems": [
    "Verif.Metrics.C87_coverage"
   ],
   "note": "norm.ppf through its contract."
  },
  {
   "property": "C88",
   "status": "proved",
   "theorems": [
    "Verif.Metrics.C88_crps_is_integral",
    "Verif.Metrics.C88_crps",
    "Verif.Metrics.C88_distribution",
    "Verif.Metrics.C88_bounds"
   ],
   "note": "scipy's pdf and cdf taken as the standard normal density and distribution function of Mathlib."
  },
  {
   "property": "C89",
   "status": "proved",
   "theorems": [
    "Verif.Metrics.C89_gaussian_1d",
    "Verif.Metrics.C89_nlpd",
    "Verif.Metrics.C89_nlpd_best_variance",
    "Verif.Metrics.C89_msll"
   ],
   "note": "Normal density of Mathlib."
  },
  {
   "property": "C90",
   "status": "partial",
   "theorems": [
    "Verif.Metrics.C90_picp_column_violated"
   ],
   "note": "Violated by picp (and coverage_curve): values in a column are compared with all intervals. The other metrics are covered by C91."
  },
  {
   "property": "C91",
   "status": "partial",
   "theorems": [
    "Verif.Metrics.C91_accepts_partial",
    "Verif.Metrics.C91_single_point_violated"
   ],
   "note": "Violated for one test point of a single-output GP: the mean is squeezed to a scalar, so every checking metric refuses the documented shape and crps, nlpd, msll and interval_score refuse every shape."
  },
  {
   "property": "C92",
   "status": "partial",
   "theorems": [
    "Verif.GP.C92_mean_gradient",
    "Verif.GP.C92_mean_gradient_hyperparameters",
    "Verif.GP.C92_variance_gradient",
    "Verif.GP.C92_covariance_gradient_violated"
   ],
   "note": "Proved for the posterior mean (all components, stored and passed hyperparameters) and the posterior variance. Violated for the off-diagonal entries of dS/dx, which are not symmetric."
  },
  {
   "property": "C93",
   "status": "proved",
   "theorems": [
    "Verif.GP.C93_default_mean",
    "Verif.GP.C93_default_noise"
   ],
   "note": ""
  },
  {
   "property": "C94",
   "status": "partial",
   "theorems": [
    "Verif.GP.C94_covariance_independent_of_values",
    "Verif.GP.C94_linear",
    "Verif.GP.C94_constant",
    "Verif.GP.C94_shift_partial",
    "Verif.GP.C94_default_noise_violated"
   ],
   "note": "Proved whenever the noise is not the default one. The default noise depends on the offset of the data, so shifting the values does not shift the predictions: concrete witness."
  },
  {
   "property": "C95",
   "status": "proved",
   "theorems": [
    "Verif.GP.C95_joint_prior",
    "Verif.GP.C95_entropy",
    "Verif.GP.C95_mean_gradient",
    "Verif.GP.C95_entropy_gradient"
   ],
   "note": ""
  },
  {
   "property": "C96",
   "status": "proved",
   "theorems": [
    "Verif.MCMC.C96_frozen",
    "Verif.MCMC.C96_block"
   ],
   "note": ""
  },
  {
   "property": "C97",
   "status": "proved",
   "theorems": [
    "Verif.MCMC.C97_default_break"
   ],
   "note": ""
  },
  {
   "property": "C98",
   "status": "partial",
   "theorems": [
    "Verif.MCMC.C98_result_partial",
    "Verif.MCMC.C98_break_violated",
    "Verif.MCMC.C98_first_break_violated"
   ],
   "note": "Holds when the run ends by its number of updates. When the break condition ends it, the last position is missing from x and the statistics while f(x) and time stamps contain it; a break at the first iteration returns {}."
  },
  {
   "property": "C99",
   "status": "partial",
   "theorems": [
    "Verif.Train.C99_after_success_partial",
    "Verif.Train.C99_shape",
    "Verif.Train.C99_off",
    "Verif.Train.C99_first_evaluation_violated",
    "Verif.Train.C99_failed_evaluation_violated"
   ],
   "note": "Holds between two successive evaluations the first of which succeeded. Violated for the first evaluation of a training run (the committed solution is used with no drift check) and after a failed evaluation (the reference matrix moves, the solution does not)."
  },
  {
   "property": "C100",
   "status": "proved",
   "theorems": [
    "Verif.BO.C100_early_stop",
    "Verif.BO.C100_flag"
   ],
   "note": ""
  },
  {
   "property": "C101",
   "status": "partial",
   "theorems": [
    "Verif.BO.C101_converged",
    "Verif.BO.C101_reasons",
    "Verif.BO.C101_design_stop_violated"
   ],
   "note": "Violated in one case: early_stop answering yes during the initial design gives stopped_early = True with stopping_reason 'budget'. Everything else in the statement is proved."
  },
  {
   "property": "C102",
   "status": "proved",
   "theorems": [
    "Verif.BO.C102_callback"
   ],
   "note": ""
  },
  {
   "property": "C103",
   "status": "proved",
   "theorems": [
    "Verif.BO.C103_dx",
    "Verif.BO.C103_signal",
    "Verif.BO.C103_length",
    "Verif.BO.C103_trailing",
    "Verif.BO.C103_noise",
    "Verif.BO.C103_coincident"
   ],
   "note": "The noise derivative is proved above the floor 1e-12 (below it the code still returns 1; the bounds keep the level at or above 1e-12)."
  },
  {
   "property": "C104",
   "status": "partial",
   "theorems": [
    "Verif.BO.C104_box",
    "Verif.BO.C104_bounds_proper",
    "Verif.BO.C104_start_partial",
    "Verif.BO.C104_start_violated",
    "Verif.BO.C104_fit_succeeds",
    "Verif.BO.C104_scale",
    "Verif.BO.C104_scale_exact"
   ],
   "note": "Bounds and acceptance are proved. The starting point lies in the bounds exactly when the residual variance is at least 1/(1e12-1e8); violated for flatter objectives (the inner training then starts at a random point)."
  },
  {
   "property": "C105",
   "status": "partial",
   "theorems": [
    "Verif.BO.C105_value_partial",
    "Verif.BO.C105_default_mean_violated",
    "Verif.BO.C105_mean_gradient",
    "Verif.BO.C105_variance_gradient"
   ],
   "note": "Mean and variance agree when a polynomial mean was fitted; gradients always. Violated with fewer than 2(1+2d) evaluations: the surrogate then has a constant prior mean which the gradient search leaves out, so the two means differ by the average of the values."
  },
  {
   "property": "C106",
   "status": "partial",
   "theorems": [
    "Verif.BO.C106_expected_improvement",
    "Verif.BO.C106_positive",
    "Verif.BO.C106_value",
    "Verif.BO.C106_gradient",
    "Verif.BO.C106_agree_partial",
    "Verif.BO.C106_agree_violated"
   ],
   "note": "Expectation, positivity and gradient proved. The two implementations agree with a polynomial mean and a variance above both floors; violated without polynomial mean (strict inequality whenever the values do not average to zero)."
  },
  {
   "property": "C107",
   "status": "proved",
   "theorems": [
    "Verif.BO.C107_search",
    "Verif.BO.C107_value",
    "Verif.BO.C107_defined"
   ],
   "note": "scipy's minimize is assumed to stay in the box and to report the value of the function it was given; candidates are taken in the order of argsort."
  },
  {
   "property": "C108",
   "status": "proved",
   "theorems": [
    "Verif.BO.C108_curvature",
    "Verif.BO.C108_symmetric",
    "Verif.BO.C108_covariance",
    "Verif.BO.C108_quadratic_minimum"
   ],
   "note": "The eigenvalue test is modelled as positive definiteness."
  },
  {
   "property": "C109",
   "status": "partial",
   "theorems": [
    "Verif.Kernels.C109_optimal",
    "Verif.Kernels.C109_defined",
    "Verif.Kernels.C109_pseudometric",
    "Verif.Kernels.C109_zero_iff",
    "Verif.Kernels.C109_measures_violated",
    "Verif.Kernels.C109_exponential_psd"
   ],
   "note": "Optimality, pseudo-metric and positive semidefiniteness proved. Violated as a distance between measures (documentation calls rows unnormalised 1-D measures): rows are compared as samples, so equal masses in different bins are at distance zero."
  },
  {
   "property": "C110",
   "status": "partial",
   "theorems": [
    "Verif.Ggmp.C110_exact_partial",
    "Verif.Ggmp.C110_symmetric",
    "Verif.Ggmp.C110_separates",
    "Verif.Ggmp.C110_self",
    "Verif.Ggmp.C110_nonneg",
    "Verif.Ggmp.C110_singular_violated"
   ],
   "note": "eigh is a contract (satisfied by the spectral theorem). Exact for covariances of at least 1e-6, because eigenvalues are clipped at 1e-12 inside both roots; violated for singular covariances (error 2e-6 in the witness)."
  },
  {
   "property": "C111",
   "status": "proved",
   "theorems": [
    "Verif.Ggmp.C111_energy",
    "Verif.Ggmp.C111_defined",
    "Verif.Ggmp.C111_symmetric",
    "Verif.Ggmp.C111_same_distribution"
   ],
   "note": ""
  },
  {
   "property": "C112",
   "status": "partial",
   "theorems": [
    "Verif.Ggmp.C112_symmetric",
    "Verif.Ggmp.C112_permutation",
    "Verif.Ggmp.C112_defined",
    "Verif.Ggmp.C112_identical",
    "Verif.Ggmp.C112_default_bandwidth",
    "Verif.Ggmp.C112_scale",
    "Verif.Ggmp.C112_unbiased_partial"
   ],
   "note": "Unbiasedness for a given bandwidth; with the default bandwidth, which depends on the samples, no such statement holds in general. The rest includes the default."
  },
  {
   "property": "C113",
   "status": "partial",
   "theorems": [
    "Verif.Ggmp.C113_defined",
    "Verif.Ggmp.C113_stop",
    "Verif.Ggmp.C113_range_partial",
    "Verif.Ggmp.C113_ascent_partial",
    "Verif.Ggmp.C113_decrease_violated",
    "Verif.Ggmp.C113_relabel",
    "Verif.Ggmp.C113_weights_violated",
    "Verif.Ggmp.C113_empty_component_violated"
   ],
   "note": "Range proved for the hull of the data and zero, because an empty component is moved to zero (C113_empty_component_violated, which also shows that the caller's means_init is overwritten); ascent up to the explicit cost of the added 1e-6 (C113_decrease_violated shows a real decrease). Means are sorted but the fixed weights are not, so the result may not describe the weights passed in (C113_weights_violated)."
  },
  {
   "property": "C114",
   "status": "partial",
   "theorems": [
    "Verif.Ggmp.C114_transparent",
    "Verif.Ggmp.C114_files",
    "Verif.Ggmp.C114_stored",
    "Verif.Ggmp.C114_hit",
    "Verif.Ggmp.C114_failed_violated",
    "Verif.Ggmp.C114_series_violated",
    "Verif.Ggmp.C114_stamp_violated"
   ],
   "note": "Transparency for histories starting from an empty directory with file names distinct for distinct parameters and series determined by station and parameters. Violated: a failed fit yields a zero row, the series is not part of the key, rows of a file with other parameters are merged and restamped."
  },
  {
   "property": "C115",
   "status": "partial",
   "theorems": [
    "Verif.Ggmp.C115_stop",
    "Verif.Ggmp.C115_failure",
    "Verif.Ggmp.C115_budget_partial",
    "Verif.Ggmp.C115_budget_violated",
    "Verif.Ggmp.C115_parallel"
   ],
   "note": "max_total is exceeded when chunk does not divide it (C115_budget_violated); the bound max_total + chunk holds. A task is a function of its component: random numbers shared between threads are outside the model."
  },
  {
   "property": "C116",
   "status": "proved",
   "theorems": [
    "Verif.Ggmp.C116_density",
    "Verif.Ggmp.C116_singular",
    "Verif.Ggmp.C116_relabel",
    "Verif.Ggmp.C116_normalised",
    "Verif.Ggmp.C116_sample",
    "Verif.Ggmp.C116_weights",
    "Verif.Ggmp.C116_types",
    "Verif.Ggmp.C116_fit"
   ],
   "note": "multivariate_normal.logpdf is the log density for positive definite covariances and raises otherwise; the generator is a contract (independent component numbers and, per component, independent normal draws) shown to be satisfiable. Normalisation and sampling need weights of at least 1e-300, the floor of the likelihood. Weights that are all negative pass the sampler's check (C116_weights states exactly which weights are accepted)."
  },
  {
   "property": "C117",
   "status": "proved",
   "theorems": [
    "Verif.Ggmp.C117_defined",
    "Verif.Ggmp.C117_symmetric",
    "Verif.Ggmp.C117_triangle",
    "Verif.Ggmp.C117_transport",
    "Verif.Ggmp.C117_same",
    "Verif.Ggmp.C117_zero",
    "Verif.Ggmp.C117_identifies",
    "Verif.Ggmp.C117_scalar",
    "Verif.Ggmp.C117_optimal",
    "Verif.Ggmp.C117_unbiased",
    "Verif.Ggmp.C117_consistent"
   ],
   "note": "scipy.stats.wasserstein_distance is the area between the empirical distribution functions (its documented definition; C117_optimal shows that this is the optimal transport cost for equal sizes). The draws of the generator are an argument, their law a hypothesis shown to hold for normal draws."
  },
  {
   "property": "C118",
   "status": "partial",
   "theorems": [
    "Verif.Train.C118_gp2Scale",
    "Verif.Train.C118_async",
    "Verif.Train.C118_rejects",
    "Verif.Train.C118_objective",
    "Verif.Train.C118_gradient_partial",
    "Verif.Train.C118_hessian_partial",
    "Verif.Train.C118_gradient_violated",
    "Verif.Train.C118_hessian_violated",
    "Verif.Train.C118_result"
   ],
   "note": "Complete case analysis of the argument resolution; coherence of gradient and Hessian with the objective proved when the user gives objective and derivative together. Violated otherwise: adam with a user objective and no gradient is accepted and descends the likelihood instead (C118_gradient_violated, adam_ignores_objective); local and hgdl with objective and gradient but no Hessian are handed the Hessian of the likelihood (C118_hessian_violated)."
  },
  {
   "property": "C119",
   "status": "partial",
   "theorems": [
    "Verif.Train.C119_start",
    "Verif.Train.C119_bounds",
    "Verif.Train.C119_box",
    "Verif.Train.C119_units",
    "Verif.Train.C119_nan",
    "Verif.Train.C119_valid",
    "Verif.Train.C119_training",
    "Verif.Train.C119_constant_column_violated",
    "Verif.Train.C119_task_bounds",
    "Verif.Train.C119_single_task_violated",
    "Verif.Train.C119_constant_values_violated"
   ],
   "note": "Exact characterisation of defaults and bounds, equivariance and validity on the whole box. Violated for degenerate data: a constant input column (C119_constant_column_violated), hence every single-task fvGP (C119_single_task_violated), gives the length-scale bounds [0, 0], so that every start of training yields an all-NaN covariance, even if valid hyperparameters were given; constant values give a prior of variance zero (C119_constant_values_violated). NaN and infinities are modelled in C119_nan."
  },
  {
   "property": "C120",
   "status": "partial",
   "theorems": [
    "Verif.Ggmp.C120_moments",
    "Verif.Ggmp.C120_moments_range",
    "Verif.Ggmp.C120_density_terms",
    "Verif.Ggmp.C120_moments_units",
    "Verif.Ggmp.C120_default_likelihoods",
    "Verif.Ggmp.C120_single_component_violated",
    "Verif.Ggmp.C120_single_component_posterior_violated",
    "Verif.Ggmp.C120_call_order_violated",
    "Verif.Ggmp.C120_init_gps",
    "Verif.Ggmp.C120_train",
    "Verif.Ggmp.C120_train_density",
    "Verif.Ggmp.C120_train_failure",
    "Verif.Ggmp.C120_train_refused_late_violated",
    "Verif.Ggmp.C120_start_outside_bounds_violated",
    "Verif.Ggmp.C120_train_current",
    "Verif.Ggmp.C120_train_given",
    "Verif.Ggmp.C120_new"
   ],
   "note": "Proved: moments of stations (range, units), default likelihoods for two or more components, initGPs, train, density weights on the simplex, failures keep likelihoods and hps_obj. Violated: one component is offset by -1 (np.linspace(-1, 1, 1)); calls out of order raise TypeError instead of the documented ValueError because __getattr__ answers for missing attributes; an unknown weight_method is refused only after the GPs were trained, leaving hps_obj stale; initGPs sets the last hyperparameter outside its bounds and train then raises. GP construction, GP training and GP predictions are parameters."
  },
  {
   "property": "C121",
   "status": "partial",
   "theorems": [
    "Verif.Ggmp.C121_arguments",
    "Verif.Ggmp.C121_device_ids",
    "Verif.Ggmp.C121_cpu_fallback",
    "Verif.Ggmp.C121_cpu_fallback_violated",
    "Verif.Ggmp.C121_safe_init",
    "Verif.Ggmp.C121_component_keywords",
    "Verif.Ggmp.C121_unknown_keyword_violated",
    "Verif.Ggmp.C121_device_context",
    "Verif.Ggmp.C121_exception_masked_violated"
   ],
   "note": "Proved: argument resolution, device ids, CPU fallback, constructor loop, component keywords, device context. Violated: compute_device=gpu survives without GPU if all device keys are given as cpu; unknown keywords are dropped silently; an exception inside the device context is replaced by RuntimeError. Detection of GPUs is a parameter."
  },
  {
   "property": "C122",
   "status": "partial",
   "theorems": [
    "Verif.Actor.C122_adam_report",
    "Verif.Actor.C122_adam_violated",
    "Verif.Actor.C122_mcmc",
    "Verif.Actor.C122_mcmc_same_partial",
    "Verif.Actor.C122_mcmc_break_violated",
    "Verif.Actor.C122_bo",
    "Verif.Actor.C122_mcmc_stop",
    "Verif.Actor.C122_adam_stop"
   ],
   "note": "Proved: Adam snapshot is that of the last iteration with its value and gradient and equals the synchronous result of one iteration less; MCMC runs agree in positions and failures and in the result unless the default break condition ended the run; BO reports the recommendation. Violated: Adam snapshot lags one step behind; MCMC after break has one more position than the synchronous result. Dask transport is not modelled."
  },
  {
   "property": "C123",
   "status": "partial",
   "theorems": [
    "Verif.Actor.C123_start",
    "Verif.Actor.C123_start_violated",
    "Verif.Actor.C123_stop",
    "Verif.Actor.C123_stop_warning_violated",
    "Verif.Actor.C123_kill_partial",
    "Verif.Actor.C123_kill_violated",
    "Verif.Actor.C123_update"
   ],
   "note": "Proved: starts of the right length, stop, adoption of results. Violated: starts of the wrong length are accepted by asynchronous MCMC, Adam and BO; an unreachable worker is reported as no training running; kill_client leaves the client connected for MCMC, Adam and BO. HGDL cancel and kill are contracts."
  },
  {
   "property": "C124",
   "status": "partial",
   "theorems": [
    "Verif.GP.C124_differences",
    "Verif.GP.C124_exact",
    "Verif.GP.C124_bounds_violated",
    "Verif.GP.C124_inside_partial",
    "Verif.GP.C124_selection",
    "Verif.GP.C124_default_kernel_partial",
    "Verif.GP.C124_economy_violated",
    "Verif.GP.C124_gradient_partial",
    "Verif.GP.C124_hessian",
    "Verif.GP.C124_gradient_check"
   ],
   "note": "Proved: error bounds of the differences, exactness for quadratic dependence, selection for user kernels in both modes, error bound of the likelihood gradient for hyperparameters of covariance or mean only, Hessian and gradient check. Violated: with the default kernel ram_economy is silently turned off and a noise derivative written for it makes every gradient fail; differences evaluate user functions outside of the bounds. Exact reals: cancellation in floating point is not covered."
  },
  {
   "property": "C125",
   "status": "partial",
   "theorems": [
    "Verif.GP.C125_representable_partial",
    "Verif.GP.C125_float64_gradient",
    "Verif.GP.C125_integer_differences_violated",
    "Verif.GP.C125_integer_hessian_violated",
    "Verif.GP.C125_integer_gradient_violated",
    "Verif.GP.C125_single_violated",
    "Verif.GP.C125_float_chain",
    "Verif.GP.C125_integer_chain_violated",
    "Verif.GP.C125_integer_stuck_violated"
   ],
   "note": "Proved for arrays that can represent the moved numbers. Violated for integer arrays (derivative is a difference to the preceding integer times 5e7, Hessian and gradient check are zero, MCMC chains stay on integer vectors) and for float32 (derivative zero at 1)."
  },
  {
   "property": "C126",
   "status": "proved",
   "theorems": [
    "Verif.Tools.C126_line",
    "Verif.Tools.C126_grid",
    "Verif.Tools.C126_cover",
    "Verif.Tools.C126_single"
   ],
   "note": "Exact arithmetic; np.linspace by its documentation."
  },
  {
   "property": "C127",
   "status": "partial",
   "theorems": [
    "Verif.Tools.C127_lower",
    "Verif.Tools.C127_reached",
    "Verif.Tools.C127_rowwise_violated",
    "Verif.Tools.C127_small_violated",
    "Verif.Tools.C127_shape"
   ],
   "note": "Proved for block-wise computation: the estimate is a lower bound for every schedule and reached up to the factor (1+b/D)(1+2b/D) and one block. Violated for row-wise computation (exceeds the time by any factor) and for a single block. Communication and differences between workers are not modelled."
  },
  {
   "property": "C128",
   "status": "partial",
   "theorems": [
    "Verif.Tools.C128_count",
    "Verif.Tools.C128_roundtrip",
    "Verif.Tools.C128_shapes",
    "Verif.Tools.C128_pointwise",
    "Verif.Tools.C128_lipschitz",
    "Verif.Tools.C128_value",
    "Verif.Tools.C128_distinct_violated"
   ],
   "note": "Violated: the activation after the last layer can map all points to the same point. The rest is proved with exact arithmetic inside of the layers and single precision storage of weights (no overflow or subnormal numbers)."
  },
  {
   "property": "C129",
   "status": "partial",
   "theorems": [
    "Verif.LinAlg.Device.C129_warned",
    "Verif.LinAlg.Device.C129_requested",
    "Verif.LinAlg.Device.C129_reason",
    "Verif.LinAlg.Device.C129_found",
    "Verif.LinAlg.Device.C129_device_partial",
    "Verif.LinAlg.Device.C129_cpu_violated",
    "Verif.LinAlg.Device.C129_index_violated",
    "Verif.LinAlg.Device.C129_gradient_violated"
   ],
   "note": "Violated: GPU_device naming a device that is no GPU, or an index beyond the devices, passes as usable; the gradient of the likelihood ignores args and so the named engine and device. Values of args of undocumented types are not modelled."
  },
  {
   "property": "C130",
   "status": "partial",
   "theorems": [
    "Verif.LinAlg.Device.C130_transparent",
    "Verif.LinAlg.Device.C130_fallback",
    "Verif.LinAlg.Device.C130_nonPD",
    "Verif.LinAlg.Device.C130_nonPD_violated",
    "Verif.LinAlg.Device.C130_rank1_violated",
    "Verif.LinAlg.Device.C130_unknown_violated",
    "Verif.LinAlg.Device.C130_singular_violated",
    "Verif.LinAlg.Device.C130_update_key_violated",
    "Verif.LinAlg.Device.C130_imate",
    "Verif.LinAlg.Device.C130_logdet_key_violated"
   ],
   "note": "Proved: transparency and fallback for all functions but cholesky_update_rank_1. Violated: a RuntimeError of the GPU is reported as NonPositiveDefiniteError; cholesky_update_rank_1 returns None without an engine; calculate_inv and calculate_logdet accept unknown devices; solve uses least squares for singular matrices on the CPU only; update_Chol_factor_compute_device and random_logdet_lanczos_compute_device have no effect. That the libraries compute the same values is an assumption."
  },
  {
   "property": "C131",
   "status": "partial",
   "theorems": [
    "Verif.GP.Slq.C131_evaluate_partial",
    "Verif.GP.Slq.C131_guard_partial",
    "Verif.GP.Slq.C131_stale_violated",
    "Verif.GP.Slq.C131_cached_violated",
    "Verif.GP.Slq.C131_modes",
    "Verif.GP.Slq.C131_unbiased_partial",
    "Verif.GP.Slq.C131_quarter",
    "Verif.GP.Slq.C131_guard_error"
   ],
   "note": "Proved for evaluations in stochastic modes and for objects that never used one; unbiasedness for a fixed number of probes (imate chooses the number adaptively). Violated: after a stochastic evaluation an exact one reports the old variance (automatic gp2Scale modes), so the guard may keep worse hyperparameters; a cached likelihood is followed by the variance of another evaluation."
  },
  {
   "property": "C132",
   "status": "partial",
   "theorems": [
    "Verif.State.C132_flush",
    "Verif.State.C132_overwrite",
    "Verif.State.C132_explicit_hyperparameters_partial",
    "Verif.State.C132_until_flushed_partial",
    "Verif.State.C132_append_mixture",
    "Verif.State.C132_prediction_violated",
    "Verif.State.C132_append_violated"
   ],
   "note": "Proved: set_hyperparameters and overwriting flush the old args after any history; exactly which parts of a prediction and of an append use old and new args. Violated: predictions mix the args (kernel at the prediction points new, K+V old) and appends can fail although both GPs would be fine. A prediction with explicit hyperparameters: posterior mean only, outside gp2Scale."
  },
  {
   "property": "C133",
   "status": "partial",
   "theorems": [
    "Verif.LinAlg.Modes.C133_mode_decides",
    "Verif.LinAlg.Modes.C133_no_args",
    "Verif.LinAlg.Modes.C133_args_decide",
    "Verif.LinAlg.Modes.C133_set_args_partial",
    "Verif.LinAlg.Modes.C133_set_args_violated",
    "Verif.LinAlg.Modes.C133_sharing"
   ],
   "note": "Proved: decision for all histories of writes to other dictionaries. Violated: set_args without the key silently replaces the preconditioner named in the mode by ilu. The dictionary of set_args is shared with the caller, not copied."
  },
  {
   "property": "C134",
   "status": "partial",
   "theorems": [
    "Verif.Kernels.C134_exact",
    "Verif.Kernels.C134_dense_symmetric",
    "Verif.Kernels.C134_sparse_pointwise",
    "Verif.Kernels.C134_sparse_symmetric",
    "Verif.Kernels.C134_dense_error_partial",
    "Verif.Kernels.C134_sparse_error_partial",
    "Verif.Kernels.C134_large_coordinates_violated"
   ],
   "note": "Proved with exact arithmetic, symmetry and pointwise evaluation. Partial: error bounds count the conversion to single precision, not the rounding of each operation. Violated: the dense GPU kernel converts coordinates before subtracting and collapses distinct points far from the origin."
  },
  {
   "property": "C135",
   "status": "partial",
   "theorems": [
    "Verif.LinAlg.C135_limit",
    "Verif.LinAlg.C135_explicit_default_violated",
    "Verif.LinAlg.C135_tolerance_partial",
    "Verif.LinAlg.C135_tolerance_violated",
    "Verif.LinAlg.C135_block_toggle",
    "Verif.LinAlg.C135_minres_columns",
    "Verif.LinAlg.C135_minres_solved",
    "Verif.LinAlg.C135_block_size_one",
    "Verif.LinAlg.C135_documented_names"
   ],
   "note": "Violated: an explicit None for the limit of a solver switches off the common limit; CG takes its tolerance from the entry of MINRES (a documented fallback of calculate_sparse_conj_grad, not mentioned in the documentation of GP). int() of strings that contain numbers is modelled as an error."
  },
  {
   "property": "C136",
   "status": "partial",
   "theorems": [
    "Verif.LinAlg.C136_best_step",
    "Verif.LinAlg.C136_monotone",
    "Verif.LinAlg.C136_symmetric",
    "Verif.LinAlg.C136_contracts",
    "Verif.LinAlg.C136_converges",
    "Verif.LinAlg.C136_posdef_partial",
    "Verif.LinAlg.C136_singular_violated",
    "Verif.LinAlg.C136_indefinite_violated"
   ],
   "note": "Proved: optimal steps, monotone residual, symmetry, geometric convergence to the inverse for positive definite matrices. Partial: the result is positive definite once the residual is below 1. Violated: before that it need not be (one step on a positive definite diagonal matrix of size 13 gives a negative entry), and for a singular matrix the step length becomes 0/0 and the result NaN. Exact arithmetic; onenormest is an arbitrary number."
  },
  {
   "property": "C137",
   "status": "partial",
   "theorems": [
    "Verif.Kernels.C137_distance_partial",
    "Verif.Kernels.C137_psd_partial",
    "Verif.Kernels.C137_model_partial",
    "Verif.Kernels.C137_dimension_violated",
    "Verif.Kernels.C137_rejected_violated"
   ],
   "note": "Proved for up to three coordinates (integral over overlaps of smoothed balls). Violated from 25 coordinates on: the kernel is not positive semidefinite for any positive amplitude, and there are data with positive noise that the constructor rejects. The code neither restricts nor documents the dimension. Open: 4 to 24 coordinates (by the literature also not positive semidefinite)."
  },
  {
   "property": "C138",
   "status": "partial",
   "theorems": [
    "Verif.BO.C138_warned_no_search",
    "Verif.BO.C138_not_warned_search",
    "Verif.BO.C138_number",
    "Verif.BO.C138_dimension",
    "Verif.BO.C138_advice_violated",
    "Verif.BO.C138_default_threshold"
   ],
   "note": "Proved: warning if and only if the design takes the budget; then the run is independent of surrogate, acquisition and posterior mean; the number stated is the number of evaluations; without the warning the point after the design is the acquisition's; dimension warnings exact. Violated: the number the design is said to need is cut at max_iter, so raising max_iter to any fixed multiple of it need not help."
  },
  {
   "property": "C139",
   "status": "partial",
   "theorems": [
    "Verif.Ggmp.C139_names",
    "Verif.Ggmp.C139_atomic_partial",
    "Verif.Ggmp.C139_training",
    "Verif.Ggmp.C139_tmp_violated",
    "Verif.Ggmp.C139_two_writers_violated",
    "Verif.Ggmp.C139_thinned",
    "Verif.Ggmp.C139_value",
    "Verif.Ggmp.C139_pairing_violated"
   ],
   "note": "Proved for all schedules and crash points with one thread per component: files are untouched or whole, finished threads leave their last saves; for the tags training uses without restriction; names are injective; thinning keeps rows 0, n, 2n, ... Violated: saving with tag t destroys the file of tag t.tmp; two writers of the same file can leave it torn; the value in a row belongs to the position after the one in that row, and with thinning >= 2 to no position in the file."
  },
  {
   "property": "C140",
   "status": "partial",
   "theorems": [
    "Verif.Kernels.C140_periodic_line_partial",
    "Verif.Kernels.C140_periodic_model_partial",
    "Verif.Kernels.C140_periodic_violated",
    "Verif.Kernels.C140_periodic_rejected_violated",
    "Verif.Kernels.C140_sparse_close_violated",
    "Verif.Kernels.C140_sparse_violated",
    "Verif.Kernels.C140_sparse_rejected_violated"
   ],
   "note": "Proved for the periodic kernel with one coordinate, including acceptance of the model in every direct mode. Violated: with two or more coordinates the periodic kernel is not positive semidefinite, for every length scale and period; the sparse kernel is not in any dimension for any radius, because two points closer than 1e-5 have a covariance above their variances. In both cases there are data with positive noise variances that the constructor rejects. Not settled: the sparse kernel for points at least 1e-5 apart."
  },
  {
   "property": "C141",
   "status": "partial",
   "theorems": [
    "Verif.LinAlg.C141_iterates_best_partial",
    "Verif.LinAlg.C141_never_worse_partial",
    "Verif.LinAlg.C141_outcome_partial",
    "Verif.LinAlg.C141_dependent_violated",
    "Verif.LinAlg.C141_wide_violated",
    "Verif.LinAlg.C141_zero_column_violated",
    "Verif.LinAlg.C141_nonsymmetric_violated"
   ],
   "note": "Proved in exact arithmetic for positive definite matrix and preconditioner and at least two right-hand sides: each iterate minimises the energy error over its block Krylov space, the result is never worse than the guess whatever the exit code, the iteration limit is never the reason to stop, code 3 cannot occur, and code 2 occurs only when a combination of the systems is solved exactly. Violated: linearly dependent residuals (a zero column, equal columns, more columns than unknowns) return the initial guess for all columns with a warning; with a preconditioner that is not symmetric an iteration can increase the error. Single right-hand sides are scipy's."
  },
  {
   "property": "C142",
   "status": "partial",
   "theorems": [
    "Verif.Ggmp.C142_plain_partial",
    "Verif.Ggmp.C142_plain_misspelt_partial",
    "Verif.Ggmp.C142_parameters_likelihoods_partial",
    "Verif.Ggmp.C142_copy_violated",
    "Verif.Ggmp.C142_pickle_violated",
    "Verif.Ggmp.C142_misspelt_violated",
    "Verif.Ggmp.C142_existing_partial"
   ],
   "note": "Proved for classes without __getattr__ (hyperparameters, NormalLikelihood). Violated for GGMP: its __getattr__ answers every missing name, so deepcopy gives None, copy and pickle silently give an object without attributes, and misspelt or missing methods return None. The standard library's protocols are modelled, not the library's code."
  },
  {
   "property": "C143",
   "status": "partial",
   "theorems": [
    "Verif.Metrics.C143_interval_score",
    "Verif.Metrics.C143_picp",
    "Verif.Metrics.C143_scores_partial",
    "Verif.Metrics.C143_noise_violated",
    "Verif.Metrics.C143_loss_violated",
    "Verif.Metrics.C143_msll_violated"
   ],
   "note": "Proved for interval_score and picp (which add the noise), and for nlpd and crps where the noise at the test points is zero. Violated for nlpd, crps and msll with noise: they use the variance of the function, so a GP that describes the values exactly scores worse than one with an inflated variance, and msll can be large and positive for a GP better than the baseline."
  },
  {
   "property": "C144",
   "status": "partial",
   "theorems": [
    "Verif.MCMC.C144_invariant_partial",
    "Verif.MCMC.C144_normal_increment",
    "Verif.MCMC.C144_asymmetric_violated"
   ],
   "note": "Proved for runs without adaptation, automatic acceptance or break condition whose objects propose symmetric increments (normal with any covariance, C144_normal_increment) with independent draws. Missing: adaptation. Violated for proposals that are not symmetric, which the interface accepts: the acceptance rule has no proposal density."
  },
  {
   "property": "C145",
   "status": "partial",
   "theorems": [
    "Verif.GP.C145_relative_information",
    "Verif.GP.C145_mutual_information",
    "Verif.GP.C145_uninformed",
    "Verif.GP.C145_gain_violated",
    "Verif.GP.C145_noise_violated",
    "Verif.GP.C145_list_violated"
   ],
   "note": "Monotonicity, order independence (relative information), the single-point values and the zero for uncorrelated points are proved with add_noise off. Violated: with add_noise=True the noise enters only the posterior, so uncorrelated points get a positive value; the value is not the information to be gained (zero where the variance is largest); the per-point call raises for list inputs."
  },
  {
   "property": "C146",
   "status": "partial",
   "theorems": [
    "Verif.Kernels.C146_squared_exponential",
    "Verif.Kernels.C146_squared_exponential_robust",
    "Verif.Kernels.C146_exponential",
    "Verif.Kernels.C146_matern1",
    "Verif.Kernels.C146_matern2",
    "Verif.Kernels.C146_exponential_robust",
    "Verif.Kernels.C146_matern1_robust",
    "Verif.Kernels.C146_default_kernel",
    "Verif.Kernels.C146_wendland_partial",
    "Verif.Kernels.C146_accepted",
    "Verif.Kernels.C146_accepted_iff",
    "Verif.Kernels.C146_interpolates",
    "Verif.Kernels.C146_variance_pos",
    "Verif.Kernels.C146_zero_variance_iff",
    "Verif.Kernels.C146_default_model",
    "Verif.Kernels.C146_wendland_model_partial",
    "Verif.Kernels.C146_non_stat_violated",
    "Verif.Kernels.C146_periodic_violated"
   ],
   "note": "Proved in exact arithmetic for squared exponential, exponential, both Mat\u00e9rn kernels, the robust variants (not the second-order Mat\u00e9rn one, C66/C67) and the default kernel in any dimension, and for the Wendland kernel in up to three. Violated for non_stat_kernel (any two points are rejected) and periodic_kernel (points one period apart)."
  },
  {
   "property": "C147",
   "status": "partial",
   "theorems": [
    "Verif.MCMC.C147_given_covariance_partial",
    "Verif.MCMC.C147_default_covariance",
    "Verif.MCMC.C147_args_usable_iff",
    "Verif.MCMC.C147_no_adaptation_violated",
    "Verif.MCMC.C147_user_proposal",
    "Verif.MCMC.C147_missing_covariance_violated",
    "Verif.MCMC.C147_dropped_covariance_violated",
    "Verif.MCMC.C147_shared_violated",
    "Verif.MCMC.C147_adaptation",
    "Verif.MCMC.C147_second_run_violated"
   ],
   "note": "Holds for a covariance without prop_args and for user proposals. Violated: adaptation cannot be switched off for the normal proposal; prop_args without covariance make the first draw raise although init_prop_Sigma was given; a missing covariance with adapt_callable='normal' raises at the first adaptation; a shared prop_args dictionary shares covariances; a second run uses the jumps of the first."
  },
  {
   "property": "C148",
   "status": "proved",
   "theorems": [
    "Verif.MCMC.C148_change",
    "Verif.MCMC.C148_diminishing",
    "Verif.MCMC.C148_initial_weight",
    "Verif.MCMC.C148_posDef",
    "Verif.MCMC.C148_forgotten",
    "Verif.MCMC.C148_never_forgotten"
   ],
   "note": "Exact arithmetic; one run (a second run with the same objects starts the decay again, as the iteration counter does). The covariance is the quantity proposals use; the scale sigma_m is unused (C56)."
  },
  {
   "property": "C149",
   "status": "partial",
   "theorems": [
    "Verif.GP.C149_chain_rule",
    "Verif.GP.C149_two_steps",
    "Verif.GP.C149_default_mean_violated"
   ],
   "note": "Holds if the prior mean does not depend on the data and the kernel is positive semidefinite. Violated by the default prior mean, which is the average of all values. Exact arithmetic."
  },
  {
   "property": "C150",
   "status": "partial",
   "theorems": [
    "Verif.GP.C150_predictions",
    "Verif.GP.C150_likelihood",
    "Verif.GP.C150_same_optimum",
    "Verif.GP.C150_default_mean_violated"
   ],
   "note": "Holds with given noise variances and a prior mean that does not depend on the data. Violated by the default prior mean, which weighs each repetition. Exact arithmetic."
  },
  {
   "property": "C151",
   "status": "partial",
   "theorems": [
    "Verif.GP.C151_groups",
    "Verif.GP.C151_default_mean_violated"
   ],
   "note": "Holds if the prior mean does not depend on the data. Violated by the default prior mean: an uncorrelated observation moves the prediction. Exact arithmetic."
  },
  {
   "property": "C152",
   "status": "proved",
   "theorems": [
    "Verif.GP.C152_gain",
    "Verif.GP.C152_noise",
    "Verif.GP.C152_towards"
   ],
   "note": "Holds if the prior mean does not depend on the data (see C151 for the default mean) and the noise of the new observation is uncorrelated with that of the others. Exact arithmetic."
  },
  {
   "property": "C153",
   "status": "partial",
   "theorems": [
    "Verif.GP.C153_rescaled",
    "Verif.GP.C153_measured",
    "Verif.GP.C153_default_noise_partial",
    "Verif.GP.C153_training",
    "Verif.GP.C153_default_noise_violated"
   ],
   "note": "Holds for given noise variances with the default kernel and mean, and in general for kernels, means and noise that convert. With the default noise it holds for units but not for the origin of the values (violated). Exact arithmetic."
  },
  {
   "property": "C154",
   "status": "partial",
   "theorems": [
    "Verif.FV.C154_renumbered",
    "Verif.FV.C154_reversed_partial",
    "Verif.FV.C154_default_kernel_violated"
   ],
   "note": "Holds for every kernel that is renamed with the tasks. The default kernel takes the task number for a coordinate: with it reversing the order is harmless (so is exchanging two tasks), other permutations change the predictions (violated). User noise functions that are not one variance per point are not covered. Exact arithmetic."
  },
  {
   "property": "C155",
   "status": "partial",
   "theorems": [
    "Verif.GP.Shape.C155_mean_value",
    "Verif.GP.Shape.C155_mean_answered",
    "Verif.GP.Shape.C155_mean_tasks_violated",
    "Verif.GP.Shape.C155_covariance_multi_task",
    "Verif.GP.Shape.C155_covariance_single_task",
    "Verif.GP.Shape.C155_gradient_value",
    "Verif.GP.Shape.C155_gradient_merged",
    "Verif.GP.Shape.C155_list_rejected",
    "Verif.GP.Shape.C155_gradient_violated"
   ],
   "note": "Proved for the covariance (both kinds of GP) and for the mean of multi-task GPs. Violated for the gradient: tasks given as a list pass the check and are ignored, the gradient returned takes all tasks for one (zero in the example, where neither task has gradient zero), while mean and covariance reject the list. Violated for the mean of single-task GPs: tasks are accepted and ignored. Default kernel and mean, one column of values; the information-theoretic functions are not covered."
  },
  {
   "property": "C156",
   "status": "partial",
   "theorems": [
    "Verif.Ggmp.C156_sequence",
    "Verif.Ggmp.C156_mst",
    "Verif.Ggmp.C156_default_root",
    "Verif.Ggmp.C156_answered",
    "Verif.Ggmp.C156_results",
    "Verif.Ggmp.C156_metric",
    "Verif.Ggmp.C156_reference",
    "Verif.Ggmp.C156_weights_violated"
   ],
   "note": "Proved for the sequence and the tree under unambiguous matches and an optimal solver (contract of linear_sum_assignment). Violated without: weights play no part in the matching, so two components with equal moments and different weights keep whatever labels the fit gave them. A wrong metric is noticed only if there is something to match. All mixtures have the same number of components."
  },
  {
   "property": "C157",
   "status": "partial",
   "theorems": [
    "Verif.State.C157_flush",
    "Verif.State.C157_update_shows",
    "Verif.State.C157_reads_only",
    "Verif.State.C157_after_append",
    "Verif.State.C157_prediction_partial",
    "Verif.State.C157_hyperparameters_violated",
    "Verif.State.C157_inputs_violated"
   ],
   "note": "Independence of the caller's arrays is proved for appended data and, after set_hyperparameters, for everything; it is violated for hyperparameters and inputs that are overwritten in place before that. Writes keep the number of points; the state after an exception is not followed; arrays made by fvGP for multi-task data are not shared and not covered."
  },
  {
   "property": "C158",
   "status": "partial",
   "theorems": [
    "Verif.State.C158_overwrite_partial",
    "Verif.State.C158_append_partial",
    "Verif.State.C158_history_partial",
    "Verif.State.C158_negative_noise_violated",
    "Verif.State.C158_empty_violated",
    "Verif.State.C158_width_violated",
    "Verif.State.C158_nan_list_violated",
    "Verif.State.C158_ignored_violated",
    "Verif.State.C158_construct"
   ],
   "note": "The equivalence is proved for updates that need none of the missing checks; those are listed in the theorem statements and each is shown to matter. Covers the data checks of the single-task GP, not the computations that follow them; 'as list' means a Python list of arbitrary objects."
  },
  {
   "property": "C159",
   "status": "partial",
   "theorems": [
    "Verif.Resolve.C159_chosen",
    "Verif.Resolve.C159_calls",
    "Verif.Resolve.C159_accept",
    "Verif.Resolve.C159_documented",
    "Verif.Resolve.C159_gradients_partial",
    "Verif.Resolve.C159_default_violated",
    "Verif.Resolve.C159_keyword_violated",
    "Verif.Resolve.C159_device_violated",
    "Verif.Resolve.C159_economy_violated",
    "Verif.Resolve.C159_derivative_violated"
   ],
   "note": "Python's binding of positional arguments is modelled (positional-only, ordinary, *args, keyword-only, **kwargs, defaults). Partial for derivatives: a noise derivative written for ram_economy needs a kernel or kernel derivative to be given; the failures are proved for all GPs of the kind."
  },
  {
   "property": "C160",
   "status": "proved",
   "theorems": [
    "Verif.LinAlg.C160_separated_exact",
    "Verif.LinAlg.C160_exact_iff_separated",
    "Verif.LinAlg.C160_cut_inexact",
    "Verif.LinAlg.C160_components_exact",
    "Verif.LinAlg.C160_schwarz_exact",
    "Verif.LinAlg.C160_whole_overlap",
    "Verif.LinAlg.C160_incomplete_cholesky_exact",
    "Verif.LinAlg.C160_incomplete_cholesky_builds",
    "Verif.LinAlg.C160_one_iteration",
    "Verif.LinAlg.C160_exact_one_iteration"
   ],
   "note": "Exact real arithmetic; np.linalg.solve enters by its contract. Both directions are proved: exact without a cut, not exact when a block limit cuts a chain."
  },
  {
   "property": "C161",
   "status": "partial",
   "theorems": [
    "Verif.Gp2Scale.C161_prior_covariance",
    "Verif.Gp2Scale.C161_cross_covariance",
    "Verif.Gp2Scale.C161_lost_points",
    "Verif.Gp2Scale.C161_who_holds_what",
    "Verif.Gp2Scale.C161_workers_hold_prefix",
    "Verif.Gp2Scale.C161_in_sync_partial",
    "Verif.Gp2Scale.C161_lost_points_zero",
    "Verif.Gp2Scale.C161_overwrite_repairs",
    "Verif.Gp2Scale.C161_appends_keep_raising",
    "Verif.Gp2Scale.C161_append_keeps_old_block",
    "Verif.Gp2Scale.C161_weights",
    "Verif.Gp2Scale.C161_prediction_ignores_lost",
    "Verif.Gp2Scale.C161_prediction_mixes",
    "Verif.Gp2Scale.C161_negative_variance",
    "Verif.Gp2Scale.C161_failed_append_violated"
   ],
   "note": "Violated by the code after a failed append; proved exactly what happens then. The kernel is pointwise and may raise; a kernel that raises on an empty block makes the hyperparameter change raise instead of returning zeros. Prior mean, targets and factorisation are outside the state; their effect on predictions is proved for every solution of the linear system."
  },
  {
   "property": "C162",
   "status": "partial",
   "theorems": [
    "Verif.State.C162_overwrite_repairs",
    "Verif.State.C162_hyperparameters_repair_partial",
    "Verif.State.C162_columns_permanent",
    "Verif.State.C162_failed_set_partial",
    "Verif.State.C162_failed_set_violated",
    "Verif.State.C162_append_after_failed_set_violated"
   ],
   "note": "The repairs are proved for all histories; violated by set_hyperparameters, which stores the new hyperparameters before it knows that they can be used. Direct linear algebra modes, exact arithmetic; user callables do not raise; the gp2Scale scatter is treated in C161."
  }
 ]
}