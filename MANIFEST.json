{
 "claims": [
  {
   "property": "C01",
   "status": "partial",
   "theorems": [
    "Dolo.C01_cartesian_enumerates",
    "Dolo.C01_cartesian_empty",
    "Dolo.C01_cartesian_each_once",
    "Dolo.C01_cartesianND_partial",
    "Dolo.C01_cartesianND_float",
    "Dolo.C01_mixed_dtype_fails"
   ],
   "note": "Row-major enumeration proved for arrays of one dtype, for a first array of floats, and whenever all values survive the dtype of the first array (C01_cartesianND_partial); with an integer array first the code truncates later arrays (C01_mixed_dtype_fails)."
  },
  {
   "property": "C02",
   "status": "proved",
   "theorems": [
    "Dolo.C02_uniform_grid_nodes",
    "Dolo.C02_spacing",
    "Dolo.C02_uniform_grid_corners",
    "Dolo.C02_uniform_grid_inside",
    "Dolo.C02_too_few_orders"
   ],
   "note": "Count, node formula, spacing, corners, containment, and the IndexError case."
  },
  {
   "property": "C03",
   "status": "partial",
   "theorems": [
    "Dolo.C03_uniform_add_partial",
    "Dolo.C03_uniform_add_fails",
    "Dolo.C03_uniform_add_ignores_bounds"
   ],
   "note": "False of the code (C03_uniform_add_fails): the bounds of the second grid are dropped. Holds when the bounds coincide."
  },
  {
   "property": "C04",
   "status": "proved",
   "theorems": [
    "Dolo.C04_nonuniform_add",
    "Dolo.C04_nonuniform_add_assoc"
   ],
   "note": "Product enumeration and associativity."
  },
  {
   "property": "C05",
   "status": "proved",
   "theorems": [
    "Dolo.C05_product_points",
    "Dolo.C05_product_expectation",
    "Dolo.C05_product_mass",
    "Dolo.C05_product_marginal"
   ],
   "note": "Weights are the products, nodes the combinations in row-major order, expectation of products is the product of expectations, unit mass, non-negative."
  },
  {
   "property": "C06",
   "status": "partial",
   "theorems": [
    "Dolo.C06_mixture_expectation_partial",
    "Dolo.C06_mixture_order_fails",
    "Dolo.C06_mixture_int_keys_fail"
   ],
   "note": "Proved when the mixture keys are the strings 0..n-1 in the order of the mixing nodes; with other orders the weights go to the wrong component and with integer keys a KeyError is raised (negations proved)."
  },
  {
   "property": "C07",
   "status": "proved",
   "theorems": [
    "Dolo.C07_equiprobable_points",
    "Dolo.C07_equiprobable_sorted",
    "Dolo.C07_equiprobable_strict"
   ],
   "note": "Points inside the support, sorted, strictly sorted for a strictly increasing quantile."
  },
  {
   "property": "C08",
   "status": "proved",
   "theorems": [
    "Dolo.C08_truncation",
    "Dolo.C08_truncation_needs_cdf",
    "Dolo.C08_truncation_twice"
   ],
   "note": "Quantiles of a truncated distribution stay within the truncation bounds, for any cdf/ppf pair satisfying the Galois contract."
  },
  {
   "property": "C09",
   "status": "partial",
   "theorems": [
    "Dolo.C09_normal_moments",
    "Dolo.C09_normal_moments_partial",
    "Dolo.C09_mean_fails",
    "Dolo.C09_zero_sum_column_fails",
    "Dolo.C09_normal_1d",
    "Dolo.C09_unormal"
   ],
   "note": "In one dimension proved; in d>=2 the code adds the mean twice (C09_mean_fails) and treats zero-sum columns as degenerate (C09_zero_sum_column_fails); C09_normal_moments states exactly what is computed."
  },
  {
   "property": "C10",
   "status": "proved",
   "theorems": [
    "Dolo.C10_finite_to_mc",
    "Dolo.C10_finite_to_mc_out_of_range"
   ],
   "note": "All rows equal the weights: iid chain."
  },
  {
   "property": "C11",
   "status": "proved",
   "theorems": [
    "Dolo.C11_product_chain",
    "Dolo.C11_product_chain_row_sums",
    "Dolo.C11_product_chain_nonneg",
    "Dolo.C11_too_few"
   ],
   "note": "Joint chain for any number of chains; row sums and non-negativity preserved."
  },
  {
   "property": "C12",
   "status": "proved",
   "theorems": [
    "Dolo.C12_rouwenhorst_stochastic"
   ],
   "note": "For every N>=1 and rho in [-1,1]."
  },
  {
   "property": "C13",
   "status": "proved",
   "theorems": [
    "Dolo.C13_rouwenhorst_conditional",
    "Dolo.C13_rouwenhorst_binomial",
    "Dolo.C13_rouwenhorst_unconditional"
   ],
   "note": "Conditional mean and variance at every node, stationarity of the binomial distribution, unconditional mean, variance, autocovariance under any stationary distribution."
  },
  {
   "property": "C14",
   "status": "proved",
   "theorems": [
    "Dolo.C14_tauchen_row_sums",
    "Dolo.C14_tauchen_nonneg",
    "Dolo.C14_tauchen_symmetric",
    "Dolo.C14_tauchen_cells"
   ],
   "note": "Row sums (any cdf), non-negativity (monotone cdf, m>=0), mirror symmetry (symmetric cdf)."
  },
  {
   "property": "C15",
   "status": "proved",
   "theorems": [
    "Dolo.C15_cumsum",
    "Dolo.C15_choice_first",
    "Dolo.C15_choice_interval",
    "Dolo.C15_choice_valid"
   ],
   "note": "Index i is drawn iff u lies in [sum of the first i, sum of the first i+1) for non-negative rows; valid index with positive probability when u is below the total; one past the end otherwise."
  },
  {
   "property": "C16",
   "status": "proved",
   "theorems": [
    "Dolo.C16_simulated_paths",
    "Dolo.C16_paths_independent",
    "Dolo.C16_simulated_values",
    "Dolo.C16_not_stochastic"
   ],
   "note": "Shape, start, feasibility of every transition, independence of paths on other paths' draws, values of the simulated states."
  },
  {
   "property": "C17",
   "status": "proved",
   "theorems": [
    "Dolo.C17_system_iff",
    "Dolo.C17_ergodic_distribution",
    "Dolo.C17_ergodic_of_rows"
   ],
   "note": "Equivalence for every row-stochastic matrix; the returned vector is the unique invariant one, and non-negative (triangle-inequality argument), under the contract that solve only returns for non-singular systems."
  },
  {
   "property": "C18",
   "status": "proved",
   "theorems": [
    "Dolo.C18_cell",
    "Dolo.C18_tremble1_effect",
    "Dolo.C18_tremble1",
    "Dolo.C18_tremble1_local",
    "Dolo.C18_mean_state",
    "Dolo.C18_tremble2",
    "Dolo.C18_single_node",
    "Dolo.C18_hat1",
    "Dolo.C18_tremble2_effect",
    "Dolo.C18_hat2"
   ],
   "note": "Mass, mean position (also in state units), non-negativity, locality; one and two dimensions; single-node grids are refused."
  },
  {
   "property": "C19",
   "status": "proved",
   "theorems": [
    "Dolo.C19_fischer_burmeister",
    "Dolo.C19_fischer_burmeister_sign",
    "Dolo.C19_smooth_nodiff"
   ],
   "note": "Both implementations of the residual (fb.py, smooth_nodiff below the slack threshold), plus the sign of the residual."
  },
  {
   "property": "C20",
   "status": "proved",
   "theorems": [
    "Dolo.C20_smooth_FB",
    "Dolo.C20_improved_time_iteration"
   ],
   "note": "fb.py for finite bounds (for infinite bounds it evaluates inf-inf, outside exact arithmetic); improved time iteration for finite and absent bounds. The threshold 100000 does not change the zero set."
  },
  {
   "property": "C21",
   "status": "proved",
   "theorems": [
    "Dolo.C21_phiFB",
    "Dolo.C21_smooth_FB",
    "Dolo.C21_improved_time_iteration_dres",
    "Dolo.C21_improved_time_iteration_jres",
    "Dolo.C21_threshold_jump"
   ],
   "note": "PhiFB_, smooth_FB_ and the dres/jres of improved time iteration, away from kinks and from a slack of exactly 100000, where the residual jumps (C21_threshold_jump). fb.smooth computes dV but never fills or returns it."
  },
  {
   "property": "C22",
   "status": "partial",
   "theorems": [
    "Dolo.C22_ncpsolve_partial",
    "Dolo.C22_ncpsolve_bounds_partial",
    "Dolo.C22_ncpsolve_full_fails",
    "Dolo.C22_ncpsolve_jacobian_partial"
   ],
   "note": "True for serial and sparse storage (values and Jacobian); false for the full storage, where smoothing is skipped (C22_ncpsolve_full_fails)."
  },
  {
   "property": "C23",
   "status": "partial",
   "theorems": [
    "Dolo.C23_lmmcp_partial",
    "Dolo.C23_lmmcp_big_fails"
   ],
   "note": "True when no bound equals +-1e10 exactly; false otherwise (C23_lmmcp_big_fails)."
  },
  {
   "property": "C24",
   "status": "proved",
   "theorems": [
    "Dolo.C24_gauss_solves",
    "Dolo.C24_serial_solve"
   ],
   "note": "exact arithmetic; the compiled loops are modelled as folds over matrix-valued functions; behaviour on singular matrices (float division) is not modelled"
  },
  {
   "property": "C25",
   "status": "partial",
   "theorems": [
    "Dolo.C25_invert_partial",
    "Dolo.C25_invert_gu",
    "Dolo.C25_solve_gu",
    "Dolo.C25_rectangular_fails",
    "Dolo.C25_narrow_fails"
   ],
   "note": "proved for vectors, square matrices and tensors (the shapes the library's own callers use); false for rectangular matrices, since the row loops run over n instead of the number of columns (C25_rectangular_fails, C25_narrow_fails)"
  },
  {
   "property": "C26",
   "status": "proved",
   "theorems": [
    "Dolo.C26_vectorized",
    "Dolo.C26_multilinear",
    "Dolo.C26_solver_exists"
   ],
   "note": "numpy.linalg.solve is a parameter with its contract (met by the elimination of C24); the slycot branch is not modelled"
  },
  {
   "property": "C27",
   "status": "proved",
   "theorems": [
    "Dolo.C27_newton",
    "Dolo.C27_descent",
    "Dolo.C27_may_increase",
    "Dolo.C27_warns_at_solution"
   ],
   "note": "control flow of newton with arbitrary function, norm and solver; includes witnesses that a step may increase the residual and that the warning may be given at a solution"
  },
  {
   "property": "C28",
   "status": "proved",
   "theorems": [
    "Dolo.C28_time_iteration",
    "Dolo.C28_returns",
    "Dolo.C28_unflagged_stop"
   ],
   "note": "Exact description of iterates, error, flag and stopping; NameError exactly when maxit = 0 or tol >= 10. At err == tol the loop stops but the flag is false (C28_unflagged_stop)."
  },
  {
   "property": "C29",
   "status": "proved",
   "theorems": [
    "Dolo.C29_improved_time_iteration",
    "Dolo.C29_degenerate",
    "Dolo.C29_same_residual"
   ],
   "note": "Path of safeguarded passes; converged flag implies the residual of the returned rule is below tol; otherwise maxit was reached (and the reported residual is that of the previous point). Line search and loop residuals agree in absolute value."
  },
  {
   "property": "C30",
   "status": "proved",
   "theorems": [
    "Dolo.C30_neumann",
    "Dolo.C30_newton_direction"
   ],
   "note": "Neumann identity for every additive operator, stopping rule, and the linearised system solved by the step up to the explicit remainder."
  },
  {
   "property": "C31",
   "status": "partial",
   "theorems": [
    "Dolo.C31_value_iteration_partial",
    "Dolo.C31_flag_ignores_tol"
   ],
   "note": "False as stated: the flags use fixed tolerances (C31_flag_ignores_tol). Loop stopping conditions, returned values and flags described exactly in C31_value_iteration_partial."
  },
  {
   "property": "C32",
   "status": "proved",
   "theorems": [
    "Dolo.C32_converges",
    "Dolo.C32_evaluate_policy",
    "Dolo.C32_error_bound",
    "Dolo.C32_contraction"
   ],
   "note": "Reported error is exactly the move under one more application; error bound for contractions; update_value shown to be a contraction. Interpolation enters as a non-expansive parameter."
  },
  {
   "property": "C33",
   "status": "proved",
   "theorems": [
    "Dolo.C33_first_order"
   ],
   "note": "Matrix identity from the contracts of ordqz (A = QSZ', B = QTZ', split at n_s, S11 invertible) and solve, whenever approximate_1st_order returns."
  },
  {
   "property": "C34",
   "status": "partial",
   "theorems": [
    "Dolo.C34_returns_partial",
    "Dolo.C34_one_state_partial",
    "Dolo.C34_fails",
    "Dolo.C34_fails_indeterminate"
   ],
   "note": "False: the test uses max/min instead of min/max (C34_fails: explosive state accepted; C34_fails_indeterminate). Proved: exact description of when it returns, no warning is ever issued, and exactness with one state and one control."
  },
  {
   "property": "C35",
   "status": "proved",
   "theorems": [
    "Dolo.C35_points",
    "Dolo.C35_rows",
    "Dolo.C35_eval_s_raises"
   ],
   "note": "Affine formula, steady state, ignored exogenous, row-wise broadcasting, error cases."
  },
  {
   "property": "C36",
   "status": "partial",
   "theorems": [
    "Dolo.C36_second_order",
    "Dolo.C36_second_unique",
    "Dolo.C36_certainty_equivalence",
    "Dolo.C36_second_unique_certain",
    "Dolo.C36_third_order_partial",
    "Dolo.C36_state_perturb",
    "Dolo.C36_first_order",
    "Dolo.C36_third_fails",
    "Dolo.C36_third_fails_two_states"
   ],
   "note": "Order two is proved for the whole of state_perturb, and the second-order terms are the only ones (C36_second_unique, with risk; C36_second_unique_certain, without). At order three, with one state, the exact third-order error is proved (zero iff (f_S + f_X X_s) g_sx X_ss = 0); the full claim is false, with two independent counterexamples (factor 2 instead of 3; wrong contraction with several states). C36_certainty_equivalence: rules that solve the model at second order have no first-order or mixed terms in the scale of risk."
  },
  {
   "property": "C37",
   "status": "partial",
   "theorems": [
    "Dolo.C37_dict",
    "Dolo.C37_dict_bad_length",
    "Dolo.C37_array_partial",
    "Dolo.C37_none",
    "Dolo.C37_array_is_dict_of_tail_partial",
    "Dolo.C37_array_equals_dict_fails"
   ],
   "note": "dict, DataFrame and None inputs proved; the array branch is shifted by one period (C37_array_equals_dict_fails), exact behaviour proved as the dict of the rows after the first"
  },
  {
   "property": "C38",
   "status": "proved",
   "theorems": [
    "Dolo.C38_residual_zero_iff",
    "Dolo.C38_short_raises"
   ],
   "note": "all horizons N >= 2, arbitrary model functions, shocks and dimensions"
  },
  {
   "property": "C39",
   "status": "proved",
   "theorems": [
    "Dolo.C39_jacobian_is_derivative"
   ],
   "note": "Frechet derivative over the reals, all horizons N >= 2, arbitrary finite dimensions"
  },
  {
   "property": "C40",
   "status": "partial",
   "theorems": [
    "Dolo.C40_simulate_exact",
    "Dolo.C40_simulate_partial",
    "Dolo.C40_simulate_constant_partial",
    "Dolo.C40_simulate_fails",
    "Dolo.C40_simulate_process_exact"
   ],
   "note": "False of the code: the transition to date t+1 uses the exogenous values of dates t-1 and t (C40_simulate_exact states what is computed, C40_simulate_fails is a witness). Holds when the exogenous values are constant."
  },
  {
   "property": "C41",
   "status": "partial",
   "theorems": [
    "Dolo.C41_mean_fails",
    "Dolo.C41_zero_impulse_call_partial",
    "Dolo.C41_zero_impulse_partial"
   ],
   "note": "Holds for independent processes, horizon of at least two dates, steady state at zero shocks; a process with a mean leaves the steady state (C41_mean_fails), other processes raise (C133_no_response_fails)."
  },
  {
   "property": "C42",
   "status": "proved",
   "theorems": [
    "Dolo.C42_var1_response",
    "Dolo.C42_iid_response"
   ],
   "note": "Closed forms, with the number of rows."
  },
  {
   "property": "C43",
   "status": "proved",
   "theorems": [
    "Dolo.C43_lookups",
    "Dolo.C43_alias",
    "Dolo.C43_tuple",
    "Dolo.C43_isolated",
    "Dolo.C43_input_untouched",
    "Dolo.C43_vectors"
   ],
   "note": "Heap model of arrays; lookups by group, name, alias, tuple; isolation from the input arrays."
  },
  {
   "property": "C44",
   "status": "proved",
   "theorems": [
    "Dolo.C44_lookup_after_history",
    "Dolo.C44_alias_agrees",
    "Dolo.C44_assign_through_alias_fails",
    "Dolo.C44_contains_ignores_alias_fails"
   ],
   "note": "Holds literally: what is returned is what the canonical key holds. Assignments through an alias go to the alias key and are never read (theorems with suffix _fails)."
  },
  {
   "property": "C45",
   "status": "proved",
   "theorems": [
    "Dolo.C45_reads_as_fresh",
    "Dolo.C45_last_assignment_wins",
    "Dolo.C45_set_calibration_ok"
   ],
   "note": "Any sequence of set_calibration and reads of calibration, exogenous, domain, functions."
  },
  {
   "property": "C46",
   "status": "proved",
   "theorems": [
    "Dolo.C46_accepted_iff",
    "Dolo.C46_auxiliaries",
    "Dolo.C46_unique_solution",
    "Dolo.C46_shadows_parameter_fails"
   ],
   "note": "Acceptance characterised exactly; evaluation in order has a unique solution. A definition may carry the name of a parameter (C46_shadows_parameter_fails), which the statement does not forbid."
  },
  {
   "property": "C47",
   "status": "proved",
   "theorems": [
    "Dolo.C47_entries",
    "Dolo.C47_action"
   ],
   "note": ""
  },
  {
   "property": "C48",
   "status": "proved",
   "theorems": [
    "Dolo.C48_accepted_iff",
    "Dolo.C48_bounds_line_up"
   ],
   "note": "Acceptance characterised exactly; bounds line up."
  },
  {
   "property": "C49",
   "status": "proved",
   "theorems": [
    "Dolo.C49_accepted_iff"
   ],
   "note": "Keys with arbitrary white space and grouping."
  },
  {
   "property": "C50",
   "status": "partial",
   "theorems": [
    "Dolo.C50_returns_value_partial",
    "Dolo.C50_evaluated_once",
    "Dolo.C50_collisions_fails",
    "Dolo.C50_unhashable_fails",
    "Dolo.C50_plain_arguments_partial"
   ],
   "note": "Proved when calls with equal hashes are equal calls; hash collisions (hash(-1)=hash(-2), array shape ignored) and unhashable arguments are shown to break it."
  },
  {
   "property": "C51",
   "status": "partial",
   "theorems": [
    "Dolo.C51_crash_fails",
    "Dolo.C51_other_points_partial"
   ],
   "note": "A crash during the write leaves a truncated file: later calls with the same arguments raise. Proved for calls with other arguments."
  },
  {
   "property": "C52",
   "status": "proved",
   "theorems": [
    "Dolo.C52_most_specific",
    "Dolo.C52_none_applicable",
    "Dolo.C52_same_length",
    "Dolo.C52_order_irrelevant",
    "Dolo.C52_mixed_lengths_fails"
   ],
   "note": "Proved for registered signatures of one length, as stated; with mixed lengths a witness shows the dependence on registration order."
  },
  {
   "property": "C53",
   "status": "partial",
   "theorems": [
    "Dolo.C53_groot_partial",
    "Dolo.C53_nearest_unique",
    "Dolo.C53_missing_path_fails"
   ],
   "note": "Proved when listings succeed and the path exists under the project; otherwise the directory has moved (C53_missing_path_fails)."
  },
  {
   "property": "C54",
   "status": "partial",
   "theorems": [
    "Dolo.C54_matrix",
    "Dolo.C54_trend_cycle",
    "Dolo.C54_minimises",
    "Dolo.C54_nonsingular",
    "Dolo.C54_two_dim_fails",
    "Dolo.C54_two_dim_partial",
    "Dolo.C54_short_fails"
   ],
   "note": "One-dimensional series with at least four observations: matrix, trend plus cycle, minimisation and nonsingularity proved for all T. Two-dimensional input ignores lam, and shorter series raise (both proved)."
  },
  {
   "property": "C55",
   "status": "partial",
   "theorems": [
    "Dolo.C55_central_exact",
    "Dolo.C55_quadratic_map",
    "Dolo.C55_central_limit",
    "Dolo.C55_serial_exact",
    "Dolo.C55_numdiff_fails",
    "Dolo.C55_numdiff_square_partial",
    "Dolo.C55_numdiff1_exact",
    "Dolo.C55_numdiff2_fails",
    "Dolo.C55_numdiff2_tuple_partial"
   ],
   "note": "MyJacobian, SerialDifferentiableFunction and numdiff1 proved exact in all dimensions; compiler.misc.numdiff proved only when it does not raise (its number of values must equal the number of points), the failure is proved. numdiff2 always raises (C55_numdiff2_fails); with the commented-out line 60 restored it is exact (C55_numdiff2_tuple_partial)."
  },
  {
   "property": "C56",
   "status": "proved",
   "theorems": [
    "Dolo.C56_evaluates",
    "Dolo.C56_two_arguments",
    "Dolo.C56_getitem",
    "Dolo.C56_perturb"
   ],
   "note": "Polynomial value for orders 1-3 for every call shape, order >=4 raises, selection of controls, and the rule returned by the higher-order perturb"
  },
  {
   "property": "C57",
   "status": "partial",
   "theorems": [
    "Dolo.C57_nodes_partial",
    "Dolo.C57_rule_at_nodes_partial",
    "Dolo.C57_single_iteration_fails",
    "Dolo.C57_between_nodes_fails"
   ],
   "note": "Proved at the grid nodes, after at least two iterations. Between nodes the cubic interpolation can leave the bounds, and a single iteration returns the unclipped initial policy (both proved)."
  },
  {
   "property": "C58",
   "status": "partial",
   "theorems": [
    "Dolo.C58_all_iid",
    "Dolo.C58_memory_partial",
    "Dolo.C58_single_fails",
    "Dolo.C58_nested_fails",
    "Dolo.C58_options",
    "Dolo.C58_iid_as_chain",
    "Dolo.C58_constant",
    "Dolo.C58_constant_chain"
   ],
   "note": "All-iid products, products with memory of two or more processes, constants, options and iid-as-chain proved for all lists. A product of a single process with memory and a nested product raise (both proved)."
  },
  {
   "property": "C59",
   "status": "partial",
   "theorems": [
    "Dolo.C59_reshape",
    "Dolo.C59_reshape_refused",
    "Dolo.C59_matrix_partial",
    "Dolo.C59_matrix_shape_fails",
    "Dolo.C59_dres",
    "Dolo.C59_jres",
    "Dolo.C59_jac1"
   ],
   "note": "Reshapes keep flat positions and values, and the Jacobians of dres_to_sparse, jres_to_sparse and jac_1 are the block matrices, for all shapes; in general the matrix form gets its shape from the stored entries, so a tensor with nothing in its last row gives a smaller matrix."
  },
  {
   "property": "C60",
   "status": "proved",
   "theorems": [
    "Dolo.C60_two",
    "Dolo.C60_three",
    "Dolo.C60_other"
   ],
   "note": "Two and three bases; other numbers of bases characterised as well."
  },
  {
   "property": "C61",
   "status": "partial",
   "theorems": [
    "Dolo.C61_multidim_moments",
    "Dolo.C61_multidim_moments_partial",
    "Dolo.C61_covariance_fails"
   ],
   "note": "Conditional mean proved for every Sigma; the covariance is L L' for the upper factor L returned by scipy, so Sigma is only reproduced when diagonal (partial theorem); C61_covariance_fails is a witness."
  },
  {
   "property": "C62",
   "status": "partial",
   "theorems": [
    "Dolo.C62_mc_ignores_options",
    "Dolo.C62_mc_matches_iid_partial",
    "Dolo.C62_mc_options_fail"
   ],
   "note": "False of the code: options are ignored (C62_mc_ignores_options, C62_mc_options_fail). Holds for the default options."
  },
  {
   "property": "C63",
   "status": "partial",
   "theorems": [
    "Dolo.C63_mixture_draw_partial",
    "Dolo.C63_mixture_draw_string_keys_fail",
    "Dolo.C63_no_key_kind_serves_both"
   ],
   "note": "Holds for integer keys; with string keys (required by discretize) every draw is zero."
  },
  {
   "property": "C64",
   "status": "partial",
   "theorems": [
    "Dolo.C64_var1_dynamics",
    "Dolo.C64_var1_start_partial",
    "Dolo.C64_var1_start_fails",
    "Dolo.C64_var1_deterministic_fails"
   ],
   "note": "Dynamics proved; the path starts at m0 + mu (C64_var1_start_fails), at m0 only for zero mean; stochastic=False always raises (C64_var1_deterministic_fails)."
  },
  {
   "property": "C65",
   "status": "partial",
   "theorems": [
    "Dolo.C65_find_index_partial",
    "Dolo.C65_find_index_fails"
   ],
   "note": "Holds for distinct nodes; negation proved for repeated nodes."
  },
  {
   "property": "C66",
   "status": "partial",
   "theorems": [
    "Dolo.C66_scalar_check_partial",
    "Dolo.C66_scalar_check_fails"
   ],
   "note": "False of the code: entries may deviate by one; negation proved."
  },
  {
   "property": "C67",
   "status": "partial",
   "theorems": [
    "Dolo.C67_response_var1_fails",
    "Dolo.C67_response_iid_partial"
   ],
   "note": "Holds for iid processes; always raises for VAR(1), AR(1) and for models whose exogenous section is keyed by names (C67_response_var1_fails, C133_no_response_fails)."
  },
  {
   "property": "C68",
   "status": "partial",
   "theorems": [
    "Dolo.C68_seed_partial",
    "Dolo.C68_seed_fails",
    "Dolo.C68_second_call_replicates"
   ],
   "note": "False of the code for drawn processes; holds when the process does not use the generator, and from the second call on."
  },
  {
   "property": "C69",
   "status": "proved",
   "theorems": [
    "Dolo.C69_markov_stochastic",
    "Dolo.C69_markov_layout",
    "Dolo.C69_iid_stochastic",
    "Dolo.C69_markov_stochastic_1d",
    "Dolo.C69_markov_stochastic_2d"
   ],
   "note": "Markov chains (1-d, 2-d) and iid processes; layout of rows and columns."
  },
  {
   "property": "C70",
   "status": "proved",
   "theorems": [
    "Dolo.C70_lmmcp_first_block",
    "Dolo.C70_lmmcp_second_block"
   ],
   "note": "Both blocks, at points clear of the tolerance bands (stated hypotheses)."
  },
  {
   "property": "C71",
   "status": "proved",
   "theorems": [
    "Dolo.C71_domain_discretize"
   ],
   "note": "Includes the default number of points."
  },
  {
   "property": "C72",
   "status": "proved",
   "theorems": [
    "Dolo.C72_var1_discretize_mean"
   ],
   "note": "The one-dimensional method is a parameter."
  },
  {
   "property": "C73",
   "status": "proved",
   "theorems": [
    "Dolo.C73_newton_affine"
   ],
   "note": "exact arithmetic"
  },
  {
   "property": "C74",
   "status": "proved",
   "theorems": [
    "Dolo.C74_ncpsolve"
   ],
   "note": "serial and sparse storage; the full storage ignores the bounds (C22_ncpsolve_full_fails)"
  },
  {
   "property": "C75",
   "status": "proved",
   "theorems": [
    "Dolo.C75_residuals_simple",
    "Dolo.C75_euler_error"
   ],
   "note": "Euler residual bound itol + l*err; contracts on inner solver, interpolation, weights and Lipschitz constant."
  },
  {
   "property": "C76",
   "status": "partial",
   "theorems": [
    "Dolo.C76_bellman_step_partial",
    "Dolo.C76_gdp_fails"
   ],
   "note": "Holds when the rule at index j is the value function at the j-th integration node (Markov chains, iid). False for GDP processes: choice_value uses the node of the same index (C76_gdp_fails)."
  },
  {
   "property": "C77",
   "status": "partial",
   "theorems": [
    "Dolo.C77_var1_partial",
    "Dolo.C77_iid",
    "Dolo.C77_var1_raises"
   ],
   "note": "Proved for iid shocks, and for a VAR1 provided its matrix could be read; get_derivatives reads process.rho, which VAR1 objects do not have (C77_var1_raises)."
  },
  {
   "property": "C78",
   "status": "partial",
   "theorems": [
    "Dolo.C78_eigenvalues_partial",
    "Dolo.C78_stable_solution_partial",
    "Dolo.C78_complex_pair_fails"
   ],
   "note": "Exact for triangular decompositions (all eigenvalues real) including infinite ones, and stability of the solution; false for complex pairs (C78_complex_pair_fails)."
  },
  {
   "property": "C79",
   "status": "partial",
   "theorems": [
    "Dolo.C79_unstructured_partial",
    "Dolo.C79_empty",
    "Dolo.C79_cartesian_partial",
    "Dolo.C79_product_nonuniform",
    "Dolo.C79_product_uniform",
    "Dolo.C79_linear_unstructured_fails",
    "Dolo.C79_linear_unstructured_witness",
    "Dolo.C79_uniform_fails",
    "Dolo.C79_uniform_witness"
   ],
   "note": "Proved for unstructured (cubic, or linear with one state), empty and Cartesian exogenous grids whose sum is the product grid (non-uniform, or uniform with equal bounds); linear interpolation over several states on an unstructured grid and uniform grids with different bounds are false (general theorems and witnesses)"
  },
  {
   "property": "C80",
   "status": "partial",
   "theorems": [
    "Dolo.C80_rowwise_partial",
    "Dolo.C80_cartesian_fails",
    "Dolo.C80_constant"
   ],
   "note": "Proved for rules without Cartesian exogenous grid; for Cartesian ones every such call raises ValueError unless there is exactly one state"
  },
  {
   "property": "C81",
   "status": "proved",
   "theorems": [
    "Dolo.C81_negative_index",
    "Dolo.C81_eval_ijs"
   ],
   "note": "Row-wise characterisation for the three kinds of exogenous grid"
  },
  {
   "property": "C82",
   "status": "partial",
   "theorems": [
    "Dolo.C82_tabulate_unstructured",
    "Dolo.C82_tabulate_empty",
    "Dolo.C82_default_bounds",
    "Dolo.C82_tabulate_cartesian_fails",
    "Dolo.C82_tabulate_taylor"
   ],
   "note": "Proved for unstructured and empty exogenous grids and for Taylor expansions; tabulate always raises for a Cartesian exogenous grid"
  },
  {
   "property": "C83",
   "status": "partial",
   "theorems": [
    "Dolo.C83_tabulate_2d_fails",
    "Dolo.C83_tabulate_2d_partial"
   ],
   "note": "Raises for every interpolated rule; proved for rules whose eval_is accepts one vector of states"
  },
  {
   "property": "C84",
   "status": "partial",
   "theorems": [
    "Dolo.C84_solution_partial",
    "Dolo.C84_start_partial",
    "Dolo.C84_default_start_partial",
    "Dolo.C84_chosen_start_partial",
    "Dolo.C84_s0_fails",
    "Dolo.C84_shock_counted_twice_fails",
    "Dolo.C84_guess_endpoints"
   ],
   "note": "path property proved under a solver contract; start state proved when the first two exogenous values agree / at a calibrated steady state; false in general (two counterexamples)"
  },
  {
   "property": "C85",
   "status": "partial",
   "theorems": [
    "Dolo.C85_ncpsolve_call_partial",
    "Dolo.C85_lmmcp_call_fails"
   ],
   "note": "ncpsolve proved; lmmcp receives permuted arguments (counterexample)"
  },
  {
   "property": "C86",
   "status": "partial",
   "theorems": [
    "Dolo.C86_reuse_partial",
    "Dolo.C86_reuse_default_fails"
   ],
   "note": "proved with keep_steady_state=True and a shock path; otherwise one row short"
  },
  {
   "property": "C87",
   "status": "partial",
   "theorems": [
    "Dolo.C87_symbols_first_partial",
    "Dolo.C87_no_definitions_partial",
    "Dolo.C87_definitions_first_fails"
   ],
   "note": "Holds when symbols is read first, or without definitions; fails for every non-empty definitions block when definitions is read first."
  },
  {
   "property": "C88",
   "status": "partial",
   "theorems": [
    "Dolo.C88_recomputed_partial",
    "Dolo.C88_functions_stale_fails"
   ],
   "note": "Holds for calibration, exogenous, domain; the compiled functions are never recomputed."
  },
  {
   "property": "C89",
   "status": "partial",
   "theorems": [
    "Dolo.C89_bounds_in_state_order_partial",
    "Dolo.C89_section_order_fails",
    "Dolo.C89_missing_raises",
    "Dolo.C89_grid_options"
   ],
   "note": "Holds when the domain section lists states in declared order; fails otherwise. Missing bounds raise."
  },
  {
   "property": "C90",
   "status": "partial",
   "theorems": [
    "Dolo.C90_calibration_sources",
    "Dolo.C90_values_default_fails"
   ],
   "note": "Full for all groups except values, expectations and direct_responses, whose default is never applied (C90_values_default_fails)."
  },
  {
   "property": "C91",
   "status": "partial",
   "theorems": [
    "Dolo.C91_targets_partial",
    "Dolo.C91_lhs_ignored_fails",
    "Dolo.C91_residual",
    "Dolo.C91_double_equal_fails"
   ],
   "note": "Holds when equations are listed in the order of the target symbols; left-hand sides are never checked. Residuals proved for a single equal sign."
  },
  {
   "property": "C92",
   "status": "partial",
   "theorems": [
    "Dolo.C92_returns_value_partial",
    "Dolo.C92_same_name_fails"
   ],
   "note": "Proved for functions with distinct names and arguments with distinct hashes; two functions with one name share files (C92_same_name_fails)."
  },
  {
   "property": "C93",
   "status": "proved",
   "theorems": [
    "Dolo.C93_weights",
    "Dolo.C93_removes_linear_trend",
    "Dolo.C93_linear"
   ],
   "note": "Weights, linear trends and linearity for every half-width."
  },
  {
   "property": "C94",
   "status": "partial",
   "theorems": [
    "Dolo.C94_approximate_fixed_point",
    "Dolo.C94_euler_equation",
    "Dolo.C94_large_tolerance_fails",
    "Dolo.C94_iid_product_fails",
    "Dolo.C94_returns"
   ],
   "note": "Proved with tolerance at most one. Larger tolerances report convergence at once, and products of iid processes raise an index error (both proved)."
  },
  {
   "property": "C95",
   "status": "proved",
   "theorems": [
    "Dolo.C95_iteritems",
    "Dolo.C95_exact",
    "Dolo.C95_error",
    "Dolo.C95_chain_as_gdp",
    "Dolo.C95_iid"
   ],
   "note": "Listing, exactness, error bound, and the common interface of chains, general processes and iid distributions."
  },
  {
   "property": "C96",
   "status": "partial",
   "theorems": [
    "Dolo.C96_iid_cells",
    "Dolo.C96_product_partial",
    "Dolo.C96_constant_ar1_fails",
    "Dolo.C96_initial_value_fails",
    "Dolo.C96_deterministic_fails",
    "Dolo.C96_chain_deterministic"
   ],
   "note": "Cells of iid and product simulations proved for all sizes. Constants and AR1 cannot be simulated, products refuse initial values, and iid processes ignore stochastic=False (all proved)."
  },
  {
   "property": "C97",
   "status": "partial",
   "theorems": [
    "Dolo.C97_always_fails",
    "Dolo.C97_conditional_mean_partial"
   ],
   "note": "Every call raises because the grid class has no constructor (proved); the conditional mean of the arrays it would return is proved for mean zero (the mean of the process is not used by the code)."
  },
  {
   "property": "C98",
   "status": "partial",
   "theorems": [
    "Dolo.C98_polynomials",
    "Dolo.C98_nodes",
    "Dolo.C98_weights",
    "Dolo.C98_integration_partial",
    "Dolo.C98_normal",
    "Dolo.C98_std_rule",
    "Dolo.C98_order_one",
    "Dolo.C98_largest_root",
    "Dolo.C98_order_two",
    "Dolo.C98_integration_two",
    "Dolo.C98_order_three"
   ],
   "note": "Number, symmetry, positivity and distance to the roots are proved for every order and starting value, exactness at the roots for every polynomial of degree below 2n. The iterations find the largest root of every order from the right (C98_largest_root); orders one, two and three are proved in full with the starting values of the code. For higher orders the convergence of the rule is partial: the code does not check that the roots it found are distinct, and that the iterations for the inner roots succeed from the given starting values is not proved."
  },
  {
   "property": "C99",
   "status": "partial",
   "theorems": [
    "Dolo.C99_multitake",
    "Dolo.C99_multitake_negative",
    "Dolo.C99_multitake_axis_raises",
    "Dolo.C99_multitake_raises",
    "Dolo.C99_multitake_scalars_fails",
    "Dolo.C99_mdot",
    "Dolo.C99_multidot_old",
    "Dolo.C99_sdot",
    "Dolo.C99_too_many_dimensions",
    "Dolo.C99_empty_fails",
    "Dolo.C99_operator",
    "Dolo.C99_multidot_extra"
   ],
   "note": "Holds with at least one matrix and at most 26 labels. mdot(M) without matrices sums all entries instead of returning M (C99_empty_fails). multitake selects along every listed axis for lists of positions (C99_multitake), but not for scalar positions, which drop axes (C99_multitake_scalars_fails)."
  },
  {
   "property": "C100",
   "status": "partial",
   "theorems": [
    "Dolo.C100_solution",
    "Dolo.C100_eigenvalues",
    "Dolo.C100_stable_partial",
    "Dolo.C100_unstable_fails",
    "Dolo.C100_complex_fails"
   ],
   "note": "The equation holds when the ordered decomposition splits in the middle. eigmax is never used (C100_unstable_fails); a complex pair across the middle gives a matrix that is no solution (C100_complex_fails)."
  },
  {
   "property": "C101",
   "status": "partial",
   "theorems": [
    "Dolo.C101_evaluates",
    "Dolo.C101_static_partial",
    "Dolo.C101_lead_fails",
    "Dolo.C101_undated",
    "Dolo.C101_missing"
   ],
   "note": "Proved with the time direction reversed (C101_evaluates) and for static formulas; k(1) gives the previous value (C101_lead_fails)."
  },
  {
   "property": "C102",
   "status": "partial",
   "theorems": [
    "Dolo.C102_residuals",
    "Dolo.C102_residuals_default",
    "Dolo.C102_found_partial",
    "Dolo.C102_unchecked_fails"
   ],
   "note": "Residuals: full. find_steady_state: when the solver succeeds; its status is not read (C102_unchecked_fails)."
  },
  {
   "property": "C103",
   "status": "proved",
   "theorems": [
    "Dolo.C103_as_matrix",
    "Dolo.C103_matvec",
    "Dolo.C103_gmres",
    "Dolo.C103_derivative",
    "Dolo.C103_radius"
   ],
   "note": "Without complementarities (ignore_constraints=True). scipy's gmres and eigs are parameters; numerical differentiation is represented by the derivatives it approximates (exactness in C55). radius_jac is not modelled."
  },
  {
   "property": "C104",
   "status": "partial",
   "theorems": [
    "Dolo.C104_value",
    "Dolo.C104_definitions",
    "Dolo.C104_unknown",
    "Dolo.C104_dates",
    "Dolo.C104_recipes",
    "Dolo.C104_argument_dates",
    "Dolo.C104_bounds_fails",
    "Dolo.C104_lag_fails"
   ],
   "note": "Holds when every variable is an argument or a definition at a date where both states and controls are arguments (C104_value, C104_definitions, C104_dates). Definitions can not be used in bounds nor in blocks without both (C104_bounds_fails), and an accepted definition with a lag makes functions fail (C104_lag_fails)."
  },
  {
   "property": "C105",
   "status": "partial",
   "theorems": [
    "Dolo.C105_address",
    "Dolo.C105_cartesian_partial",
    "Dolo.C105_smolyak_partial",
    "Dolo.C105_nonuniform_partial",
    "Dolo.C105_type_field_fails",
    "Dolo.C105_missing_fails"
   ],
   "note": "Holds for grids with a YAML tag (C105_cartesian_partial, C105_smolyak_partial, C105_nonuniform_partial). A grid given by options:grid:type is refused (C105_type_field_fails), and a missing grid raises AttributeError, with options:grid_type never read (C105_missing_fails)."
  },
  {
   "property": "C106",
   "status": "partial",
   "theorems": [
    "Dolo.C106_value",
    "Dolo.C106_exists",
    "Dolo.C106_dated_key_fails"
   ],
   "note": "Holds for keys written without date (C106_value, C106_exists). A formula named y(0) is not found under the name y (C106_dated_key_fails)."
  },
  {
   "property": "C107",
   "status": "proved",
   "theorems": [
    "Dolo.C107_markov",
    "Dolo.C107_iid",
    "Dolo.C107_labels",
    "Dolo.C107_labels_iid",
    "Dolo.C107_unsupported",
    "Dolo.C107_unsupported_iid"
   ],
   "note": "Markov chains and iid processes with one or two states, under the contract of numpy.linalg.solve; three or more states raise (C107_unsupported)."
  },
  {
   "property": "C108",
   "status": "proved",
   "theorems": [
    "Dolo.C108_a_posteriori",
    "Dolo.C108_convergence",
    "Dolo.C108_returns"
   ],
   "note": "C108_returns, C108_a_posteriori, C108_convergence. Assumptions are the fields of DynamicProgram; interpolation must be an average of the grid values at the states reached (proved for linear interpolation within the grid: C152_average_partial; not true for cubic splines)."
  },
  {
   "property": "C109",
   "status": "partial",
   "theorems": [
    "Dolo.C109_solution_partial",
    "Dolo.C109_default",
    "Dolo.C109_verbose",
    "Dolo.C109_preprocessor_feasible",
    "Dolo.C109_radius",
    "Dolo.C109_preprocessor_distance",
    "Dolo.C109_armijo",
    "Dolo.C109_memory",
    "Dolo.C109_presteps_fails"
   ],
   "note": "Proved for fewer than 500 preprocessing steps (default 20): C109_solution_partial, C109_default, C109_verbose, C109_preprocessor_feasible, C109_armijo. With more steps the starting point can be returned as a solution (C109_presteps_fails)."
  },
  {
   "property": "C110",
   "status": "partial",
   "theorems": [
    "Dolo.C110_returns",
    "Dolo.C110_initial",
    "Dolo.C110_euler_error",
    "Dolo.C110_unique",
    "Dolo.C110_convergence",
    "Dolo.C110_trace",
    "Dolo.C110_process_partial",
    "Dolo.C110_process_fails"
   ],
   "note": "The convergence, uniqueness, Euler-error, trace and initial-guess theorems hold in full; with the argument dprocess the exogenous grid of the rule is not the one of the process used (C110_process_fails)."
  },
  {
   "property": "C111",
   "status": "partial",
   "theorems": [
    "Dolo.C111_table",
    "Dolo.C111_inputs",
    "Dolo.C111_exogenous_fails",
    "Dolo.C111_indices_fail"
   ],
   "note": "Proved for all models and driving processes whose sizes agree: C111_table, C111_inputs. Missing because the code violates the claim: without auxiliary variables the table has no exogenous columns (C111_exogenous_fails), and a driving process of indices without i0 always raises (C111_indices_fail). The transition dates the exogenous values one period late (see C40), so the trajectory in C111_table is stated with the code's timing."
  },
  {
   "property": "C112",
   "status": "partial",
   "theorems": [
    "Dolo.C112_functions",
    "Dolo.C112_bounds",
    "Dolo.C112_unbounded",
    "Dolo.C112_iti_fails",
    "Dolo.C112_value_iteration_fails",
    "Dolo.C112_alias"
   ],
   "note": "Proved for all models: C112_functions, C112_bounds (four methods read the same bounds), C112_unbounded, C112_alias. Missing because the code violates the claim: improved time iteration and egm raise KeyError on a model without conditions (C112_iti_fails); value_iteration raises on every model, since there is no recipe for the functions controls_lb and controls_ub it reads (C112_value_iteration_fails)."
  },
  {
   "property": "C113",
   "status": "partial",
   "theorems": [
    "Dolo.C113_finite",
    "Dolo.C113_finite_rejects",
    "Dolo.C113_equiprobable",
    "Dolo.C113_bernouilli_partial",
    "Dolo.C113_bernouilli_integrate_fails",
    "Dolo.C113_product",
    "Dolo.C113_product_mc_fails",
    "Dolo.C113_mixture",
    "Dolo.C113_simulate",
    "Dolo.C113_simulate_empty",
    "Dolo.C113_monte_carlo"
   ],
   "note": "Proved for finite, equiprobable, product and mixture (integer keys) draws and for simulate, with the Monte Carlo mean and variance. False for Bernouilli: draw ignores pi (follows the distribution iff pi = 1/2) and integrate raises; discretize(to=\"mc\") of a product always raises."
  },
  {
   "property": "C114",
   "status": "partial",
   "theorems": [
    "Dolo.C114_integrate",
    "Dolo.C114_integrate_negative_fails",
    "Dolo.C114_unormal_gh",
    "Dolo.C114_agree",
    "Dolo.C114_normal",
    "Dolo.C114_normal_centred"
   ],
   "note": "Proved in one dimension for sigma > 0 and in several dimensions with the mean the code uses (twice M in the random coordinates), hence exactly N(0, Sigma) for M = 0. False for M nonzero in several dimensions (C09) and for sigma < 0 (integrate returns minus the expectation). Nodes are assumed at the exact roots (C98) and the adaptive quadrature exact on its integrand."
  },
  {
   "property": "C115",
   "status": "partial",
   "theorems": [
    "Dolo.C115_ar1_is_var1",
    "Dolo.C115_horizon",
    "Dolo.C115_variance_fails",
    "Dolo.C115_unavailable"
   ],
   "note": "Mean and probabilities hold at all horizons; the conditional variance is \u03c3 and not \u03c3\u00b2 (proved to agree only for \u03c3 = 0 or 1). Simulation, response and discretisation as a general process always raise (proved)."
  },
  {
   "property": "C116",
   "status": "partial",
   "theorems": [
    "Dolo.C116_simulate",
    "Dolo.C116_response",
    "Dolo.C116_stable",
    "Dolo.C116_perturb_response",
    "Dolo.C116_explosive_fails"
   ],
   "note": "Proved when the first n_s generalised eigenvalues of a triangular decomposition are above one (C116_stable, C116_response, C116_perturb_response, C116_simulate). perturb also returns explosive rules, whose responses grow as 2^t (C116_explosive_fails)."
  },
  {
   "property": "C117",
   "status": "partial",
   "theorems": [
    "Dolo.C117_simple_max",
    "Dolo.C117_raises",
    "Dolo.C117_step_partial",
    "Dolo.C117_result_partial",
    "Dolo.C117_no_entries_fails",
    "Dolo.C117_fixed_point_partial",
    "Dolo.C117_classical_partial",
    "Dolo.C117_unsolved_fails",
    "Dolo.C117_radius_scalar_partial",
    "Dolo.C117_radius_sign_fails"
   ],
   "note": "As the module stands the three solvers raise NameError for every model (C117_raises). With the missing names defined: step identity, stopping rule, fixed points, classical perturbation and the one-dimensional spectral radius are proved; newtonator still returns silently when there is no solution (C117_unsolved_fails) and spectral_radius is meaningless for negative terms (C117_radius_sign_fails)."
  },
  {
   "property": "C118",
   "status": "partial",
   "theorems": [
    "Dolo.C118_multiplication",
    "Dolo.C118_solve",
    "Dolo.C118_mult_AB",
    "Dolo.C118_jac1",
    "Dolo.C118_j2A",
    "Dolo.C118_stacked_solution",
    "Dolo.C118_raises",
    "Dolo.C118_jac2_partial",
    "Dolo.C118_jac_partial",
    "Dolo.C118_smart_solve_partial",
    "Dolo.C118_small_entries_fails"
   ],
   "note": "Multiplication, solve, mult_AB, jac_1 and j2_A in full. As the module stands jac_2, jac, solve, solve_sp and solve_smart raise NameError (C118_raises); with the missing names supplied as a weight matrix, jac and solve are exact only if no product of a derivative and a weight lies strictly between 0 and 1e-6 (C118_small_entries_fails)."
  },
  {
   "property": "C119",
   "status": "partial",
   "theorems": [
    "Dolo.C119_invert",
    "Dolo.C119_factors",
    "Dolo.C119_bound",
    "Dolo.C119_rate",
    "Dolo.C119_eigenvector",
    "Dolo.C119_symmetric_partial",
    "Dolo.C119_oscillation_fails"
   ],
   "note": "Partial sums, ratios, bounds, average rate and eigenvectors in full. That the last factor estimates the spectral radius is false for oscillating operators whatever the number of passes (C119_oscillation_fails); for symmetric operators the factors increase and the last is the largest (C119_symmetric_partial)."
  },
  {
   "property": "C120",
   "status": "partial",
   "theorems": [
    "Dolo.C120_text",
    "Dolo.C120_red",
    "Dolo.C120_colored",
    "Dolo.C120_html",
    "Dolo.C120_html_condition",
    "Dolo.C120_nan_fails"
   ],
   "note": "Text, colours, notebook table and unchanged equations proved for all residual vectors. A residual that is nan is never flagged (C120_nan_fails), since both comparisons with 1e-8 are false."
  },
  {
   "property": "C121",
   "status": "partial",
   "theorems": [
    "Dolo.C121_residuals_partial",
    "Dolo.C121_iid_residuals",
    "Dolo.C121_equilibrium_partial",
    "Dolo.C121_time_iteration_partial",
    "Dolo.C121_initial_guess_partial",
    "Dolo.C121_newton_stays",
    "Dolo.C121_perfect_foresight",
    "Dolo.C121_response_partial",
    "Dolo.C121_nonzero_mean_fails"
   ],
   "note": "The statements about time_iteration need the conditional means of the discretized process to be those of the process (MeanIs); the node of a discretized iid process is always zero, so with a nonzero calibrated mean the residual is -(f_m + (f_S + f_X C) g_m) mb (C121_iid_residuals, C121_nonzero_mean_fails). response is covered for shocks calibrated at zero. The hypothesis ReproducesRule says that the interpolation used reproduces affine functions; it holds for linearly interpolated rules (C152_perturb, C152_equilibrium_partial)."
  },
  {
   "property": "C122",
   "status": "partial",
   "theorems": [
    "Dolo.C122_silent",
    "Dolo.C122_iteration",
    "Dolo.C122_header_partial",
    "Dolo.C122_run",
    "Dolo.C122_solvers",
    "Dolo.C122_iti_titles_fail",
    "Dolo.C122_egm_fails"
   ],
   "note": "Rows, titles, messages, silence and KeyErrors are proved for all columns. The code falsifies the rest: the titles of improved_time_iteration are twelve characters longer than its table (C122_iti_titles_fail), messages longer than the table stick out (in C122_header_partial), and egm prints a line per pair of nodes even with verbose=False (C122_egm_fails)."
  },
  {
   "property": "C123",
   "status": "proved",
   "theorems": [
    "Dolo.C123_default",
    "Dolo.C123_gmres",
    "Dolo.C123_superlinear"
   ],
   "note": "local convergence of both inversion methods, with complementarities; exact arithmetic, exact derivatives, solver contracts"
  },
  {
   "property": "C124",
   "status": "proved",
   "theorems": [
    "Dolo.C124_approximate_jacobian",
    "Dolo.C124_newton",
    "Dolo.C124_quadratic",
    "Dolo.C124_differences",
    "Dolo.C124_ncpsolve",
    "Dolo.C124_ncpsolve_differences"
   ],
   "note": "Local convergence of newton (serial storage, Gaussian elimination) with approximate, exact and numerical Jacobians, quadratic with Lipschitz derivatives, and of ncpsolve at strictly complementary solutions. Exact real arithmetic."
  },
  {
   "property": "C125",
   "status": "proved",
   "theorems": [
    "Dolo.C125_response",
    "Dolo.C125_newton",
    "Dolo.C125_ncpsolve",
    "Dolo.C125_inner_tolerance",
    "Dolo.C125_tolerance_ignored"
   ],
   "note": "Local convergence of the whole loop with the inner solvers as they are called, exact arithmetic; the neighbourhood and constants are not explicit. The early stop caused by the inner tolerance is proved and recorded as a disagreement."
  },
  {
   "property": "C126",
   "status": "partial",
   "theorems": [
    "Dolo.C126_newton",
    "Dolo.C126_ncpsolve",
    "Dolo.C126_steady_state",
    "Dolo.C126_steady_state_bounds",
    "Dolo.C126_tolerance_ignored"
   ],
   "note": "Local existence, uniqueness, contraction and termination proved for newton (C126_newton) and ncpsolve (C126_ncpsolve, at any date a bound may bind strictly, the last included), and for the whole call near a regular steady state (C126_steady_state, C126_steady_state_bounds). The last sentence is false without constraints: tol and maxit are not passed to newton (C126_tolerance_ignored). Paths on which a bound binds at the last two dates are not strictly complementary; the derivative computed there is nan (C153)."
  },
  {
   "property": "C127",
   "status": "partial",
   "theorems": [
    "Dolo.C127_refused_iff",
    "Dolo.C127_constant_bounds",
    "Dolo.C127_first_control_free",
    "Dolo.C127_refused",
    "Dolo.C127_ignored",
    "Dolo.C127_bounds_respected",
    "Dolo.C127_terminal_condition",
    "Dolo.C127_guess_bounds"
   ],
   "note": "Exact condition of the refusal (C127_refused_iff); constant bounds are accepted (C127_constant_bounds) and respected near a regular steady state (C127_bounds_respected). The general claim is false: bounds are never refused when the first control has none (C127_first_control_free), they are applied with the states of the guess (C127_guess_bounds), and the condition on the last control also holds at its bounds (C127_terminal_condition)."
  },
  {
   "property": "C128",
   "status": "partial",
   "theorems": [
    "Dolo.C128_evaluate_policy_fresh",
    "Dolo.C128_evaluate_policy_overwrites",
    "Dolo.C128_policy_is_dr0",
    "Dolo.C128_evaluate_policy_writes",
    "Dolo.C128_results_shared",
    "Dolo.C128_first_result_lost",
    "Dolo.C128_array_policy",
    "Dolo.C128_time_iteration"
   ],
   "note": "Proved: time_iteration writes to no object of the caller, and evaluate_policy to none without dr0. Refuted with dr0: the object supplied is overwritten and returned, successive results are one object; array policies always fail."
  },
  {
   "property": "C129",
   "status": "proved",
   "theorems": [
    "Dolo.C129_trace",
    "Dolo.C129_trace_kept",
    "Dolo.C129_no_trace"
   ],
   "note": "Store model of time_iteration with trace; deepcopy is a new cell with the same table."
  },
  {
   "property": "C130",
   "status": "partial",
   "theorems": [
    "Dolo.C130_newton",
    "Dolo.C130_improved_time_iteration",
    "Dolo.C130_evaluate_policy",
    "Dolo.C130_time_iteration_partial",
    "Dolo.C130_time_iteration_fails"
   ],
   "note": "Proved for newton, improved_time_iteration, evaluate_policy. For time_iteration proved when updates are nonexpansive, refuted in general."
  },
  {
   "property": "C131",
   "status": "partial",
   "theorems": [
    "Dolo.C131_time_iteration_result",
    "Dolo.C131_results_refused",
    "Dolo.C131_rules_without_index",
    "Dolo.C131_rules_with_index",
    "Dolo.C131_egm",
    "Dolo.C131_evaluate_policy_reads",
    "Dolo.C131_evaluate_policy",
    "Dolo.C131_function_called_with_index",
    "Dolo.C131_no_eval_is",
    "Dolo.C131_no_eval_ijs",
    "Dolo.C131_perturb_to_time_iteration",
    "Dolo.C131_constant",
    "Dolo.C131_function_misread"
   ],
   "note": "time_iteration accepts results and all rule classes and starts from their values; refuted for the other solvers (results, perturbation rules, constant rules in evaluate_policy) and for functions of the exogenous value."
  },
  {
   "property": "C132",
   "status": "proved",
   "theorems": [
    "Dolo.C132_solved_iff",
    "Dolo.C132_support",
    "Dolo.C132_frequencies",
    "Dolo.C132_convergence",
    "Dolo.C132_periodic",
    "Dolo.C132_markov",
    "Dolo.C132_iid",
    "Dolo.C132_entry_markov",
    "Dolo.C132_entry_iid",
    "Dolo.C132_node_reached"
   ],
   "note": "np.linalg.solve is a parameter that answers non-singular systems and only those, exactly."
  },
  {
   "property": "C133",
   "status": "partial",
   "theorems": [
    "Dolo.C133_given",
    "Dolo.C133_unknown_shock",
    "Dolo.C133_normal_partial",
    "Dolo.C133_unormal_default",
    "Dolo.C133_unormal_fails",
    "Dolo.C133_missing_fails",
    "Dolo.C133_no_response_fails"
   ],
   "note": "Holds for Normal; for UNormal the default is the square root of the standard deviation (C133_unormal_fails), other independent processes raise without an impulse (C133_missing_fails), products, chains and autoregressions raise always (C133_no_response_fails)."
  },
  {
   "property": "C134",
   "status": "partial",
   "theorems": [
    "Dolo.C134_time_iteration",
    "Dolo.C134_time_iteration_nan",
    "Dolo.C134_silent_fails",
    "Dolo.C134_newton",
    "Dolo.C134_newton_backsteps",
    "Dolo.C134_newton_nan_start_fails",
    "Dolo.C134_improved",
    "Dolo.C134_improved_nan",
    "Dolo.C134_evaluate_policy",
    "Dolo.C134_evaluate_fails",
    "Dolo.C134_value_iteration",
    "Dolo.C134_egm",
    "Dolo.C134_egm_large_tolerance_fails"
   ],
   "note": "Proved: the flags of time_iteration and value_iteration are set exactly when the last two tables are finite numbers within tolerance; with x_converged (improved), a_converged (egm, tolerance at most one) and newton without warning all entries are finite and below tolerance; backtracking steps away from nan. Missing because the code does otherwise: without details a rule full of nan is returned after one pass with no sign (C134_silent_fails), evaluate_policy ends early with error nan and no flag (C134_evaluate_fails), egm with a tolerance above one reports convergence untested (C134_egm_large_tolerance_fails), newton started at nan only takes the shortest step (C134_newton_nan_start_fails)."
  },
  {
   "property": "C135",
   "status": "partial",
   "theorems": [
    "Dolo.C135_newton",
    "Dolo.C135_time_iteration",
    "Dolo.C135_improved_time_iteration",
    "Dolo.C135_evaluate_policy_partial",
    "Dolo.C135_evaluate_policy_fails",
    "Dolo.C135_simulate_partial",
    "Dolo.C135_simulate_fails",
    "Dolo.C135_perfect_foresight"
   ],
   "note": "Proved for newton/ncpsolve, time_iteration, improved_time_iteration (tables on the grid; that a rule returns its values at the nodes is C79) and for perfect-foresight residuals. evaluate_policy makes the last pass again, its solution being the values before it (C135_evaluate_policy_partial, C135_evaluate_policy_fails). simulate continues exactly only if the transition out of the restart date does not see the exogenous value of the date before (C135_simulate_partial, C135_simulate_fails)."
  },
  {
   "property": "C136",
   "status": "partial",
   "theorems": [
    "Dolo.C136_newton",
    "Dolo.C136_derivatives",
    "Dolo.C136_ncpsolve",
    "Dolo.C136_residuals",
    "Dolo.C136_time_iteration",
    "Dolo.C136_simulate",
    "Dolo.C136_stacked_system",
    "Dolo.C136_bounds_check_fails"
   ],
   "note": "proved for newton, ncpsolve, residuals, time_iteration (with its default initial guess), simulate and the stacked system of deterministic_solve, in exact arithmetic and for invertible Jacobians; the interpolation enters with the hypothesis that it is itself equivariant, which holds for linearly interpolated rules (C152_order). The claim fails for the check of bounds in deterministic_solve (C136_bounds_check_fails): a model is accepted or refused depending on which control is listed first"
  },
  {
   "property": "C137",
   "status": "proved",
   "theorems": [
    "Dolo.C137_saddle_path",
    "Dolo.C137_saddle_path_blocks",
    "Dolo.C137_unique",
    "Dolo.C137_others_explode",
    "Dolo.C137_relabel"
   ],
   "note": "Real eigenvalues: from the reported numbers; complex pairs: C137_saddle_path_blocks assumes that the powers of the stable block (forwards) and of the unstable block (backwards) tend to zero, which C154_saddle_path_partial derives from the roots of the model. The check in the code is weaker than the strict conditions: see C34_fails, C34_fails_indeterminate and C78_complex_pair_fails."
  },
  {
   "property": "C138",
   "status": "partial",
   "theorems": [
    "Dolo.C138_files",
    "Dolo.C138_files_all",
    "Dolo.C138_computed_again",
    "Dolo.C138_repairs",
    "Dolo.C138_lambda_kept_fails",
    "Dolo.C138_lambda_destroys_fails"
   ],
   "note": "Holds for functions whose names are ASCII identifiers (C138_files, C138_files_all, C138_computed_again, C138_repairs). Fails for anonymous functions: nothing is cleared, or the directory is removed altogether (C138_lambda_kept_fails, C138_lambda_destroys_fails)."
  },
  {
   "property": "C139",
   "status": "partial",
   "theorems": [
    "Dolo.C139_newton",
    "Dolo.C139_newton_step",
    "Dolo.C139_grid",
    "Dolo.C139_rouwenhorst",
    "Dolo.C139_tauchen",
    "Dolo.C139_unormal",
    "Dolo.C139_normal_partial",
    "Dolo.C139_var1_partial",
    "Dolo.C139_newton_tolerance_fails",
    "Dolo.C139_normal_fails",
    "Dolo.C139_var1_fails",
    "Dolo.C139_perturbation",
    "Dolo.C139_perturbation_rule"
   ],
   "note": "Proved for perturbation, newton (equations scaled together with the tolerance), grids, rouwenhorst, tauchen, UNormal, Normal without zero-sum columns, VAR1 with one common unit. False otherwise (witnesses): newton's tolerance is absolute; Normal.discretize takes a shock for constant when its covariances happen to cancel its variance; multidimensional_discretization uses the transposed Cholesky factor, so units of one variable change the others' nodes."
  },
  {
   "property": "C140",
   "status": "partial",
   "theorems": [
    "Dolo.C140_linear",
    "Dolo.C140_newton_partial",
    "Dolo.C140_newton_fails"
   ],
   "note": "Proved for the linear systems, and for newton when the full steps of each problem alone reduce its residual: same iterates, as many iterations as the slowest, a warning iff one alone warns. False when one point needs smaller steps (witness): the step length is common to all points, so an easy point is left unsolved."
  },
  {
   "property": "C141",
   "status": "partial",
   "theorems": [
    "Dolo.C141_empty_left",
    "Dolo.C141_empty_right_fails",
    "Dolo.C141_product_fails",
    "Dolo.C141_sum_classes",
    "Dolo.C141_sum_partial",
    "Dolo.C141_node_partial",
    "Dolo.C141_point_fails"
   ],
   "note": "EmptyGrid is neutral on the left only; products of Cartesian grids always raise; sums of non-uniform grids and node(i) proved; a grid with one point has no node."
  },
  {
   "property": "C142",
   "status": "partial",
   "theorems": [
    "Dolo.C142_round_trip",
    "Dolo.C142_accepted",
    "Dolo.C142_one_bound_fails"
   ],
   "note": "Round trip and acceptance proved for all texts; the one-sided forms of the documentation are rejected, which is proved too. Model assumption: white space is blank, tab or newline."
  },
  {
   "property": "C143",
   "status": "partial",
   "theorems": [
    "Dolo.C143_odd",
    "Dolo.C143_product",
    "Dolo.C143_equiprobable",
    "Dolo.C143_left_right",
    "Dolo.C143_unormal",
    "Dolo.C143_hermgauss",
    "Dolo.C143_rouwenhorst",
    "Dolo.C143_chain",
    "Dolo.C143_normal",
    "Dolo.C143_normal_partial",
    "Dolo.C143_normal_fails"
   ],
   "note": "Proved for equiprobable points (median, middle), one normal variable, products, Rouwenhorst chains (all sizes) and hermgauss with an even number of nodes (with an odd number the middle node is only within the tolerance of zero); Tauchen in C14_tauchen_symmetric. Several normal variables with a nonzero mean are symmetric about twice the mean (C143_normal, C143_normal_fails)."
  },
  {
   "property": "C144",
   "status": "proved",
   "theorems": [
    "Dolo.C144_bounds",
    "Dolo.C144_unbounded"
   ],
   "note": "For tolerances up to 30000 (the smoothing ignores bounds more than 100000 away). Exact arithmetic."
  },
  {
   "property": "C145",
   "status": "proved",
   "theorems": [
    "Dolo.C145_finite",
    "Dolo.C145_value",
    "Dolo.C145_infinite"
   ],
   "note": "A move on the grid draws the shock, then a grid point with the interpolation weight; with splines these weights may be negative. Exact arithmetic; the values component must have the form utility + beta * V(1)."
  },
  {
   "property": "C146",
   "status": "partial",
   "theorems": [
    "Dolo.C146_panels_partial",
    "Dolo.C146_empty_layout",
    "Dolo.C146_one_variable_fails",
    "Dolo.C146_many_simulations_fails"
   ],
   "note": "Holds for 2 to 12 variables and, by default, at most as many simulations as variables. A plot of one variable always raises (subplots returns a single object), and with the default options more simulations than variables always raise an IndexError."
  },
  {
   "property": "C147",
   "status": "partial",
   "theorems": [
    "Dolo.C147_signature",
    "Dolo.C147_applicable",
    "Dolo.C147_positional",
    "Dolo.C147_single",
    "Dolo.C147_keyword_fails"
   ],
   "note": "Holds for positional arguments. An annotated argument given by name is not seen by dispatch: the call raises DispatchError whatever the methods declared (C147_keyword_fails), for instance ergodic_distribution(model, dr=dr)."
  },
  {
   "property": "C148",
   "status": "partial",
   "theorems": [
    "Dolo.C148_policy",
    "Dolo.C148_policy_monotone",
    "Dolo.C148_value_iteration",
    "Dolo.C148_bellman",
    "Dolo.C148_values_scale",
    "Dolo.C148_more_choices",
    "Dolo.C148_values_monotone",
    "Dolo.C148_tolerance_fails"
   ],
   "note": "Adding a constant: proved exactly for value_iteration, given an optimiser whose choices do not depend on constants. Scaling: exact for evaluate_policy with the tolerance scaled, up to reported errors for value_iteration; with an absolute tolerance the exact claim is false (C148_tolerance_fails)."
  },
  {
   "property": "C149",
   "status": "proved",
   "theorems": [
    "Dolo.C149_first_order",
    "Dolo.C149_second_order",
    "Dolo.C149_third_order",
    "Dolo.C149_nested",
    "Dolo.C149_rule"
   ],
   "note": "Assumes that the linear solvers return exact solutions (their contract), and at third order that the Sylvester system has one solution. In practice perturbations_higher_order.py cannot be imported, because a module it needs does not exist."
  },
  {
   "property": "C150",
   "status": "partial",
   "theorems": [
    "Dolo.C150_results",
    "Dolo.C150_raises",
    "Dolo.C150_exceptions",
    "Dolo.C150_returns",
    "Dolo.C150_elimination",
    "Dolo.C150_names_point",
    "Dolo.C150_regular",
    "Dolo.C150_solved_point_fails"
   ],
   "note": "All parts but the last are proved, for numpy's solve in exact arithmetic (it raises exactly for singular matrices). The last part is false: a point that is already solved and has a singular Jacobian makes the whole computation raise (C150_solved_point_fails)."
  },
  {
   "property": "C151",
   "status": "partial",
   "theorems": [
    "Dolo.C151_deviation",
    "Dolo.C151_terminal",
    "Dolo.C151_tail",
    "Dolo.C151_horizon",
    "Dolo.C151_two_horizons",
    "Dolo.C151_limit",
    "Dolo.C151_indeterminate_fails"
   ],
   "note": "proved when the reported eigenvalues satisfy the Blanchard-Kahn conditions (real eigenvalues: triangular decomposition; conditions on the roots of the model, complex ones included: C154_horizon_partial); fails for an indeterminate model that perturb accepts (C151_indeterminate_fails)"
  },
  {
   "property": "C152",
   "status": "partial",
   "theorems": [
    "Dolo.C152_weights",
    "Dolo.C152_affine",
    "Dolo.C152_bounds_partial",
    "Dolo.C152_nonexpansive_partial",
    "Dolo.C152_average_partial",
    "Dolo.C152_policy_value_partial",
    "Dolo.C152_outside_fails",
    "Dolo.C152_order",
    "Dolo.C152_cartesian_partial",
    "Dolo.C152_linear",
    "Dolo.C152_perturb",
    "Dolo.C152_equilibrium_partial"
   ],
   "note": "Weights, affine reproduction, linearity and order proved for all states; bounds, averages and non-expansiveness hold inside the box and fail at every state outside it (C152_outside_fails). Cartesian exogenous grids: when the sum of the grids is the product grid (C79). eval_linear itself is outside the repository and enters by its contract."
  },
  {
   "property": "C153",
   "status": "partial",
   "theorems": [
    "Dolo.C153_ncpsolve",
    "Dolo.C153_improved",
    "Dolo.C153_ncpsolve_fails",
    "Dolo.C153_perfect_foresight_fails"
   ],
   "note": "The statement is false: both derivatives are nan exactly at the points of AtKink (C153_ncpsolve, C153_improved), from where ncpsolve never recovers (C153_ncpsolve_fails) and where the default guess of deterministic_solve is whenever a calibrated control is at a bound (C153_perfect_foresight_fails). At all other points the derivatives are numbers, those of the real model. Assumed of the linear solvers: an equation whose entries are nan makes one of its unknowns nan."
  },
  {
   "property": "C154",
   "status": "partial",
   "theorems": [
    "Dolo.C154_saddle_path_partial",
    "Dolo.C154_real_roots_partial",
    "Dolo.C154_complex_roots",
    "Dolo.C154_horizon_partial",
    "Dolo.C154_complex_fails"
   ],
   "note": "Proved whenever select tells stable from unstable roots: all models with real roots away from the circle (C154_real_roots_partial) and complex pairs a +- ib of alpha/beta with a^2 - b^2 above the criterion iff a^2 + b^2 > 1 (C154_complex_roots). False otherwise: select receives complex numbers and numpy compares them by real part first, so a stable complex pair may be left out and a non-solution returned without warning (C154_complex_fails)."
  },
  {
   "property": "C155",
   "status": "partial",
   "theorems": [
    "Dolo.C155_nearby_partial"
   ],
   "note": "Proved with the same condition as C154: select must tell stable from unstable eigenvalues, for the model and for the nearby ones (always with real roots away from the circle; false for some complex pairs, C154_complex_fails)."
  },
  {
   "property": "C156",
   "status": "proved",
   "theorems": [
    "Dolo.C156_optimum",
    "Dolo.C156_values",
    "Dolo.C156_decisions"
   ],
   "note": "Contracts as in C108: value equation felicity + beta V(1), averaging interpolation at the states reached, exact optimiser, the same interpolation for both models. The bound is attained in the example."
  },
  {
   "property": "C157",
   "status": "proved",
   "theorems": [
    "Dolo.C157_euler_errors",
    "Dolo.C157_equilibria",
    "Dolo.C157_rules",
    "Dolo.C157_residuals"
   ],
   "note": "Equilibria (bound attained in the example), rules returned by two runs, and the change of the expected residuals in terms of the arbitrage function and the probabilities. In the setting of C110 (D, mu, L, l), exact arithmetic, inner solvers by contract."
  },
  {
   "property": "C158",
   "status": "proved",
   "theorems": [
    "Dolo.C158_lipschitz",
    "Dolo.C158_smooth",
    "Dolo.C158_uniform",
    "Dolo.C158_equilibrium",
    "Dolo.C158_time_iteration",
    "Dolo.C158_second_order",
    "Dolo.C158_optimum",
    "Dolo.C158_value_iteration"
   ],
   "note": "States reached must lie in the box of the grid (outside, interpolation extrapolates: C152_outside_fails); linear interpolation with no exogenous grid, or with an unstructured exogenous grid and one state, the cases where the code interpolates linearly as documented (LinearCase of C152); exact arithmetic; existence of the true rule is a hypothesis."
  },
  {
   "property": "C159",
   "status": "proved",
   "theorems": [
    "Dolo.C159_simulations",
    "Dolo.C159_drawn",
    "Dolo.C159_stable",
    "Dolo.C159_distributions",
    "Dolo.C159_ergodic_markov",
    "Dolo.C159_ergodic_iid"
   ],
   "note": "C159_simulations (given exogenous path), C159_drawn (drawn process), C159_stable (errors do not accumulate), C159_distributions (any two chains), C159_ergodic_markov and C159_ergodic_iid (the distributions returned by ergodic_distribution). The bound on distributions is attained in the example."
  },
  {
   "property": "C160",
   "status": "proved",
   "theorems": [
    "Dolo.C160_derivative",
    "Dolo.C160_unique",
    "Dolo.C160_tangent",
    "Dolo.C160_quadratic",
    "Dolo.C160_paths",
    "Dolo.C160_all_dates",
    "Dolo.C160_linearised"
   ],
   "note": "Derivative of a smooth stable solution equals the rule of perturb (C160_derivative, C160_tangent), with quadratic error for twice differentiable solutions (C160_quadratic), and uniqueness to first order (C160_unique). C160_paths: simulations date by date; C160_all_dates: uniformly over dates and lengths with a geometric factor; C160_linearised: against the linearised model. Decompositions with complex roots are included through the Blanchard-Kahn hypothesis. Existence of the solution is C161."
  },
  {
   "property": "C161",
   "status": "proved",
   "theorems": [
    "Dolo.C161_determinate",
    "Dolo.C161_solution",
    "Dolo.C161_unique",
    "Dolo.C161_simulations"
   ],
   "note": "Proved by the implicit function theorem in the space of bounded sequences (Lemmas/PathMap.lean). C161_determinate: one path near the steady state from each nearby state. C161_solution: a stable solution exists, is differentiable at the steady state and the rule is tangent to it. C161_unique: no other continuous solution under which the steady state is stable. C161_simulations: distance between simulations under the rule and the path, at all dates. Exact arithmetic; the model is deterministic (no shocks), smoothness is a hypothesis on the functions of the model."
  },
  {
   "property": "C162",
   "status": "proved",
   "theorems": [
    "Dolo.C162_paths",
    "Dolo.C162_regular",
    "Dolo.C162_second_order",
    "Dolo.C162_risk"
   ],
   "note": "C162_regular: the linear systems of all orders are regular. C162_second_order: the returned expansion is that of every stable solution (without shocks) that has one. C162_risk: the returned X_ss and X_tt are those of every rule solving the model to second order with risk. C162_paths: simulations without shocks under the rule and under the solution agree up to second order at every date. Runs without warning; existence of a twice differentiable solution is not claimed."
  },
  {
   "property": "C163",
   "status": "proved",
   "theorems": [
    "Dolo.C163_residuals",
    "Dolo.C163_rule",
    "Dolo.C163_perturb",
    "Dolo.C163_first_order",
    "Dolo.C163_unique",
    "Dolo.C163_certainty_equivalence",
    "Dolo.C163_simulations",
    "Dolo.C163_perturb_simulations"
   ],
   "note": "For finite distributions of the shocks (mean zero, covariance that of the model). Second order, for runs that give no warning under the Blanchard-Kahn conditions: C163_residuals (any rule with the derivatives returned), C163_rule (the quadratic rule), C163_perturb (the values of the TaylorExpansion objects built by perturb for covariance matrices scaled by lambda^2), C163_unique (converse), C163_simulations and C163_perturb_simulations (simulations with shocks). First order, with or without warning: C163_first_order. C163_certainty_equivalence drops the assumption that the rule does not react to risk at first order."
  }
 ]
}
