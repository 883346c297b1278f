{
"C01": {"status": "partial", "note": "Row-major enumeration proved for arrays of one dtype, for a first array of floats, and whenever all values survive the dtype of the first array (C01_cartesianND_partial); with an integer array first the code truncates later arrays (C01_mixed_dtype_fails)."},
"C02": {"status": "proved", "note": "Count, node formula, spacing, corners, containment, and the IndexError case."},
"C03": {"status": "partial", "note": "False of the code (C03_uniform_add_fails): the bounds of the second grid are dropped. Holds when the bounds coincide."},
"C04": {"status": "proved", "note": "Product enumeration and associativity."},
"C05": {"status": "proved", "note": "Weights are the products, nodes the combinations in row-major order, expectation of products is the product of expectations, unit mass, non-negative."},
"C06": {"status": "partial", "note": "Proved when the mixture keys are the strings 0..n-1 in the order of the mixing nodes; with other orders the weights go to the wrong component and with integer keys a KeyError is raised (negations proved)."},
"C07": {"status": "proved", "note": "Points inside the support, sorted, strictly sorted for a strictly increasing quantile."},
"C08": {"status": "proved", "note": "Quantiles of a truncated distribution stay within the truncation bounds, for any cdf/ppf pair satisfying the Galois contract."},
"C09": {"status": "partial", "note": "In one dimension proved; in d>=2 the code adds the mean twice (C09_mean_fails) and treats zero-sum columns as degenerate (C09_zero_sum_column_fails); C09_normal_moments states exactly what is computed."},
"C10": {"status": "proved", "note": "All rows equal the weights: iid chain."},
"C11": {"status": "proved", "note": "Joint chain for any number of chains; row sums and non-negativity preserved."},
"C12": {"status": "proved", "note": "For every N>=1 and rho in [-1,1]."},
"C13": {"status": "proved", "note": "Conditional mean and variance at every node, stationarity of the binomial distribution, unconditional mean, variance, autocovariance under any stationary distribution."},
"C14": {"status": "proved", "note": "Row sums (any cdf), non-negativity (monotone cdf, m>=0), mirror symmetry (symmetric cdf)."},
"C15": {"status": "proved", "note": "Index i is drawn iff u lies in [sum of the first i, sum of the first i+1) for non-negative rows; valid index with positive probability when u is below the total; one past the end otherwise."},
"C16": {"status": "proved", "note": "Shape, start, feasibility of every transition, independence of paths on other paths' draws, values of the simulated states."},
"C17": {"status": "proved", "note": "Equivalence for every row-stochastic matrix; the returned vector is the unique invariant one, and non-negative (triangle-inequality argument), under the contract that solve only returns for non-singular systems."},
"C18": {"status": "proved", "note": "Mass, mean position (also in state units), non-negativity, locality; one and two dimensions; single-node grids are refused."},
"C19": {"status": "proved", "note": "Both implementations of the residual (fb.py, smooth_nodiff below the slack threshold), plus the sign of the residual."},
"C20": {"status": "proved", "note": "fb.py for finite bounds (for infinite bounds it evaluates inf-inf, outside exact arithmetic); improved time iteration for finite and absent bounds. The threshold 100000 does not change the zero set."},
"C21": {"status": "proved", "note": "PhiFB_, smooth_FB_ and the dres/jres of improved time iteration, away from kinks and from a slack of exactly 100000, where the residual jumps (C21_threshold_jump). fb.smooth computes dV but never fills or returns it."},
"C22": {"status": "partial", "note": "True for serial and sparse storage (values and Jacobian); false for the full storage, where smoothing is skipped (C22_ncpsolve_full_fails)."},
"C23": {"status": "partial", "note": "True when no bound equals +-1e10 exactly; false otherwise (C23_lmmcp_big_fails)."},
"C24": {"status": "proved", "note": "exact arithmetic; the compiled loops are modelled as folds over matrix-valued functions; behaviour on singular matrices (float division) is not modelled"},
"C25": {"status": "partial", "note": "proved for vectors, square matrices and tensors (the shapes the library's own callers use); false for rectangular matrices, since the row loops run over n instead of the number of columns (C25_rectangular_fails, C25_narrow_fails)"},
"C26": {"status": "proved", "note": "numpy.linalg.solve is a parameter with its contract (met by the elimination of C24); the slycot branch is not modelled"},
"C27": {"status": "proved", "note": "control flow of newton with arbitrary function, norm and solver; includes witnesses that a step may increase the residual and that the warning may be given at a solution"},
"C28": {"status": "proved", "note": "Exact description of iterates, error, flag and stopping; NameError exactly when maxit = 0 or tol >= 10. At err == tol the loop stops but the flag is false (C28_unflagged_stop)."},
"C29": {"status": "proved", "note": "Path of safeguarded passes; converged flag implies the residual of the returned rule is below tol; otherwise maxit was reached (and the reported residual is that of the previous point). Line search and loop residuals agree in absolute value."},
"C30": {"status": "proved", "note": "Neumann identity for every additive operator, stopping rule, and the linearised system solved by the step up to the explicit remainder."},
"C31": {"status": "partial", "note": "False as stated: the flags use fixed tolerances (C31_flag_ignores_tol). Loop stopping conditions, returned values and flags described exactly in C31_value_iteration_partial."},
"C32": {"status": "proved", "note": "Reported error is exactly the move under one more application; error bound for contractions; update_value shown to be a contraction. Interpolation enters as a non-expansive parameter."},
"C33": {"status": "proved", "note": "Matrix identity from the contracts of ordqz (A = QSZ', B = QTZ', split at n_s, S11 invertible) and solve, whenever approximate_1st_order returns."},
"C34": {"status": "partial", "note": "False: the test uses max/min instead of min/max (C34_fails: explosive state accepted; C34_fails_indeterminate). Proved: exact description of when it returns, no warning is ever issued, and exactness with one state and one control."},
"C35": {"status": "proved", "note": "Affine formula, steady state, ignored exogenous, row-wise broadcasting, error cases."},
"C36": {"status": "partial", "note": "Order two is proved for the whole of state_perturb, and the second-order terms are the only ones (C36_second_unique, with risk; C36_second_unique_certain, without). At order three, with one state, the exact third-order error is proved (zero iff (f_S + f_X X_s) g_sx X_ss = 0); the full claim is false, with two independent counterexamples (factor 2 instead of 3; wrong contraction with several states). C36_certainty_equivalence: rules that solve the model at second order have no first-order or mixed terms in the scale of risk."},
"C37": {"status": "partial", "note": "dict, DataFrame and None inputs proved; the array branch is shifted by one period (C37_array_equals_dict_fails), exact behaviour proved as the dict of the rows after the first"},
"C38": {"status": "proved", "note": "all horizons N >= 2, arbitrary model functions, shocks and dimensions"},
"C39": {"status": "proved", "note": "Frechet derivative over the reals, all horizons N >= 2, arbitrary finite dimensions"},
"C40": {"status": "partial", "note": "False of the code: the transition to date t+1 uses the exogenous values of dates t-1 and t (C40_simulate_exact states what is computed, C40_simulate_fails is a witness). Holds when the exogenous values are constant."},
"C41": {"status": "partial", "note": "Holds for independent processes, horizon of at least two dates, steady state at zero shocks; a process with a mean leaves the steady state (C41_mean_fails), other processes raise (C133_no_response_fails)."},
"C42": {"status": "proved", "note": "Closed forms, with the number of rows."},
"C43": {"status": "proved", "note": "Heap model of arrays; lookups by group, name, alias, tuple; isolation from the input arrays."},
"C44": {"status": "proved", "note": "Holds literally: what is returned is what the canonical key holds. Assignments through an alias go to the alias key and are never read (theorems with suffix _fails)."},
"C45": {"status": "proved", "note": "Any sequence of set_calibration and reads of calibration, exogenous, domain, functions."},
"C46": {"status": "proved", "note": "Acceptance characterised exactly; evaluation in order has a unique solution. A definition may carry the name of a parameter (C46_shadows_parameter_fails), which the statement does not forbid."},
"C47": {"status": "proved", "note": ""},
"C48": {"status": "proved", "note": "Acceptance characterised exactly; bounds line up."},
"C49": {"status": "proved", "note": "Keys with arbitrary white space and grouping."},
"C50": {"status": "partial", "note": "Proved when calls with equal hashes are equal calls; hash collisions (hash(-1)=hash(-2), array shape ignored) and unhashable arguments are shown to break it."},
"C51": {"status": "partial", "note": "A crash during the write leaves a truncated file: later calls with the same arguments raise. Proved for calls with other arguments."},
"C52": {"status": "proved", "note": "Proved for registered signatures of one length, as stated; with mixed lengths a witness shows the dependence on registration order."},
"C53": {"status": "partial", "note": "Proved when listings succeed and the path exists under the project; otherwise the directory has moved (C53_missing_path_fails)."},
"C54": {"status": "partial", "note": "One-dimensional series with at least four observations: matrix, trend plus cycle, minimisation and nonsingularity proved for all T. Two-dimensional input ignores lam, and shorter series raise (both proved)."},
"C55": {"status": "partial", "note": "MyJacobian, SerialDifferentiableFunction and numdiff1 proved exact in all dimensions; compiler.misc.numdiff proved only when it does not raise (its number of values must equal the number of points), the failure is proved. numdiff2 always raises (C55_numdiff2_fails); with the commented-out line 60 restored it is exact (C55_numdiff2_tuple_partial)."},
"C56": {"status": "proved", "note": "Polynomial value for orders 1-3 for every call shape, order >=4 raises, selection of controls, and the rule returned by the higher-order perturb"},
"C57": {"status": "partial", "note": "Proved at the grid nodes, after at least two iterations. Between nodes the cubic interpolation can leave the bounds, and a single iteration returns the unclipped initial policy (both proved)."},
"C58": {"status": "partial", "note": "All-iid products, products with memory of two or more processes, constants, options and iid-as-chain proved for all lists. A product of a single process with memory and a nested product raise (both proved)."},
"C59": {"status": "partial", "note": "Reshapes keep flat positions and values, and the Jacobians of dres_to_sparse, jres_to_sparse and jac_1 are the block matrices, for all shapes; in general the matrix form gets its shape from the stored entries, so a tensor with nothing in its last row gives a smaller matrix."},
"C60": {"status": "proved", "note": "Two and three bases; other numbers of bases characterised as well."},
"C61": {"status": "partial", "note": "Conditional mean proved for every Sigma; the covariance is L L' for the upper factor L returned by scipy, so Sigma is only reproduced when diagonal (partial theorem); C61_covariance_fails is a witness."},
"C62": {"status": "partial", "note": "False of the code: options are ignored (C62_mc_ignores_options, C62_mc_options_fail). Holds for the default options."},
"C63": {"status": "partial", "note": "Holds for integer keys; with string keys (required by discretize) every draw is zero."},
"C64": {"status": "partial", "note": "Dynamics proved; the path starts at m0 + mu (C64_var1_start_fails), at m0 only for zero mean; stochastic=False always raises (C64_var1_deterministic_fails)."},
"C65": {"status": "partial", "note": "Holds for distinct nodes; negation proved for repeated nodes."},
"C66": {"status": "partial", "note": "False of the code: entries may deviate by one; negation proved."},
"C67": {"status": "partial", "note": "Holds for iid processes; always raises for VAR(1), AR(1) and for models whose exogenous section is keyed by names (C67_response_var1_fails, C133_no_response_fails)."},
"C68": {"status": "partial", "note": "False of the code for drawn processes; holds when the process does not use the generator, and from the second call on."},
"C69": {"status": "proved", "note": "Markov chains (1-d, 2-d) and iid processes; layout of rows and columns."},
"C70": {"status": "proved", "note": "Both blocks, at points clear of the tolerance bands (stated hypotheses)."},
"C71": {"status": "proved", "note": "Includes the default number of points."},
"C72": {"status": "proved", "note": "The one-dimensional method is a parameter."},
"C73": {"status": "proved", "note": "exact arithmetic"},
"C74": {"status": "proved", "note": "serial and sparse storage; the full storage ignores the bounds (C22_ncpsolve_full_fails)"},
"C75": {"status": "proved", "note": "Euler residual bound itol + l*err; contracts on inner solver, interpolation, weights and Lipschitz constant."},
"C76": {"status": "partial", "note": "Holds when the rule at index j is the value function at the j-th integration node (Markov chains, iid). False for GDP processes: choice_value uses the node of the same index (C76_gdp_fails)."},
"C77": {"status": "partial", "note": "Proved for iid shocks, and for a VAR1 provided its matrix could be read; get_derivatives reads process.rho, which VAR1 objects do not have (C77_var1_raises)."},
"C78": {"status": "partial", "note": "Exact for triangular decompositions (all eigenvalues real) including infinite ones, and stability of the solution; false for complex pairs (C78_complex_pair_fails)."},
"C79": {"status": "partial", "note": "Proved for unstructured (cubic, or linear with one state), empty and Cartesian exogenous grids whose sum is the product grid (non-uniform, or uniform with equal bounds); linear interpolation over several states on an unstructured grid and uniform grids with different bounds are false (general theorems and witnesses)"},
"C80": {"status": "partial", "note": "Proved for rules without Cartesian exogenous grid; for Cartesian ones every such call raises ValueError unless there is exactly one state"},
"C81": {"status": "proved", "note": "Row-wise characterisation for the three kinds of exogenous grid"},
"C82": {"status": "partial", "note": "Proved for unstructured and empty exogenous grids and for Taylor expansions; tabulate always raises for a Cartesian exogenous grid"},
"C83": {"status": "partial", "note": "Raises for every interpolated rule; proved for rules whose eval_is accepts one vector of states"},
"C84": {"status": "partial", "note": "path property proved under a solver contract; start state proved when the first two exogenous values agree / at a calibrated steady state; false in general (two counterexamples)"},
"C85": {"status": "partial", "note": "ncpsolve proved; lmmcp receives permuted arguments (counterexample)"},
"C86": {"status": "partial", "note": "proved with keep_steady_state=True and a shock path; otherwise one row short"},
"C87": {"status": "partial", "note": "Holds when symbols is read first, or without definitions; fails for every non-empty definitions block when definitions is read first."},
"C88": {"status": "partial", "note": "Holds for calibration, exogenous, domain; the compiled functions are never recomputed."},
"C89": {"status": "partial", "note": "Holds when the domain section lists states in declared order; fails otherwise. Missing bounds raise."},
"C90": {"status": "partial", "note": "Full for all groups except values, expectations and direct_responses, whose default is never applied (C90_values_default_fails)."},
"C91": {"status": "partial", "note": "Holds when equations are listed in the order of the target symbols; left-hand sides are never checked. Residuals proved for a single equal sign."},
"C92": {"status": "partial", "note": "Proved for functions with distinct names and arguments with distinct hashes; two functions with one name share files (C92_same_name_fails)."},
"C93": {"status": "proved", "note": "Weights, linear trends and linearity for every half-width."},
"C94": {"status": "partial", "note": "Proved with tolerance at most one. Larger tolerances report convergence at once, and products of iid processes raise an index error (both proved)."},
"C95": {"status": "proved", "note": "Listing, exactness, error bound, and the common interface of chains, general processes and iid distributions."},
"C96": {"status": "partial", "note": "Cells of iid and product simulations proved for all sizes. Constants and AR1 cannot be simulated, products refuse initial values, and iid processes ignore stochastic=False (all proved)."},
"C97": {"status": "partial", "note": "Every call raises because the grid class has no constructor (proved); the conditional mean of the arrays it would return is proved for mean zero (the mean of the process is not used by the code)."},
"C98": {"status": "partial", "note": "Number, symmetry, positivity and distance to the roots are proved for every order and starting value, exactness at the roots for every polynomial of degree below 2n. The iterations find the largest root of every order from the right (C98_largest_root); orders one, two and three are proved in full with the starting values of the code. For higher orders the convergence of the rule is partial: the code does not check that the roots it found are distinct, and that the iterations for the inner roots succeed from the given starting values is not proved."},
"C99": {"status": "partial", "note": "Holds with at least one matrix and at most 26 labels. mdot(M) without matrices sums all entries instead of returning M (C99_empty_fails). multitake selects along every listed axis for lists of positions (C99_multitake), but not for scalar positions, which drop axes (C99_multitake_scalars_fails)."},
"C100": {"status": "partial", "note": "The equation holds when the ordered decomposition splits in the middle. eigmax is never used (C100_unstable_fails); a complex pair across the middle gives a matrix that is no solution (C100_complex_fails)."},
"C101": {"status": "partial", "note": "Proved with the time direction reversed (C101_evaluates) and for static formulas; k(1) gives the previous value (C101_lead_fails)."},
"C102": {"status": "partial", "note": "Residuals: full. find_steady_state: when the solver succeeds; its status is not read (C102_unchecked_fails)."},
"C103": {"status": "proved", "note": "Without complementarities (ignore_constraints=True). scipy's gmres and eigs are parameters; numerical differentiation is represented by the derivatives it approximates (exactness in C55). radius_jac is not modelled."},
"C104": {"status": "partial", "note": "Holds when every variable is an argument or a definition at a date where both states and controls are arguments (C104_value, C104_definitions, C104_dates). Definitions can not be used in bounds nor in blocks without both (C104_bounds_fails), and an accepted definition with a lag makes functions fail (C104_lag_fails)."},
"C105": {"status": "partial", "note": "Holds for grids with a YAML tag (C105_cartesian_partial, C105_smolyak_partial, C105_nonuniform_partial). A grid given by options:grid:type is refused (C105_type_field_fails), and a missing grid raises AttributeError, with options:grid_type never read (C105_missing_fails)."},
"C106": {"status": "partial", "note": "Holds for keys written without date (C106_value, C106_exists). A formula named y(0) is not found under the name y (C106_dated_key_fails)."},
"C107": {"status": "proved", "note": "Markov chains and iid processes with one or two states, under the contract of numpy.linalg.solve; three or more states raise (C107_unsupported)."},
"C108": {"status": "proved", "note": "C108_returns, C108_a_posteriori, C108_convergence. Assumptions are the fields of DynamicProgram; interpolation must be an average of the grid values at the states reached (proved for linear interpolation within the grid: C152_average_partial; not true for cubic splines)."},
"C109": {"status": "partial", "note": "Proved for fewer than 500 preprocessing steps (default 20): C109_solution_partial, C109_default, C109_verbose, C109_preprocessor_feasible, C109_armijo. With more steps the starting point can be returned as a solution (C109_presteps_fails)."},
"C110": {"status": "partial", "note": "The convergence, uniqueness, Euler-error, trace and initial-guess theorems hold in full; with the argument dprocess the exogenous grid of the rule is not the one of the process used (C110_process_fails)."},
"C111": {"status": "partial", "note": "Proved for all models and driving processes whose sizes agree: C111_table, C111_inputs. Missing because the code violates the claim: without auxiliary variables the table has no exogenous columns (C111_exogenous_fails), and a driving process of indices without i0 always raises (C111_indices_fail). The transition dates the exogenous values one period late (see C40), so the trajectory in C111_table is stated with the code's timing."},
"C112": {"status": "partial", "note": "Proved for all models: C112_functions, C112_bounds (four methods read the same bounds), C112_unbounded, C112_alias. Missing because the code violates the claim: improved time iteration and egm raise KeyError on a model without conditions (C112_iti_fails); value_iteration raises on every model, since there is no recipe for the functions controls_lb and controls_ub it reads (C112_value_iteration_fails)."},
"C113": {"status": "partial", "note": "Proved for finite, equiprobable, product and mixture (integer keys) draws and for simulate, with the Monte Carlo mean and variance. False for Bernouilli: draw ignores pi (follows the distribution iff pi = 1/2) and integrate raises; discretize(to=\"mc\") of a product always raises."},
"C114": {"status": "partial", "note": "Proved in one dimension for sigma > 0 and in several dimensions with the mean the code uses (twice M in the random coordinates), hence exactly N(0, Sigma) for M = 0. False for M nonzero in several dimensions (C09) and for sigma < 0 (integrate returns minus the expectation). Nodes are assumed at the exact roots (C98) and the adaptive quadrature exact on its integrand."},
"C115": {"status": "partial", "note": "Mean and probabilities hold at all horizons; the conditional variance is \u03c3 and not \u03c3\u00b2 (proved to agree only for \u03c3 = 0 or 1). Simulation, response and discretisation as a general process always raise (proved)."},
"C116": {"status": "partial", "note": "Proved when the first n_s generalised eigenvalues of a triangular decomposition are above one (C116_stable, C116_response, C116_perturb_response, C116_simulate). perturb also returns explosive rules, whose responses grow as 2^t (C116_explosive_fails)."},
"C117": {"status": "partial", "note": "As the module stands the three solvers raise NameError for every model (C117_raises). With the missing names defined: step identity, stopping rule, fixed points, classical perturbation and the one-dimensional spectral radius are proved; newtonator still returns silently when there is no solution (C117_unsolved_fails) and spectral_radius is meaningless for negative terms (C117_radius_sign_fails)."},
"C118": {"status": "partial", "note": "Multiplication, solve, mult_AB, jac_1 and j2_A in full. As the module stands jac_2, jac, solve, solve_sp and solve_smart raise NameError (C118_raises); with the missing names supplied as a weight matrix, jac and solve are exact only if no product of a derivative and a weight lies strictly between 0 and 1e-6 (C118_small_entries_fails)."},
"C119": {"status": "partial", "note": "Partial sums, ratios, bounds, average rate and eigenvectors in full. That the last factor estimates the spectral radius is false for oscillating operators whatever the number of passes (C119_oscillation_fails); for symmetric operators the factors increase and the last is the largest (C119_symmetric_partial)."},
"C120": {"status": "partial", "note": "Text, colours, notebook table and unchanged equations proved for all residual vectors. A residual that is nan is never flagged (C120_nan_fails), since both comparisons with 1e-8 are false."},
"C121": {"status": "partial", "note": "The statements about time_iteration need the conditional means of the discretized process to be those of the process (MeanIs); the node of a discretized iid process is always zero, so with a nonzero calibrated mean the residual is -(f_m + (f_S + f_X C) g_m) mb (C121_iid_residuals, C121_nonzero_mean_fails). response is covered for shocks calibrated at zero. The hypothesis ReproducesRule says that the interpolation used reproduces affine functions; it holds for linearly interpolated rules (C152_perturb, C152_equilibrium_partial)."},
"C122": {"status": "partial", "note": "Rows, titles, messages, silence and KeyErrors are proved for all columns. The code falsifies the rest: the titles of improved_time_iteration are twelve characters longer than its table (C122_iti_titles_fail), messages longer than the table stick out (in C122_header_partial), and egm prints a line per pair of nodes even with verbose=False (C122_egm_fails)."},
"C123": {"status": "proved", "note": "local convergence of both inversion methods, with complementarities; exact arithmetic, exact derivatives, solver contracts"},
"C124": {"status": "proved", "note": "Local convergence of newton (serial storage, Gaussian elimination) with approximate, exact and numerical Jacobians, quadratic with Lipschitz derivatives, and of ncpsolve at strictly complementary solutions. Exact real arithmetic."},
"C125": {"status": "proved", "note": "Local convergence of the whole loop with the inner solvers as they are called, exact arithmetic; the neighbourhood and constants are not explicit. The early stop caused by the inner tolerance is proved and recorded as a disagreement."},
"C126": {"status": "partial", "note": "Local existence, uniqueness, contraction and termination proved for newton (C126_newton) and ncpsolve (C126_ncpsolve, at any date a bound may bind strictly, the last included), and for the whole call near a regular steady state (C126_steady_state, C126_steady_state_bounds). The last sentence is false without constraints: tol and maxit are not passed to newton (C126_tolerance_ignored). Paths on which a bound binds at the last two dates are not strictly complementary; the derivative computed there is nan (C153)."},
"C127": {"status": "partial", "note": "Exact condition of the refusal (C127_refused_iff); constant bounds are accepted (C127_constant_bounds) and respected near a regular steady state (C127_bounds_respected). The general claim is false: bounds are never refused when the first control has none (C127_first_control_free), they are applied with the states of the guess (C127_guess_bounds), and the condition on the last control also holds at its bounds (C127_terminal_condition)."},
"C128": {"status": "partial", "note": "Proved: time_iteration writes to no object of the caller, and evaluate_policy to none without dr0. Refuted with dr0: the object supplied is overwritten and returned, successive results are one object; array policies always fail."},
"C129": {"status": "proved", "note": "Store model of time_iteration with trace; deepcopy is a new cell with the same table."},
"C130": {"status": "partial", "note": "Proved for newton, improved_time_iteration, evaluate_policy. For time_iteration proved when updates are nonexpansive, refuted in general."},
"C131": {"status": "partial", "note": "time_iteration accepts results and all rule classes and starts from their values; refuted for the other solvers (results, perturbation rules, constant rules in evaluate_policy) and for functions of the exogenous value."},
"C132": {"status": "proved", "note": "np.linalg.solve is a parameter that answers non-singular systems and only those, exactly."},
"C133": {"status": "partial", "note": "Holds for Normal; for UNormal the default is the square root of the standard deviation (C133_unormal_fails), other independent processes raise without an impulse (C133_missing_fails), products, chains and autoregressions raise always (C133_no_response_fails)."},
"C134": {"status": "partial", "note": "Proved: the flags of time_iteration and value_iteration are set exactly when the last two tables are finite numbers within tolerance; with x_converged (improved), a_converged (egm, tolerance at most one) and newton without warning all entries are finite and below tolerance; backtracking steps away from nan. Missing because the code does otherwise: without details a rule full of nan is returned after one pass with no sign (C134_silent_fails), evaluate_policy ends early with error nan and no flag (C134_evaluate_fails), egm with a tolerance above one reports convergence untested (C134_egm_large_tolerance_fails), newton started at nan only takes the shortest step (C134_newton_nan_start_fails)."},
"C135": {"status": "partial", "note": "Proved for newton/ncpsolve, time_iteration, improved_time_iteration (tables on the grid; that a rule returns its values at the nodes is C79) and for perfect-foresight residuals. evaluate_policy makes the last pass again, its solution being the values before it (C135_evaluate_policy_partial, C135_evaluate_policy_fails). simulate continues exactly only if the transition out of the restart date does not see the exogenous value of the date before (C135_simulate_partial, C135_simulate_fails)."},
"C136": {"status": "partial", "note": "proved for newton, ncpsolve, residuals, time_iteration (with its default initial guess), simulate and the stacked system of deterministic_solve, in exact arithmetic and for invertible Jacobians; the interpolation enters with the hypothesis that it is itself equivariant, which holds for linearly interpolated rules (C152_order). The claim fails for the check of bounds in deterministic_solve (C136_bounds_check_fails): a model is accepted or refused depending on which control is listed first"},
"C137": {"status": "proved", "note": "Real eigenvalues: from the reported numbers; complex pairs: C137_saddle_path_blocks assumes that the powers of the stable block (forwards) and of the unstable block (backwards) tend to zero, which C154_saddle_path_partial derives from the roots of the model. The check in the code is weaker than the strict conditions: see C34_fails, C34_fails_indeterminate and C78_complex_pair_fails."},
"C138": {"status": "partial", "note": "Holds for functions whose names are ASCII identifiers (C138_files, C138_files_all, C138_computed_again, C138_repairs). Fails for anonymous functions: nothing is cleared, or the directory is removed altogether (C138_lambda_kept_fails, C138_lambda_destroys_fails)."},
"C139": {"status": "partial", "note": "Proved for perturbation, newton (equations scaled together with the tolerance), grids, rouwenhorst, tauchen, UNormal, Normal without zero-sum columns, VAR1 with one common unit. False otherwise (witnesses): newton's tolerance is absolute; Normal.discretize takes a shock for constant when its covariances happen to cancel its variance; multidimensional_discretization uses the transposed Cholesky factor, so units of one variable change the others' nodes."},
"C140": {"status": "partial", "note": "Proved for the linear systems, and for newton when the full steps of each problem alone reduce its residual: same iterates, as many iterations as the slowest, a warning iff one alone warns. False when one point needs smaller steps (witness): the step length is common to all points, so an easy point is left unsolved."},
"C141": {"status": "partial", "note": "EmptyGrid is neutral on the left only; products of Cartesian grids always raise; sums of non-uniform grids and node(i) proved; a grid with one point has no node."},
"C142": {"status": "partial", "note": "Round trip and acceptance proved for all texts; the one-sided forms of the documentation are rejected, which is proved too. Model assumption: white space is blank, tab or newline."},
"C143": {"status": "partial", "note": "Proved for equiprobable points (median, middle), one normal variable, products, Rouwenhorst chains (all sizes) and hermgauss with an even number of nodes (with an odd number the middle node is only within the tolerance of zero); Tauchen in C14_tauchen_symmetric. Several normal variables with a nonzero mean are symmetric about twice the mean (C143_normal, C143_normal_fails)."},
"C144": {"status": "proved", "note": "For tolerances up to 30000 (the smoothing ignores bounds more than 100000 away). Exact arithmetic."},
"C145": {"status": "proved", "note": "A move on the grid draws the shock, then a grid point with the interpolation weight; with splines these weights may be negative. Exact arithmetic; the values component must have the form utility + beta * V(1)."},
"C146": {"status": "partial", "note": "Holds for 2 to 12 variables and, by default, at most as many simulations as variables. A plot of one variable always raises (subplots returns a single object), and with the default options more simulations than variables always raise an IndexError."},
"C147": {"status": "partial", "note": "Holds for positional arguments. An annotated argument given by name is not seen by dispatch: the call raises DispatchError whatever the methods declared (C147_keyword_fails), for instance ergodic_distribution(model, dr=dr)."},
"C148": {"status": "partial", "note": "Adding a constant: proved exactly for value_iteration, given an optimiser whose choices do not depend on constants. Scaling: exact for evaluate_policy with the tolerance scaled, up to reported errors for value_iteration; with an absolute tolerance the exact claim is false (C148_tolerance_fails)."},
"C149": {"status": "proved", "note": "Assumes that the linear solvers return exact solutions (their contract), and at third order that the Sylvester system has one solution. In practice perturbations_higher_order.py cannot be imported, because a module it needs does not exist."},
"C150": {"status": "partial", "note": "All parts but the last are proved, for numpy's solve in exact arithmetic (it raises exactly for singular matrices). The last part is false: a point that is already solved and has a singular Jacobian makes the whole computation raise (C150_solved_point_fails)."},
"C151": {"status": "partial", "note": "proved when the reported eigenvalues satisfy the Blanchard-Kahn conditions (real eigenvalues: triangular decomposition; conditions on the roots of the model, complex ones included: C154_horizon_partial); fails for an indeterminate model that perturb accepts (C151_indeterminate_fails)"},
"C152": {"status": "partial", "note": "Weights, affine reproduction, linearity and order proved for all states; bounds, averages and non-expansiveness hold inside the box and fail at every state outside it (C152_outside_fails). Cartesian exogenous grids: when the sum of the grids is the product grid (C79). eval_linear itself is outside the repository and enters by its contract."},
"C153": {"status": "partial", "note": "The statement is false: both derivatives are nan exactly at the points of AtKink (C153_ncpsolve, C153_improved), from where ncpsolve never recovers (C153_ncpsolve_fails) and where the default guess of deterministic_solve is whenever a calibrated control is at a bound (C153_perfect_foresight_fails). At all other points the derivatives are numbers, those of the real model. Assumed of the linear solvers: an equation whose entries are nan makes one of its unknowns nan."},
"C154": {"status": "partial", "note": "Proved whenever select tells stable from unstable roots: all models with real roots away from the circle (C154_real_roots_partial) and complex pairs a +- ib of alpha/beta with a^2 - b^2 above the criterion iff a^2 + b^2 > 1 (C154_complex_roots). False otherwise: select receives complex numbers and numpy compares them by real part first, so a stable complex pair may be left out and a non-solution returned without warning (C154_complex_fails)."},
"C155": {"status": "partial", "note": "Proved with the same condition as C154: select must tell stable from unstable eigenvalues, for the model and for the nearby ones (always with real roots away from the circle; false for some complex pairs, C154_complex_fails)."},
"C156": {"status": "proved", "note": "Contracts as in C108: value equation felicity + beta V(1), averaging interpolation at the states reached, exact optimiser, the same interpolation for both models. The bound is attained in the example."},
"C157": {"status": "proved", "note": "Equilibria (bound attained in the example), rules returned by two runs, and the change of the expected residuals in terms of the arbitrage function and the probabilities. In the setting of C110 (D, mu, L, l), exact arithmetic, inner solvers by contract."},
"C158": {"status": "proved", "note": "States reached must lie in the box of the grid (outside, interpolation extrapolates: C152_outside_fails); linear interpolation with no exogenous grid, or with an unstructured exogenous grid and one state, the cases where the code interpolates linearly as documented (LinearCase of C152); exact arithmetic; existence of the true rule is a hypothesis."},
"C159": {"status": "proved", "note": "C159_simulations (given exogenous path), C159_drawn (drawn process), C159_stable (errors do not accumulate), C159_distributions (any two chains), C159_ergodic_markov and C159_ergodic_iid (the distributions returned by ergodic_distribution). The bound on distributions is attained in the example."},
"C160": {"status": "proved", "note": "Derivative of a smooth stable solution equals the rule of perturb (C160_derivative, C160_tangent), with quadratic error for twice differentiable solutions (C160_quadratic), and uniqueness to first order (C160_unique). C160_paths: simulations date by date; C160_all_dates: uniformly over dates and lengths with a geometric factor; C160_linearised: against the linearised model. Decompositions with complex roots are included through the Blanchard-Kahn hypothesis. Existence of the solution is C161."},
"C161": {"status": "proved", "note": "Proved by the implicit function theorem in the space of bounded sequences (Lemmas/PathMap.lean). C161_determinate: one path near the steady state from each nearby state. C161_solution: a stable solution exists, is differentiable at the steady state and the rule is tangent to it. C161_unique: no other continuous solution under which the steady state is stable. C161_simulations: distance between simulations under the rule and the path, at all dates. Exact arithmetic; the model is deterministic (no shocks), smoothness is a hypothesis on the functions of the model."},
"C162": {"status": "proved", "note": "C162_regular: the linear systems of all orders are regular. C162_second_order: the returned expansion is that of every stable solution (without shocks) that has one. C162_risk: the returned X_ss and X_tt are those of every rule solving the model to second order with risk. C162_paths: simulations without shocks under the rule and under the solution agree up to second order at every date. Runs without warning; existence of a twice differentiable solution is not claimed."},
"C163": {"status": "proved", "note": "For finite distributions of the shocks (mean zero, covariance that of the model). Second order, for runs that give no warning under the Blanchard-Kahn conditions: C163_residuals (any rule with the derivatives returned), C163_rule (the quadratic rule), C163_perturb (the values of the TaylorExpansion objects built by perturb for covariance matrices scaled by lambda^2), C163_unique (converse), C163_simulations and C163_perturb_simulations (simulations with shocks). First order, with or without warning: C163_first_order. C163_certainty_equivalence drops the assumption that the rule does not react to risk at first order."}
}
