{"id": "C01", "title": "cartesian lists every combination exactly once, in row-major order", "statement": "cartesian([a_1,...,a_d]) returns exactly len(a_1)*...*len(a_d) rows; the row at position ((i_1*n_2+i_2)*n_3+...)+i_d is (a_1[i_1],...,a_d[i_d]), so every combination of one entry per input appears once and the last coordinate varies fastest.", "quantifier": "for every list of input arrays, every number of arrays, every array length", "why_tests_cant": "tests compare one or two small shapes; an ordering slip in the recursion only shows for particular shapes and the downstream weights silently pair with wrong nodes", "anchors": ["dolo/numeric/misc.py:cartesian"]}
{"id": "C02", "title": "Uniform grid nodes cover the box: corners, spacing, count, containment", "statement": "For min<=max componentwise and n_k>=2 points per axis, the nodes of a uniform Cartesian grid are prod(n_k) points, all inside the box [min,max], the first node is min, the last node is max, consecutive points on an axis are equally spaced.", "quantifier": "for every dimension, every bounds vector, every vector of orders", "why_tests_cant": "the claim is about every dimension and order; tests look at 2-d grids", "anchors": ["dolo/numeric/grids.py:UniformCartesianGrid", "dolo/numeric/misc.py:mlinspace", "dolo/compiler/objects.py:CartesianDomain"]}
{"id": "C03", "title": "Concatenating two uniform grids keeps both sets of bounds", "statement": "g1 + g2 for two uniform Cartesian grids is the grid over the product box: its bounds are the bounds of g1 followed by the bounds of g2, and its nodes are all pairs (node of g1, node of g2) in row-major order.", "quantifier": "for every pair of uniform Cartesian grids", "why_tests_cant": "only grids with equal bounds are ever combined in tests, where reusing the left operand's bounds is invisible", "anchors": ["dolo/numeric/grids.py:UniformCartesianGrid.__add__"]}
{"id": "C04", "title": "Concatenating two non-uniform grids gives the product grid; it is associative", "statement": "g1 + g2 for two non-uniform Cartesian grids has as nodes all concatenations (node of g1, node of g2) in row-major order, (g1+g2)+g3 and g1+(g2+g3) have the same nodes, and the number of nodes multiplies.", "quantifier": "for every pair/triple of non-uniform grids", "why_tests_cant": "associativity and ordering are statements over all triples of grids", "anchors": ["dolo/numeric/grids.py:NonUniformCartesianGrid.__add__", "dolo/numeric/misc.py:cartesian"]}
{"id": "C05", "title": "Products of discrete distributions are independent products", "statement": "For discrete distributions with nodes and weights, product_iid returns one point per combination of component points with the product of the component weights: the expectation of a product of functions of the separate components is the product of the expectations, the total mass is the product of the total masses, and (when each total mass is one) the marginal on each component is the component itself.", "quantifier": "for every number of component distributions, every support size, every weight vector, every function of the components", "why_tests_cant": "the pairing of nodes with weights relies on two separately coded row-major enumerations agreeing for every number of factors and every size", "anchors": ["dolo/numeric/distribution.py:product_iid", "dolo/numeric/misc.py:cartesian"]}
{"id": "C06", "title": "Discretising a mixture averages the components' expectations", "statement": "If the mixing index takes value k with probability pi_k, the discretised mixture integrates every function f to sum_k pi_k E_k[f], and its weights sum to one when all component weights do.", "quantifier": "for every finite list of components, every discretisation of them and every function", "why_tests_cant": "needs all numbers of components and all functions", "anchors": ["dolo/numeric/distribution.py:Mixture.discretize"]}
{"id": "C07", "title": "Equiprobable discretisation stays inside the support and keeps the order", "statement": "Discretising a univariate distribution into N equiprobable points gives N points in increasing order (strictly, when the quantile function is strictly increasing), each inside the support, weights 1/N summing to one.", "quantifier": "for every monotone quantile function and every N and every choice of point placement", "why_tests_cant": "quantifies over all distributions and all N", "anchors": ["dolo/numeric/distribution.py:UnivariateContinuousDistribution.__discretize_ep__", "dolo/numeric/distribution.py:EquiprobableDistribution"]}
{"id": "C08", "title": "Truncation yields values inside the truncation bounds", "statement": "Every quantile of a truncated distribution at a level in [0,1] lies in [lb,ub], quantiles are monotone in the level, level 0 maps to lb and level 1 to ub when the base distribution is continuous and strictly increasing there, and the truncated cdf inverts the quantile.", "quantifier": "for every base distribution with inverse-pair cdf/ppf, every bounds, every level", "why_tests_cant": "statement over all distributions and levels", "anchors": ["dolo/numeric/distribution.py:Truncation"]}
{"id": "C09", "title": "Gauss-Hermite discretisation of a multivariate normal reproduces mean and covariance", "statement": "Discretising Normal(mu, Sigma) gives a finite distribution whose weights sum to one, whose mean is mu and whose covariance is Sigma (assuming the one-dimensional rules have unit mass, zero mean and unit variance, and the factor C satisfies C C' = Sigma).", "quantifier": "for every dimension, every orders vector with at least two points, every mean and covariance", "why_tests_cant": "tests use mu = 0, for which adding the mean twice is invisible", "anchors": ["dolo/numeric/distribution.py:Normal.discretize", "dolo/numeric/discretization/quadrature.py:gauss_hermite_nodes"]}
{"id": "C10", "title": "Discretising a discrete distribution as a Markov chain is an iid chain", "statement": "FiniteDistribution.discretize(to='mc') gives a chain whose nodes are the support, whose every row of the transition matrix is the weight vector, so from any state the next-period expectation of any function is the distribution's expectation.", "quantifier": "for every finite distribution and every function", "why_tests_cant": "universally quantified over supports, weights and functions", "anchors": ["dolo/numeric/distribution.py:FiniteDistribution.discretize"]}
{"id": "C11", "title": "Product of Markov chains is an independent joint chain", "statement": "tensor_markov of chains (nodes_k,P_k) returns a chain whose transition matrix is row-stochastic when all P_k are, whose state (i,j) carries the concatenated node, and whose probability of moving from (i,j) to (k,l) is P_1[i,k]*P_2[j,l].", "quantifier": "for every number (>=2) and every size of chains; every transition matrix", "why_tests_cant": "the correspondence between the Kronecker product's index and the node enumeration must hold for every size", "anchors": ["dolo/numeric/discretization/discretization.py:tensor_markov", "dolo/numeric/processes.py:product_mc"]}
{"id": "C12", "title": "Rouwenhorst chain is a stochastic matrix for every number of states", "statement": "rouwenhorst(rho,sigma,N) returns for |rho|<=1 a matrix with non-negative entries and unit row sums, for every N>=1.", "quantifier": "for every N and every rho in [-1,1]", "why_tests_cant": "the matrix is built by a recursion on N; tests look at N=3 or 4", "anchors": ["dolo/numeric/discretization/discretization.py:rouwenhorst"]}
{"id": "C13", "title": "Rouwenhorst chain reproduces the AR(1) conditional mean and variance", "statement": "Conditional on any node x_i, the next value has mean rho*x_i; the binomial distribution is stationary and has mean zero and variance sigma^2/(1-rho^2), so the chain has exactly the unconditional variance and the autocorrelation of the AR(1).", "quantifier": "for every number of nodes N>=2, every node, every rho with |rho|<1, every sigma", "why_tests_cant": "an exact identity over all N; sampling moments can only estimate it", "anchors": ["dolo/numeric/discretization/discretization.py:rouwenhorst"]}
{"id": "C14", "title": "Tauchen chain is a stochastic matrix", "statement": "tauchen(N,mu,rho,sigma,m) returns a matrix whose rows sum to one, and with non-negative entries for m>=0, whatever cumulative distribution function is used.", "quantifier": "for every N>=2, every rho, every m, every monotone cdf", "why_tests_cant": "holds by a telescoping sum for every N", "anchors": ["dolo/numeric/discretization/discretization.py:tauchen"]}
{"id": "C15", "title": "Inverse-cdf draws return a valid state and only states with positive probability", "statement": "Given the cumulative probabilities of a row, the drawn index i satisfies cum[i-1] <= u < cum[i]; hence it is a valid index and has positive probability whenever u < cum[last]; if u >= cum[last] an index one past the end is returned.", "quantifier": "for every probability row, every draw u", "why_tests_cant": "the out-of-range case only occurs for draws in a tiny set", "anchors": ["dolo/numeric/processes.py:choice", "dolo/numeric/processes.py:simulate_mc_indices"]}
{"id": "C16", "title": "Simulated Markov paths only make transitions of positive probability", "statement": "Every simulated path of a chain starts at the requested state, stays in the state set, and every consecutive pair (i,j) has transition probability P[i,j]>0; each simulated column depends only on its own draws.", "quantifier": "for every stochastic matrix, horizon, number of paths and realisation of the random numbers in [0,1)", "why_tests_cant": "depends on every realisation of random numbers", "anchors": ["dolo/numeric/processes.py:simulate_mc_indices", "dolo/numeric/processes.py:MarkovChain.simulate"]}
{"id": "C17", "title": "The linear system used for the ergodic distribution characterises stationary distributions", "statement": "When (P' - I) with its last row replaced by ones is solved against the last unit vector, any solution sums to one and is invariant under P, and conversely every invariant vector summing to one is a solution.", "quantifier": "for every row-stochastic matrix of every size", "why_tests_cant": "last-equation redundancy is an algebraic fact over all matrices", "anchors": ["dolo/algos/ergodic.py:ergodic_distribution"]}
{"id": "C18", "title": "Mass placed on the grid by the trembling hand is conserved, non-negative and mean-preserving", "statement": "Spreading the weight w of a point on a uniform grid over [0,1] puts total mass w on the grid, all non-negative if w>=0, and the mean position equals the point clamped to [0,1]; the same holds in two dimensions.", "quantifier": "for every point (inside or outside the box), grid size >=2 and weight", "why_tests_cant": "boundary and outside-the-grid points are continuous families", "anchors": ["dolo/algos/ergodic.py:trembling_hand!"]}
{"id": "C19", "title": "Fischer-Burmeister residual vanishes exactly at complementarity", "statement": "The residual a+b-sqrt(a^2+b^2) is zero iff a>=0, b>=0 and a*b=0.", "quantifier": "for every real a, b", "why_tests_cant": "an equivalence over all reals", "anchors": ["dolo/algos/fb.py:PhiFB", "dolo/algos/improved_time_iteration.py:smooth_nodiff"]}
{"id": "C20", "title": "Two-sided smoothing used in time iteration is zero exactly at solutions of the complementarity problem", "statement": "The transformed residual is zero iff lb<=x<=ub and: r=0 in the interior... r>=0 at x=lb, r<=0 at x=ub (with the code's sign convention), for lb<=ub, including infinite bounds.", "quantifier": "for every residual r, x, lb<=ub", "why_tests_cant": "an equivalence over all reals; tests only check a few points", "anchors": ["dolo/algos/fb.py:smooth_", "dolo/algos/improved_time_iteration.py:smooth"]}
{"id": "C21", "title": "Derivatives reported with the smoothed residual are the true derivatives", "statement": "Away from the kink (a,b)=(0,0), the derivatives returned next to the smoothed residual are its partial derivatives.", "quantifier": "for every point with (a,b) != (0,0) and every differentiable residual", "why_tests_cant": "finite-difference tests sample points", "anchors": ["dolo/algos/fb.py:PhiFB_", "dolo/algos/fb.py:smooth", "dolo/algos/improved_time_iteration.py:smooth"]}
{"id": "C22", "title": "ncpsolve's smoothed residual is zero exactly at solutions of the bounded problem", "statement": "For a<=b (possibly infinite), the smoothed function used by ncpsolve vanishes at x iff x solves: a<=x<=b, f(x)>=0 where x=a..., f(x)<=0 where x=b, f=0 strictly inside (with the sign convention of ncpsolve), for every Jacobian storage type.", "quantifier": "for every value of f, x, bounds and storage type", "why_tests_cant": "an equivalence over reals and all Jacobian types; only the serial storage is exercised by tests", "anchors": ["dolo/numeric/optimize/ncpsolve.py:smooth", "dolo/numeric/optimize/ncpsolve.py:ncpsolve"]}
{"id": "C23", "title": "lmmcp's merit function is zero exactly at solutions of the mixed complementarity problem", "statement": "For every index, the pair of residuals assembled for that index is zero iff the index satisfies the complementarity condition that its bounds impose (free, lower, upper, both).", "quantifier": "for every dimension, point, function value and bounds", "why_tests_cant": "an equivalence over all reals and index sets", "anchors": ["dolo/numeric/extern/lmmcp.py:Phi3MCPPFB", "dolo/numeric/extern/lmmcp.py:lmmcp"]}
{"id": "C24", "title": "Gauss elimination used in serial solves returns a solution", "statement": "For every invertible matrix A and right-hand side b, the elimination with partial pivoting returns the only x with A x = b, point by point in the serial version.", "quantifier": "for every size, every matrix and right-hand side", "why_tests_cant": "pivoting paths grow with size; tests draw random matrices, which never need pivoting decisions on zeros", "anchors": ["dolo/numeric/serial_operations.py:solve"]}
{"id": "C25", "title": "In-place inversion solves the linear system for every column", "statement": "Given invertible A and any right-hand side B (vector, matrix with any number of columns, or tensor), in-place elimination turns A into the identity and B into the solution X of A X = B.", "quantifier": "for every n, invertible A, shape of B and entries", "why_tests_cant": "pivot choices and loop bounds over all sizes; the loop bound of the row operations uses the wrong dimension when B is not square", "anchors": ["dolo/algos/invert.py:invert", "dolo/algos/invert.py:solve_gu", "dolo/algos/invert.py:solve_tensor"]}
{"id": "C26", "title": "Sylvester equations are solved by vectorisation", "statement": "If the stacked linear system is solved, the returned X satisfies sum_i A_i X B_i + D = 0; in particular A X + B X (C kron ... kron C) + D = 0.", "quantifier": "for every number of terms, matrix sizes and entries", "why_tests_cant": "the ravel order and transposes in the kron must agree for all sizes", "anchors": ["dolo/numeric/matrix_equations.py:solve_sylvester_vectorized", "dolo/numeric/matrix_equations.py:solve_sylvester"]}
{"id": "C27", "title": "Newton never reports convergence wrongly and never exceeds the iteration budget", "statement": "newton returns after at most maxit iterations; it returns without the non-convergence warning only if the residual at the returned point is below tol; when every line search finds a decrease, the residual norms strictly decrease along the iterates.", "quantifier": "for every function, starting point, tolerance, maxit, and linear solver", "why_tests_cant": "control flow over all histories of residuals", "anchors": ["dolo/numeric/optimize/newton.py:newton"]}
{"id": "C28", "title": "Time iteration reports convergence only when successive decision rules are within tolerance", "statement": "time_iteration stops after at most maxit iterations; the convergence flag is true iff the last distance between successive decision rules is below tol; the loop stops early only for such a distance (or equal to tol).", "quantifier": "for every update operator, starting rule, tolerance and maxit", "why_tests_cant": "loop histories of every length", "anchors": ["dolo/algos/time_iteration.py:time_iteration"]}
{"id": "C29", "title": "Improved time iteration returns the rule at which the reported residual was computed when it converges", "statement": "When the convergence flag is true, the returned decision rule has (smoothed) residual norm below tol; otherwise the iteration count reached maxit.", "quantifier": "for every residual function and search outcome", "why_tests_cant": "loop histories of every length", "anchors": ["dolo/algos/improved_time_iteration.py:improved_time_iteration"]}
{"id": "C30", "title": "The iterative Jacobian inversion sums the Neumann series", "statement": "After k sweeps the accumulated step t satisfies t - L t = d - L^(k+1) d where d is the preconditioned residual and L the linear operator applied per sweep, so the step solves the linearised system up to a remainder below tol-scale.", "quantifier": "for every linear operator, every number of sweeps", "why_tests_cant": "an identity over all operators and histories", "anchors": ["dolo/algos/improved_time_iteration.py:invert_jac"]}
{"id": "C31", "title": "Value-function iteration stops only when values and policies have settled", "statement": "value_iteration's reported flags agree with the tolerances supplied by the caller, and the loop stops before maxit only if both successive differences are within tolerance.", "quantifier": "for every update operator and tolerances", "why_tests_cant": "loop histories of every length; mismatch between loop tolerance and reported tolerance needs special values", "anchors": ["dolo/algos/value_iteration.py:value_iteration"]}
{"id": "C32", "title": "Policy evaluation returns values consistent with the last reported error", "statement": "evaluate_policy returns a value rule v such that one more application of the policy's Bellman operator moves it by at most the last reported error, and with a contraction of modulus beta it is within err/(1-beta) of the true value.", "quantifier": "for every contraction operator, tolerance and number of iterations", "why_tests_cant": "an error bound over all operators", "anchors": ["dolo/algos/value_iteration.py:evaluate_policy"]}
{"id": "C33", "title": "First-order perturbation satisfies the linearised equilibrium conditions", "statement": "If the generalised Schur form orders the stable block first and its upper-left block is invertible, the returned matrix C satisfies f_s + f_x C + f_S (g_s+g_x C) + f_X C (g_s+g_x C) = 0.", "quantifier": "for every model dimension and every derivative matrices admitting the decomposition", "why_tests_cant": "matrix identity over all dimensions", "anchors": ["dolo/algos/perturbation.py:approximate_1st_order", "dolo/algos/perturbations_higher_order.py:state_perturb"]}
{"id": "C34", "title": "Determinacy check: a first-order solution is only returned when the Blanchard-Kahn count is right", "statement": "approximate_1st_order returns (without raising) only if exactly n_s generalised eigenvalues lie on the stable side of the threshold; otherwise it raises or warns.", "quantifier": "for every list of generalised eigenvalues", "why_tests_cant": "decision logic over all spectra", "anchors": ["dolo/algos/perturbation.py:approximate_1st_order"]}
{"id": "C35", "title": "Perturbation decision rule is exact at the steady state and affine", "statement": "The first-order decision rule returns the steady-state controls at the steady state and is affine in (m,s); with no exogenous loading the exogenous argument is ignored.", "quantifier": "for every point and every loading", "why_tests_cant": "universally quantified identity", "anchors": ["dolo/algos/perturbation.py:BivariateTaylor"]}
{"id": "C36", "title": "Second- and third-order perturbation terms make the residual vanish to that order", "statement": "The second (third) order coefficient solved for makes the second (third) directional derivative of the equilibrium residual along the solution equal to zero at the steady state. Conversely, the second-order terms of any rule with the same first-order terms that solves the model up to second order are those computed: they are the only ones.", "quantifier": "for every model's derivatives up to that order and every direction", "why_tests_cant": "chain-rule combinatorics with tensors; a wrong binomial factor only shows when the mixed state-control derivative is non-zero", "anchors": ["dolo/algos/perturbations_higher_order.py:state_perturb"]}
{"id": "C37", "title": "Shock paths are extended by their last value", "statement": "For a dict of shock series, row t of the exogenous path has series[t] where given, the last given value afterwards, and the calibrated value for shocks not mentioned; the path has exactly T+1 rows; array input behaves the same way as the equivalent dict.", "quantifier": "for every T, every series length between 1 and T+1, every subset of shocks", "why_tests_cant": "the array branch shifts by one period; only visible when comparing the two input forms on non-constant series", "anchors": ["dolo/algos/perfect_foresight.py:_shocks_to_epsilons"]}
{"id": "C38", "title": "Stacked-time residual is zero exactly at perfect-foresight paths", "statement": "The stacked residual vanishes iff the path starts at the given state, every consecutive pair satisfies the transition and the arbitrage equations with the given shocks, and the last control equals the previous one.", "quantifier": "for every horizon N>=2, every model functions and shock path", "why_tests_cant": "equivalence over all paths", "anchors": ["dolo/algos/perfect_foresight.py:det_residual"]}
{"id": "C39", "title": "Stacked-time Jacobian is the derivative of the stacked residual", "statement": "The block matrix assembled for the stacked system acts on a perturbation of the path as the derivative of the stacked residual, with blocks placed for every period.", "quantifier": "for every horizon N>=2 and dimensions, every model derivative blocks", "why_tests_cant": "block placement for all N including overlapping corners (N=2)", "anchors": ["dolo/algos/perfect_foresight.py:det_residual"]}
{"id": "C40", "title": "Simulated paths satisfy the decision rule and the transition equation", "statement": "In a simulation, for every date t and path n, controls are the decision rule evaluated at that date's exogenous and endogenous states and s[t+1] = g(m[t], s[t], x[t], m[t+1]); the first state is s0.", "quantifier": "for every model, decision rule, exogenous path, horizon, number of paths", "why_tests_cant": "tests only look at shapes; a one-period shift of the shock in the transition is invisible there", "anchors": ["dolo/algos/simulations.py:simulate"]}
{"id": "C41", "title": "An impulse response to a zero impulse stays at the steady state", "statement": "If the calibration is a fixed point of transition and decision rule and the impulse is zero, every date of the response equals the steady state.", "quantifier": "for every horizon and model", "why_tests_cant": "all horizons", "anchors": ["dolo/algos/simulations.py:response", "dolo/algos/simulations.py:simulate", "dolo/numeric/processes.py:VAR1.response", "dolo/numeric/processes.py:IIDProcess.response"]}
{"id": "C42", "title": "VAR(1)/iid impulse responses have the closed form", "statement": "VAR1.response(T, e) has T rows, row t being mu + rho^t e; the iid response has T+1 rows, the impulse at date one and zero elsewhere.", "quantifier": "for every horizon, matrix rho and impulse", "why_tests_cant": "closed form for every t", "anchors": ["dolo/numeric/processes.py:VAR1.response", "dolo/numeric/processes.py:IIDProcess.response"]}
{"id": "C43", "title": "Calibration lookups agree: group vector, flat name, tuple", "statement": "calibration[group] lists the calibrated values of the group's symbols in declared order, calibration[name] is the corresponding entry, calibration[a,b,...] returns the tuple of lookups, and an unknown name raises; later edits of the input dict do not change it.", "quantifier": "for every set of symbol groups and values", "why_tests_cant": "quantified over all symbol declarations", "anchors": ["dolo/compiler/misc.py:CalibrationDict", "dolo/compiler/misc.py:calibration_to_vector", "dolo/compiler/misc.py:calibration_to_dict"]}
{"id": "C44", "title": "Symbol aliases never change what a lookup returns", "statement": "A dictionary with equivalences returns, for an alias, what the canonical key holds, and for canonical keys what was stored, after any history of assignments.", "quantifier": "for every history of assignments and every key", "why_tests_cant": "assignment through an alias is never looked up in tests", "anchors": ["dolo/compiler/misc.py:LoosyDict"]}
{"id": "C45", "title": "Model caches are coherent after any sequence of recalibrations", "statement": "After any interleaving of set_calibration calls and reads of calibration, domain and exogenous, each read equals what a freshly built model with the current data would return.", "quantifier": "for every sequence of operations", "why_tests_cant": "histories of operations", "anchors": ["dolo/compiler/model.py:Model.set_calibration", "dolo/compiler/model.py:Model.set_changed", "dolo/compiler/model.py:Model.calibration"]}
{"id": "C46", "title": "Accepted definitions are well-founded", "statement": "If a block of definitions is accepted, each right-hand side only uses declared variables, declared parameters and previously defined auxiliaries, names are pairwise distinct and distinct from model variables, so evaluating them in order is well defined.", "quantifier": "for every definitions block", "why_tests_cant": "statement about all programs accepted by a checker", "anchors": ["dolo/compiler/model.py:SymbolicModel.definitions"]}
{"id": "C47", "title": "Shifting a symbol specification shifts every variable and no parameter", "statement": "shift_spec(spec, k) adds k to the date of every non-parameter entry and of the target, leaves parameters, and shift by a then b equals shift by a+b.", "quantifier": "for every specification and shift", "why_tests_cant": "all specs and integers", "anchors": ["dolo/compiler/factories.py:shift_spec"]}
{"id": "C48", "title": "Complementarity bounds line up with the equations", "statement": "When at least one arbitrage equation carries a complementarity condition, lower- and upper-bound lists have as many entries as there are equations, entry i is the bound written on equation i or minus/plus infinity; a condition naming the wrong control raises.", "quantifier": "for every list of equations", "why_tests_cant": "all lists and positions", "anchors": ["dolo/compiler/model.py:SymbolicModel.equations"]}
{"id": "C49", "title": "Exogenous declarations are accepted exactly when their order matches", "statement": "A keyed exogenous section is accepted iff the concatenation of its comma-separated keys, in order, equals the declared list of exogenous symbols.", "quantifier": "for every section and symbol list", "why_tests_cant": "all strings", "anchors": ["dolo/compiler/model.py:SymbolicModel.get_exogenous"]}
{"id": "C50", "title": "Memoised functions return what the function returns", "statement": "For any history of calls, a memoised pure function returns the same value as the function itself.", "quantifier": "for every call history and argument values (including arrays of any shape)", "why_tests_cant": "collisions between keys appear only for special pairs of arguments", "anchors": ["dolo/misc/caching.py:memoized", "dolo/misc/caching.py:hashable"]}
{"id": "C51", "title": "The on-disk cache survives a crash during a write", "statement": "After a crash at any point of a cache write, later calls still return the function's value.", "quantifier": "for every crash point and later call", "why_tests_cant": "crash points cannot be enumerated by unit tests", "anchors": ["dolo/misc/caching.py:cachedondisk"]}
{"id": "C52", "title": "Multiple dispatch picks a most specific applicable method whatever the registration order", "statement": "When a call resolves, the chosen implementation's signature applies to the argument types and no other registered applicable signature of the same length is strictly more specific; a call with no applicable signature raises.", "quantifier": "for every class hierarchy, registration history and argument types", "why_tests_cant": "registration histories", "anchors": ["dolo/misc/multimethod.py:multimethod"]}
{"id": "C53", "title": "groot ends in a project root or restores the directory", "statement": "Changing to the project root terminates; it ends in the nearest ancestor containing a README (joined with the given path) or raises with the working directory unchanged.", "quantifier": "for every directory tree and starting directory", "why_tests_cant": "all trees", "anchors": ["dolo/misc/groot.py:groot"]}
{"id": "C54", "title": "HP filter solves the penalised least-squares problem", "statement": "For T>=5 the filter's matrix is I + lambda*K'K with K the second-difference operator, so the returned trend minimises sum (y-t)^2 + lambda*sum (second differences of t)^2 and trend + cycle = data.", "quantifier": "for every length T, every series, every lambda >= 0", "why_tests_cant": "the matrix is assembled band by band with special corner cases; must hold for all T; 2-d input must use the same lambda", "anchors": ["dolo/numeric/filters.py:hp_filter"]}
{"id": "C55", "title": "Finite-difference derivatives are exact on low-degree polynomials", "statement": "Central differences are exact for quadratics and forward differences for affine functions, in every dimension, with every entry of the Jacobian in the right place.", "quantifier": "for every dimension, step and polynomial", "why_tests_cant": "all dimensions and steps", "anchors": ["dolo/numeric/misc.py:MyJacobian", "dolo/compiler/misc.py:numdiff", "dolo/numeric/optimize/newton.py:SerialDifferentiableFunction", "dolo/numeric/serial_operations.py:numdiff1"]}
{"id": "C56", "title": "Taylor-expansion decision rules evaluate the polynomial they describe", "statement": "Evaluating a Taylor expansion of order 1, 2 or 3 at s gives X_bar + X_s ds + 1/2 X_ss(ds,ds) + 1/6 X_sss(ds,ds,ds) with ds=s-S_bar; at S_bar it gives X_bar.", "quantifier": "for every order<=3, dimension and point", "why_tests_cant": "tensor contraction loops over all dimensions", "anchors": ["dolo/numeric/taylor_expansion.py:TaylorExpansion", "dolo/numeric/taylor_expansion.py:eval_te_order_2"]}
{"id": "C57", "title": "Endogenous-grid policies respect the bounds", "statement": "Every evaluation of the policy returned by the endogenous grid method lies within the lower and upper bounds at that state (when lb<=ub).", "quantifier": "for every state, interpolant and bounds", "why_tests_cant": "all states", "anchors": ["dolo/algos/egm.py:egm"]}
{"id": "C58", "title": "Default discretisation of product processes", "statement": "ProductProcess.discretize without a target chooses 'iid' iff all children are iid processes, 'mc' otherwise (when no child demands gdp), and the result is the independent product of the children's discretisations in order.", "quantifier": "for every list of child processes", "why_tests_cant": "all lists of children", "anchors": ["dolo/numeric/processes.py:ProductProcess.discretize"]}
{"id": "C59", "title": "Sparse tensor reshapes keep every entry at the same flat position", "statement": "Reshaping a sparse tensor preserves the row-major linear index of every stored entry; the stacked Jacobian built from blocks has block (i,j)->(i,j) equal to the given derivatives and zero elsewhere.", "quantifier": "for every shape and set of entries", "why_tests_cant": "index arithmetic for all shapes", "anchors": ["dolo/algos/bruteforce_lib.py:SparseTensor", "dolo/algos/bruteforce_lib.py:dres_to_sparse"]}
{"id": "C60", "title": "Tensor-product filter matrices are Kronecker products", "statement": "For two or three bases the assembled matrix is the Kronecker product of the one-dimensional matrices.", "quantifier": "for every size of the one-dimensional matrices and every entry", "why_tests_cant": "index layout for all sizes", "anchors": ["dolo/algos/bruteforce_lib.py:B_prod"]}
{"id": "C61", "title": "Multidimensional discretisation of a VAR(1) reproduces its conditional mean and covariance", "statement": "multidimensional_discretization(rho, Sigma, N) returns a Markov chain in which, conditional on any node y, the next value has mean rho*y and conditional covariance Sigma; its rows sum to one and it has N^d states.", "quantifier": "for every dimension d, covariance matrix, number of nodes N>=2 and scalar rho with rho^2 != 1", "why_tests_cant": "an exact identity over all covariance matrices and sizes; tests only check shapes", "anchors": ["dolo/numeric/discretization/discretization.py:multidimensional_discretization", "dolo/numeric/processes.py:VAR1.discretize"]}
{"id": "C62", "title": "discretize(to='mc') honours the same options as discretize(to='iid')", "statement": "For a univariate distribution, discretize(to='mc', N, method, mass_point) is the iid Markov chain built from discretize(to='iid', N, method, mass_point).", "quantifier": "for every distribution and every value of the options", "why_tests_cant": "tests call it with default options only", "anchors": ["dolo/numeric/distribution.py:UnivariateContinuousDistribution.discretize"]}
{"id": "C63", "title": "A draw from a mixture is a draw of the selected component", "statement": "Each entry of Mixture.draw(N) equals the draw of the component selected by the drawn index, for the same dictionary of components that Mixture.discretize accepts.", "quantifier": "for every dictionary of components, every index and every realisation of the draws", "why_tests_cant": "requires considering every kind of key and every realisation", "anchors": ["dolo/numeric/distribution.py:Mixture.draw", "dolo/numeric/distribution.py:Mixture.discretize"]}
{"id": "C64", "title": "Simulated VAR(1) paths start at the requested value and follow the autoregression around the mean", "statement": "VAR1(rho, Sigma, mu).simulate(N, T, m0) returns paths whose first value is m0 and with z' = mu + rho (z - mu) + eps' at each date; stochastic=False gives the deterministic path.", "quantifier": "all dimensions, matrices, means, initial values, innovations and horizons", "why_tests_cant": "a test fixes one mean (usually zero) and one random path", "anchors": ["dolo/numeric/processes.py:VAR1.simulate"]}
{"id": "C65", "title": "The exogenous states reported with a simulation are the simulated states", "statement": "When simulating a model with a discretised process, the reported state indices are those of the simulated chain.", "quantifier": "all node lists and all simulated index paths", "why_tests_cant": "tests use chains with distinct nodes; the recovery is by value comparison", "anchors": ["dolo/algos/simulations.py:find_index", "dolo/algos/simulations.py:simulate"]}
{"id": "C66", "title": "Discretising a VAR(1) as a Markov chain refuses a non-scalar autoregression matrix", "statement": "VAR1.discretize(to='mc') fails unless the autoregression matrix is a multiple of the identity.", "quantifier": "all square matrices", "why_tests_cant": "the accepted region is uncountable; tests only try scalar matrices", "anchors": ["dolo/numeric/processes.py:VAR1.discretize_mc"]}
{"id": "C67", "title": "Impulse responses are available for every exogenous process", "statement": "response(model, dr, shock, T) returns T dates for models driven by an iid normal, an AR(1) or a VAR(1) process.", "quantifier": "all models, decision rules, impulses and horizons of at least two dates", "why_tests_cant": "one test per process type only shows one model", "anchors": ["dolo/algos/simulations.py:response", "dolo/numeric/processes.py:VAR1.response", "dolo/numeric/distribution.py:IIDProcess.response"]}
{"id": "C68", "title": "The seed determines the simulation", "statement": "Two calls to simulate with the same arguments and the same seed give the same result, whatever random numbers were drawn before.", "quantifier": "all models, processes and prior generator states", "why_tests_cant": "a test runs from one prior generator state", "anchors": ["dolo/algos/simulations.py:simulate"]}
{"id": "C69", "title": "The transition matrix on the state grid is a stochastic matrix in (exogenous state, node) order", "statement": "The matrix returned by ergodic_distribution has rows that are probability vectors, and its entry for (i_m, n) -> (i_M, k) is the mass that the exogenous transition i_m -> i_M places on node k from node n, even when the target states leave the grid.", "quantifier": "every chain, transition function, grid of one or two states with at least two nodes per dimension", "why_tests_cant": "holds for all decision rules and target states, including those outside the grid", "anchors": ["dolo/algos/ergodic.py:ergodic_distribution", "dolo/algos/ergodic.py:trembling_hand!"]}
{"id": "C70", "title": "lmmcp's analytic Jacobian is the derivative of its residual", "statement": "At points where no residual is at a kink (beyond the tolerance 1e-8 used by the code), every row of the matrix assembled by DPhi3MCPPFB is the derivative of the corresponding residual of Phi3MCPPFB, for the four kinds of index (free, lower, upper, both).", "quantifier": "for every differentiable point and function value, bounds, weights and index kind", "why_tests_cant": "a statement about derivatives over all reals", "anchors": ["dolo/numeric/extern/lmmcp.py:DPhi3MCPPFB", "dolo/numeric/extern/lmmcp.py:Phi3MCPPFB"]}
{"id": "C71", "title": "Discretising a domain gives the uniform grid on its box", "statement": "domain.discretize(n) returns the grid whose coordinate k runs over n[k] equally spaced points between the bounds of the k-th variable of the domain (ten points by default), last coordinate fastest, from the lower to the upper corner.", "quantifier": "for every dimension, bounds and orders of at least two", "why_tests_cant": "for all dimensions, bounds and orders; tests only build the grids of a few example models", "anchors": ["dolo/compiler/objects.py:CartesianDomain.discretize"]}
{"id": "C72", "title": "The mean of a VAR(1) shifts its discretised nodes", "statement": "For a scalar autoregression matrix, VAR1.discretize(to='mc') returns the transition matrix of the centred discretisation and its nodes plus the mean vector.", "quantifier": "for every dimension, mean, scalar autoregression and one-dimensional method", "why_tests_cant": "for all dimensions and means", "anchors": ["dolo/numeric/processes.py:VAR1.discretize_mc"]}
{"id": "C73", "title": "Newton solves affine systems in one step", "statement": "On a batch of affine systems with invertible matrices, newton with serial storage and maxit >= 2 never warns and does at most one step; after one step every system of the batch is solved exactly.", "quantifier": "for every number of points, dimension, invertible matrices, constants, starting point, tolerance > 0 and maxit >= 2", "why_tests_cant": "composition of the elimination, the line search and the stopping rule over all sizes", "anchors": ["dolo/numeric/optimize/newton.py:newton", "dolo/numeric/optimize/newton.py:serial_solve"]}
{"id": "C74", "title": "ncpsolve without warning returns an approximate solution of the complementarity problem", "statement": "If ncpsolve (serial or sparse storage) returns without warning, the natural residual max(min(f, x-a), x-b) of every component is at most 3*tol.", "quantifier": "for every function, bounds, starting point, tolerance, budget, linear solver", "why_tests_cant": "an error bound over all residuals and bounds; the smoothed residual that is tested is not the complementarity residual itself", "anchors": ["dolo/numeric/optimize/ncpsolve.py:ncpsolve", "dolo/numeric/optimize/newton.py:newton"]}
{"id": "C75", "title": "The rule returned by time iteration satisfies the equilibrium conditions up to a known error", "statement": "The residual minimised by time_iteration is the conditional expectation of the arbitrage equations; if the inner solver reaches residuals below itol at every step, arbitrage is l-Lipschitz in future controls and interpolation is non-expansive, then the returned rule has Euler residuals at most itol + l*err evaluated against itself, with err the reported error.", "quantifier": "for every model functions f and g, discretized process with probability weights, starting rule, tolerance and maxit", "why_tests_cant": "a bound over all models and loop histories; tests compare one calibrated model with stored numbers", "anchors": ["dolo/algos/time_iteration.py:residuals_simple", "dolo/algos/time_iteration.py:time_iteration"]}
{"id": "C76", "title": "The improvement step of value iteration is the Bellman operator", "statement": "With an exact optimiser, the controls chosen by value_iteration at a grid point maximise felicity plus discounted expected continuation value over the admissible controls, and the recorded value is that maximum, the continuation value being evaluated at the integration nodes of the process.", "quantifier": "for every felicity, transition, value function, discretized process and grid point", "why_tests_cant": "optimality over all admissible controls; the index used for continuation values only matters when integration nodes differ from nodes", "anchors": ["dolo/algos/value_iteration.py:choice_value", "dolo/algos/value_iteration.py:value_iteration"]}
{"id": "C77", "title": "The first-order rule satisfies the linearised model in the variables of the model", "statement": "The loadings C_m, C_s returned by perturb make the linearised arbitrage equations hold for every deviation (m, s), with tomorrow's exogenous equal to rho*m, tomorrow's states given by the linearised transition and tomorrow's controls by the same rule; this holds for VAR1 and iid processes.", "quantifier": "for every number of exogenous, states and controls, every derivatives, every deviation", "why_tests_cant": "identity over all dimensions and derivative matrices (stacking order of exogenous and states, slices of C)", "anchors": ["dolo/algos/perturbation.py:get_derivatives", "dolo/algos/perturbation.py:perturb", "dolo/numeric/processes.py:VAR1"]}
{"id": "C78", "title": "Reported generalised eigenvalues are those of the model and predict stability", "statement": "The numbers in generalized_eigenvalues are the moduli of the generalised eigenvalues of the model's pencil (infinite ones included), and if the first n_s exceed one the transition matrix of the returned solution is stable.", "quantifier": "for every pencil and every generalised Schur decomposition of it", "why_tests_cant": "spectral statement over all matrices; fails only for complex pairs, where the diagonal of the quasi-triangular form does not hold the eigenvalues", "anchors": ["dolo/numeric/extern/qz.py:qzordered", "dolo/algos/perturbation.py:approximate_1st_order"]}
{"id": "C79", "title": "An interpolated decision rule returns the given values at the grid nodes", "statement": "A DecisionRule built from an array of values indexed by (exogenous node, endogenous node, control) returns exactly these values when it is called at the nodes: with the number (or, for a Cartesian exogenous grid, the coordinates) of the exogenous node and one or several nodes of the endogenous grid, for linear and cubic interpolation.", "quantifier": "for all grids with at least two nodes per dimension, all values, all nodes, any interpolation routine exact at the nodes of the grid it is given", "why_tests_cant": "the reshaping of the coefficients and the addition of the two grids are only wrong for some dimensions and bounds", "anchors": ["dolo/numeric/decision_rule.py:DecisionRule", "dolo/numeric/decision_rule.py:get_coefficients", "dolo/numeric/grids.py:UniformCartesianGrid.__add__"]}
{"id": "C80", "title": "A rule can be applied to several states at one exogenous value", "statement": "Calling a decision rule with one exogenous value (or node number) and an array of states returns, row by row, what the calls with the single states return.", "quantifier": "for every decision rule, exogenous value, and array of states", "why_tests_cant": "depends on the kind of exogenous grid and on the number of states", "anchors": ["dolo/numeric/decision_rule.py:CallableDecisionRule.__call__", "dolo/numeric/decision_rule.py:eval_ms", "dolo/numeric/decision_rule.py:eval_is"]}
{"id": "C81", "title": "eval_ijs evaluates the rule at the next exogenous state", "statement": "eval_ijs(i, j, s) is, for every row of s, the rule at the j-th exogenous value that can follow node i: node j for an unstructured grid, inode(i, j) for a Cartesian one, and no exogenous argument without exogenous grid.", "quantifier": "for every decision rule, nodes i and j, and non-empty array of states", "why_tests_cant": "all grids kinds and numbers of rows", "anchors": ["dolo/numeric/decision_rule.py:DecisionRule.eval_ijs"]}
{"id": "C82", "title": "tabulate returns the rule along a segment", "statement": "tabulate(model, dr, state, ...) returns n_steps rows made of the exogenous values, the reference state in which the chosen state takes n_steps equally spaced values between the bounds, the decision rule evaluated there, and the auxiliaries evaluated there. By default the exogenous node is the middle one (unstructured grid) or the calibrated value, and the bounds those of the endogenous grid or of the domain.", "quantifier": "for every model, rule, state, bounds and number of steps", "why_tests_cant": "quantifies over all rules and arguments", "anchors": ["dolo/algos/simulations.py:tabulate"]}
{"id": "C83", "title": "tabulate_2d returns the rule on a product of segments", "statement": "tabulate_2d(model, dr, states) returns the array whose (a, b) entry is the state in which the two chosen states take the a-th and b-th of equally spaced values over the domain, followed by the decision rule there.", "quantifier": "for every model and rule", "why_tests_cant": "universal claim; the failure is total but not covered by any test", "anchors": ["dolo/algos/simulations.py:tabulate_2d"]}
{"id": "C84", "title": "A perfect-foresight simulation starts where the user said", "statement": "deterministic_solve returns one row per period 0..T (plus a row dated -1 with the initial steady state if keep_steady_state and a shock path are given); states and controls form a perfect-foresight path, whose state at date 0 is the s0 passed by the user, or, when a shock path is given, the steady state consistent with the first exogenous value.", "quantifier": "for every model, horizon T>=1, shock path, s0 and m0", "why_tests_cant": "the starting state is only visibly wrong when the transition depends on the second exogenous value or s0 is not a fixed point of the transition", "anchors": ["dolo/algos/perfect_foresight.py:deterministic_solve"]}
{"id": "C85", "title": "Both complementarity solvers receive the same problem", "statement": "deterministic_solve(solver='ncpsolve') and deterministic_solve(solver='lmmcp') pass the same lower bounds, upper bounds and starting point to the solver.", "quantifier": "for every bounds and guess", "why_tests_cant": "positional arguments of an imported solver: any single run that happens to converge hides the exchange", "anchors": ["dolo/algos/perfect_foresight.py:deterministic_solve", "dolo/numeric/extern/lmmcp.py:lmmcp"]}
{"id": "C86", "title": "A perfect-foresight solution can be reused as initial guess", "statement": "The table returned by deterministic_solve, passed as initial_guess for the same horizon, is turned into the path of the dates 0..T.", "quantifier": "for every horizon and options", "why_tests_cant": "depends on the combination of keep_steady_state and exogenous", "anchors": ["dolo/algos/perfect_foresight.py:deterministic_solve"]}
{"id": "C87", "title": "The properties of a model can be read in any order", "statement": "On a model whose caches are empty, reading symbols and definitions in any order succeeds when the definitions block is accepted, and returns the declared symbols plus the auxiliaries, and the definitions.", "quantifier": "for every model data and order of reads", "why_tests_cant": "tests always build models with check=True, which reads symbols first", "anchors": ["dolo/compiler/model.py:SymbolicModel.symbols", "dolo/compiler/model.py:SymbolicModel.definitions"]}
{"id": "C88", "title": "set_changed(all=True) makes every property be recomputed", "statement": "After the data of a model have been edited and set_changed(all=True) has been called, every property reads as on a freshly built model.", "quantifier": "for every edit of the data", "why_tests_cant": "histories of operations on mutable objects", "anchors": ["dolo/compiler/model.py:Model.set_changed", "dolo/compiler/model.py:Model.functions"]}
{"id": "C89", "title": "Domain bounds are ordered as the states", "statement": "Entry i of domain.min and domain.max is the bound given for the i-th declared state, and a state without bounds raises.", "quantifier": "for every domain section and list of states", "why_tests_cant": "all example models happen to list the domain in the order of the states", "anchors": ["dolo/compiler/model.py:SymbolicModel.get_domain", "dolo/compiler/objects.py:CartesianDomain"]}
{"id": "C90", "title": "Calibration values come from the user, then from definitions, then from defaults", "statement": "The value of a symbol is the one written in the calibration section; failing that, its definition; failing that, the default of its group: zero for exogenous, values and expectations, nan otherwise.", "quantifier": "for every calibration section, definitions and symbol groups", "why_tests_cant": "all combinations of missing symbols", "anchors": ["dolo/compiler/model.py:SymbolicModel.get_calibration"]}
{"id": "C91", "title": "Equations are attached to the variable on their left-hand side", "statement": "In a block with a target group each symbol is computed by the equation that has it on its left-hand side; in a block without target an equation lhs = rhs gives the residual rhs - lhs.", "quantifier": "for every list of equations", "why_tests_cant": "tests only use equations in declared order", "anchors": ["dolo/compiler/factories.py:get_factory"]}
{"id": "C92", "title": "The on-disk cache returns what the function returns", "statement": "For any history of calls, a function cached on disk returns the same value as the function itself.", "quantifier": "for every call history, argument values and functions sharing the cache directory", "why_tests_cant": "two functions of the same name, or two argument tuples of the same hash, share a file; no finite set of calls excludes it", "anchors": ["dolo/misc/caching.py:cachedondisk"]}
{"id": "C93", "title": "The band-pass filter removes constants and linear trends", "statement": "The weights of the band-pass filter are symmetric and sum to zero, so filtering any constant or linear trend gives zero, and the filter is linear in the series.", "quantifier": "for every half-width, pair of period bounds, series and linear trend", "why_tests_cant": "a test fixes the half-width and the series; the correction that makes the weights sum to zero must hold for every one of them", "anchors": ["dolo/numeric/filters.py:bandpass_filter"]}
{"id": "C94", "title": "A converged endogenous-grid solution solves the model on the grid", "statement": "When egm reports convergence with a tolerance at most one, then at every node and poststate the control and state of the returned policy are within the tolerance of the direct response to the conditional expectation under that same policy, and of the state that leads to the poststate; it reports no convergence only after maxit iterations; it returns whenever the nodes for tomorrow are nodes of the policy.", "quantifier": "for every model, process, interpolant, initial policy, grid, tolerance and number of iterations", "why_tests_cant": "convergence is a loop over floating arrays; a test sees one model and one run", "anchors": ["dolo/algos/egm.py:egm"]}
{"id": "C95", "title": "Iterating over a discretised process gives its conditional expectation", "statement": "iteritems(i) lists the nodes of tomorrow whose weight exceeds eps, so the weighted sum over them is the conditional expectation up to n*eps*max|f|, exactly if no smaller weight is positive; the Markov chain, its general form and the iid distribution all expose the same nodes and weights through the common interface.", "quantifier": "for every process, state, function and eps", "why_tests_cant": "holds for all weights and functions, including weights below eps", "anchors": ["dolo/numeric/processes.py:DiscretizedProcess.iteritems", "dolo/numeric/processes.py:MarkovChain.discretize", "dolo/numeric/processes.py:DiscretizedIIDProcess", "dolo/numeric/processes.py:GDP"]}
{"id": "C96", "title": "Simulations of iid and product processes", "statement": "An iid simulation uses each draw exactly once, path n of period t being draw t*N+n; a product process can be simulated when its components can, starts at the value asked for, and its value is the concatenation of the components' values in order; with stochastic=False nothing random is drawn.", "quantifier": "for every number of periods and paths, and every list of components", "why_tests_cant": "layout for all sizes and all lists of components", "anchors": ["dolo/numeric/processes.py:IIDProcess.simulate", "dolo/numeric/processes.py:ProductProcess.simulate", "dolo/numeric/processes.py:MarkovChain.simulate", "dolo/numeric/processes.py:AR1.simulate"]}
{"id": "C97", "title": "Discretising a one-dimensional autoregression as a general process keeps its conditional mean", "statement": "VAR1.discretize(to='gdp') of a one-dimensional process returns N nodes such that the expectation of tomorrow's value at each node is the autoregression of that node.", "quantifier": "for every autocorrelation, variance, mean and number of nodes", "why_tests_cant": "all parameters", "anchors": ["dolo/numeric/processes.py:VAR1.discretize_gdp", "dolo/numeric/grids.py:CartesianGrid"]}
{"id": "C98", "title": "The Gauss-Hermite routine returns the nodes and weights of Gaussian quadrature", "statement": "When hermgauss(n) returns, it returns n nodes and n positive weights, symmetric around zero; each node is within (n+1) times the stopping threshold of a root of the Hermite polynomial of degree n. At the roots, the computed weights integrate every polynomial of degree below 2n exactly against exp(-x^2); rescaled by sqrt(2) and 1/sqrt(pi) they give the expectation of such polynomials under the standard normal law. When the returned nodes are distinct, the rule tends to that integral as the threshold tends to zero.", "quantifier": "for every order, every starting value of the iterations, every threshold and every polynomial of degree below 2n", "why_tests_cant": "a test compares a few orders with a table; exactness concerns all orders and all polynomials, and the distance to the roots does not depend on how the iterations went", "anchors": ["dolo/numeric/discretization/quadrature.py:hermgauss"]}
{"id": "C99", "title": "Tensor products contract the dimensions they say", "statement": "mdot(M, C1, ..., Ck) contracts the last k dimensions of M with the first dimension of each matrix in order: entry (i, j1..jk) is the sum over (l1..lk) of M[i, l1..lk] C1[l1, j1] ... Ck[lk, jk]. The older implementation gives the same array, and sdot(U, V) contracts the last dimension of U with the first of V. Arrays needing more than 26 labels are refused with ValueError rather than mislabelled.", "quantifier": "for every array, every number of dimensions and every list of matrices of matching sizes", "why_tests_cant": "a test compares two implementations on one array; the claim is for all ranks and sizes, including the ones where label characters run out", "anchors": ["dolo/numeric/tensor.py:mdot", "dolo/numeric/tensor.py:mdot_signature", "dolo/numeric/tensor.py:multidot_old", "dolo/numeric/tensor.py:sdot"]}
{"id": "C100", "title": "The second-order matrix equation solver returns a solution", "statement": "second_order_solver(F, G, H) returns P with F P^2 + G P + H = 0 whose eigenvalues are the first generalised eigenvalues of the ordered decomposition; with eigmax these are below eigmax in modulus.", "quantifier": "for every size, all matrices and every ordered generalised Schur decomposition", "why_tests_cant": "a test tries one model; whether the pencil, the blocks and the signs are right is an identity for all matrices, and the failures need particular eigenvalue configurations", "anchors": ["dolo/numeric/matrix_equations.py:second_order_solver"]}
{"id": "C101", "title": "eval_formula evaluates a formula along a series", "statement": "eval_formula(expr, dataframe, context) returns, at each date, the value of the formula where a symbol of the data frame dated h is its value h periods ahead and other names take their value in the context; names that are defined nowhere raise.", "quantifier": "for every formula, every data frame, every context and every date", "why_tests_cant": "a test evaluates one formula, typically static; timing conventions concern every lead and lag", "anchors": ["dolo/compiler/eval_formula.py:eval_formula"]}
{"id": "C102", "title": "Steady states are stationary equilibria", "statement": "residuals(model, calib) is zero exactly when staying at calib for ever satisfies the transition and arbitrage equations at all dates. find_steady_state(model, m) returns such a calibration, for the given exogenous values and the parameters of the model.", "quantifier": "for every model, every calibration, every exogenous value, every solver and every horizon", "why_tests_cant": "a test looks at one model where the solver converges; equivalence with equilibrium over all horizons, and what happens without convergence, is not visible there", "anchors": ["dolo/algos/steady_state.py:residuals", "dolo/algos/steady_state.py:find_steady_state"]}
{"id": "C103", "title": "The operator reported by improved time iteration is the derivative of time iteration", "statement": "Without occasionally binding constraints, the operator L returned by improved_time_iteration (and its as_matrix()) is the derivative, at the solution, of the map from tomorrow's rule to today's rule on which time_iteration iterates. If its eigenvalues (of which compute_radius reports the largest modulus) are below one, time_iteration started close enough converges to that solution, stops for every tolerance, and the distance of its result to the solution is at most a constant times the reported error. With invmethod='gmres' the step solves the linearised equilibrium conditions.", "quantifier": "for every model, grid, process and interpolation that is linear in the values, every starting rule in a neighbourhood and every tolerance", "why_tests_cant": "a test can only compare two numbers on one model; that the reported radius governs convergence is a statement about all nearby starting points and all tolerances", "anchors": ["dolo/algos/improved_time_iteration.py:Operator", "dolo/algos/improved_time_iteration.py:d_filt_dx", "dolo/algos/improved_time_iteration.py:improved_time_iteration", "dolo/algos/time_iteration.py:time_iteration"]}
{"id": "C104", "title": "Compiled functions compute the equations of the model", "statement": "The function compiled for a block of equations takes the arguments of its recipe in order and returns the right-hand sides (or residuals) of the equations, with every definition replaced by its value at the date where it is used; compiling at another date gives the same function.", "quantifier": "for every model, block of equations, shift of dates and values of the arguments", "why_tests_cant": "all models and all values, including definitions used at any date in any block", "anchors": ["dolo/compiler/factories.py:get_factory", "dolo/compiler/factories.py:reorder_preamble", "dolo/compiler/recipes.yaml"]}
{"id": "C105", "title": "The grid of a model is the one described in its options", "statement": "model.endo_grid is the grid of the type given in options:grid, on the domain of the states, with the numbers of points (or level) given there and documented defaults otherwise; a missing or unknown type is reported as such.", "quantifier": "for every options section", "why_tests_cant": "all combinations of tags and entries", "anchors": ["dolo/compiler/model.py:SymbolicModel.endo_grid", "dolo/compiler/model.py:get_address", "dolo/compiler/model.py:get_type"]}
{"id": "C106", "title": "A rule given by formulas returns the values of the formulas", "statement": "CustomDR(values, model) evaluates, for each control in the order of the model, its formula with the names of the other formulas replaced by their values, whatever the order in which formulas are given.", "quantifier": "for every set of formulas without circular dependency and all states", "why_tests_cant": "all formulas and orders", "anchors": ["dolo/numeric/decision_rule.py:CustomDR"]}
{"id": "C107", "title": "Means under the ergodic distribution are stationary", "statement": "With one or two states, what ergodic_distribution returns is a probability distribution over exogenous states and nodes of the grid, its axes carry the coordinates of the nodes, the exogenous state has under it the same distribution one period later, and the mean of every state equals the mean of its value one period later clamped to the bounds of the grid.  With three states or more the function raises.", "quantifier": "for all uniform grids with at least two nodes per state, all stochastic transition matrices or iid weights, all decision rules and transition functions, and all systems that numpy.linalg.solve solves", "why_tests_cant": "a test compares moments with a simulation up to sampling error, for one model; the identity holds exactly for every model, also where transitions leave the grid", "anchors": ["dolo/algos/ergodic.py:ergodic_distribution", "dolo/algos/ergodic.py:trembling_hand"]}
{"id": "C108", "title": "value_iteration finds the optimal value", "statement": "For a model whose value equation is felicity plus discounted future value, with a discount factor in [0,1), transition probabilities, an exact optimiser and an interpolation that averages the values at the grid points: the values returned by value_iteration differ from the solution of the Bellman equation by at most beta/(1-beta) times the reported error err_v (at most tol if the loop stopped before maxit), and the value of the policy returned by at most twice that; after k passes the shortfall is at most 2*R*beta**k plus a multiple of the accuracy of the policy evaluation, where R*(1-beta) bounds felicity.", "quantifier": "for all models, processes, grids, tolerances, numbers of iterations and initial controls meeting the assumptions", "why_tests_cant": "A test compares one model with a reference solution; the distance to the unknown optimum for every model, and its geometric decay with the number of passes, cannot be observed.", "anchors": ["dolo/algos/value_iteration.py:value_iteration", "dolo/algos/value_iteration.py:evaluate_policy", "dolo/algos/value_iteration.py:choice_value", "dolo/algos/value_iteration.py:update_value"]}
{"id": "C109", "title": "lmmcp only returns solutions", "statement": "Whenever lmmcp returns instead of raising 'No convergence', every component of the point returned solves its complementarity problem up to a natural residual max(min(f, x-lb), x-ub) of at most 43*sqrt(eps2) (4.3e-6 with the default options); verbose does not change the result; the preprocessor evaluates the function only within the bounds.", "quantifier": "for all functions, bounds, starting points, search directions and options", "why_tests_cant": "The path of the algorithm (preprocessor, line search, watchdog restarts) depends on the problem; tests only see a few paths and compare with known solutions.", "anchors": ["dolo/numeric/extern/lmmcp.py:lmmcp", "dolo/numeric/extern/lmmcp.py:Phi3MCPPFB"]}
{"id": "C110", "title": "time_iteration finds the equilibrium", "statement": "When the arbitrage equations react more to today's controls than to the future decision rule, and the inner solver is accurate, time_iteration returns a rule whose distance to the (unique) equilibrium rule on the grid, constraints included, is bounded by an explicit multiple of the error it reports and of the accuracy of the inner solver, and it stops within the number of iterations given by the geometric rate. The initial guess, the bounds given to the inner solver, the flag complementarities, the trace and the exogenous grid of the rule are those of the documentation.", "quantifier": "for all models (number of nodes, grid points, controls, functions, bounds), all inner solvers meeting their contract on the problems met, all options, all initial guesses and all tolerances", "why_tests_cant": "A test can only run a particular model for which the equilibrium is not known in closed form, and compare with a previous run; it cannot show that the error reported bounds the distance to the equilibrium.", "anchors": ["dolo/algos/time_iteration.py:time_iteration", "dolo/algos/time_iteration.py:residuals_simple", "dolo/algos/results.py:TimeIterationResult"]}
{"id": "C111", "title": "The table returned by simulate is a labelled trajectory of the model", "statement": "simulate(model, dr, ...) returns T dates of N paths; the columns named after the states and the controls contain, for each date and path, the states and controls of one trajectory of the model under the rule (the rule gives the controls from the states and the exogenous state, the transition gives the next states), started at s0; the columns of the exogenous variables, of the auxiliary variables and of the index of the exogenous state contain the values of the same date and path of the same trajectory. A driving process given as values is used as it is, one given as indices through the nodes of the rule.", "quantifier": "for all models, rules, numbers of paths and dates, initial states and driving processes, provided the sizes agree with the lists of symbols and the symbols are distinct", "why_tests_cant": "the claim ties every cell of a three dimensional array to its label through reshapes, concatenations and several branches; tests look at the shape of the result of one or two models", "anchors": ["dolo/algos/simulations.py:simulate"]}
{"id": "C112", "title": "All solution methods impose the bounds written in the model", "statement": "model.functions has one function for each block of equations of the model, compiled with the recipe of that block from its own equations, and the bounds of the complementarity conditions; time iteration, improved time iteration, the endogenous grid method, perfect foresight and value iteration all read the same bounds: those written in the conditions, infinite where there is none.", "quantifier": "for all models (lists of blocks, equations and conditions) and all compilers", "why_tests_cant": "each solver looks the bounds up under its own names and with its own fallback; a test exercises one model with one solver and does not compare what they read", "anchors": ["dolo/compiler/model.py:SymbolicModel.equations", "dolo/compiler/model.py:Model.__compile_functions__", "dolo/compiler/model.py:Model.x_bounds", "dolo/compiler/recipes.yaml", "dolo/algos/time_iteration.py:time_iteration", "dolo/algos/improved_time_iteration.py:improved_time_iteration", "dolo/algos/egm.py:egm", "dolo/algos/value_iteration.py:value_iteration", "dolo/algos/perfect_foresight.py:deterministic_solve"]}
{"id": "C113", "title": "Draws follow the distribution", "statement": "The rows that draw(N) returns are independent and have the law that integrate() and discretize() of the same object describe: for finite and equiprobable distributions, Bernouilli variables, products and mixtures. simulate(N, T) of an iid process is made of T independent dates with N independent replications each. So the average of a function over N draws is an unbiased estimate of integrate(f), with variance Var(f)/N.", "quantifier": "all distributions (points, weights, components, keys), all N and T, all functions of the whole table of draws", "why_tests_cant": "a test sees finitely many pseudo-random numbers and compares moments up to sampling error; it cannot establish independence or the law of the whole table for all N", "anchors": ["dolo/numeric/distribution.py: FiniteDistribution.draw, EquiprobableDistribution.draw, Bernouilli.draw, Bernouilli.discretize, ProductDistribution.draw, ProductDistribution.discretize, Mixture.draw", "dolo/numeric/processes.py: IIDProcess.simulate"]}
{"id": "C114", "title": "Normal expectations: the discretised and the continuous distribution agree on polynomials", "statement": "UNormal.integrate(f) is the expectation of f under the normal law with mean mu and variance sigma^2. The Gauss-Hermite discretisation of UNormal(mu, sigma) with N nodes gives the same expectation for every polynomial of degree less than 2N. The discretisation of Normal(M, Sigma) gives the expectation of every polynomial in several variables of total degree less than twice the smallest order under the multivariate normal law N(M, Sigma).", "quantifier": "all means, standard deviations, covariance matrices, dimensions, orders, and all polynomials of the given degree (real coefficients)", "why_tests_cant": "a test compares a few moments of a few distributions up to a tolerance; the space of polynomials and of covariance matrices is infinite", "anchors": ["dolo/numeric/distribution.py: UNormal.integrate, UNormal.__discretize_gh__, UNormal.draw, Normal.discretize", "dolo/numeric/discretization/quadrature.py: gauss_hermite_nodes"]}
{"id": "C115", "title": "AR1 processes are the autoregressions they are declared to be", "statement": "The Markov chain that AR1(ρ, σ, μ) is discretised to follows the autoregression y' = μ + ρ (y - μ) + ε at every horizon: from every node, t periods ahead, probabilities sum to one, the mean is μ + ρ^t (y - μ), and the variance is that of t accumulated shocks of standard deviation σ. The same process can be simulated, has an impulse response, and gives the same chain as the one-dimensional VAR1 with the same parameters.", "quantifier": "for all ρ with ρ² ≠ 1, σ, μ, all numbers of nodes N ≥ 2, all nodes and all horizons t", "why_tests_cant": "A test fixes parameters, a number of nodes and a horizon, and the usual choice σ = 1 hides whether σ is read as a variance.", "anchors": ["dolo/numeric/processes.py: AR1.discretize, AR1.discretize_mc, AR1.discretize_gdp, AR1.simulate, AR1.response", "dolo/numeric/discretization/discretization.py: multidimensional_discretization, rouwenhorst"]}
{"id": "C116", "title": "Stable first-order solutions bring the model back to its steady state", "statement": "When perturb returns a rule, a simulation of the (nonlinear) model under that rule that starts close to the steady state returns to it, and the impulse response to a small shock dies out: states and controls at date t are within D r^t of the steady state, in proportion to the size of the impulse, with r < 1 and constants that do not depend on the horizon.", "quantifier": "for every smooth model with iid shocks, every number of states, controls and shocks, every small enough impulse or initial deviation, and every horizon", "why_tests_cant": "A statement about all horizons and all small shocks of a nonlinear recursion; finite simulations cannot distinguish slow divergence from convergence.", "anchors": ["dolo/algos/perturbation.py: perturb, approximate_1st_order", "dolo/algos/simulations.py: response, simulate"]}
{"id": "C117", "title": "The Newton solver for linear models returns a rule that solves the model", "statement": "For a linear model f_s s + f_x x + f_S s' + f_X x' = 0 with s' = g_s s + g_x x, newtonator returns a rule X whose gap f_s + f_x X + f_S (g_s + g_x X) + f_X X (g_s + g_x X) is at most 1e-14 in every entry. Each step solves the linearisation of the model at the current rule, so that the gap left is of second order in the step. classical_perturbation returns a rule with zero gap, and spectral_radius the factor by which the terms of the inner loop shrink.", "quantifier": "for every linear model, every number of states and controls, and every number of steps taken", "why_tests_cant": "no test calls these functions; convergence on one model says nothing about others, and the second-order identity of a step is a statement about all matrices", "anchors": ["dolo/algos/bruteforce_lib.py:newtonator", "dolo/algos/bruteforce_lib.py:simple_max", "dolo/algos/bruteforce_lib.py:spectral_radius", "dolo/algos/bruteforce_lib.py:classical_perturbation"]}
{"id": "C118", "title": "Point-by-point linear algebra and the stacked Jacobian agree", "statement": "serial_multiplication multiplies the matrices of each point; serial_solve returns the solution of the system of each point, or names the first point whose system cannot be solved; mult_AB divides every block of the derivatives by the matrix of its own point. The stacked matrices jac_1, j2_A and jac act on stacked vectors as the derivatives act point by point, so that solve(rr) returns the array whose image under the linearised model is rr.", "quantifier": "for all numbers of points, exogenous states and controls, all arrays of derivatives, and every solver returning only solutions", "why_tests_cant": "no test calls these functions; the agreement of stacked and pointwise forms is a statement about every shape and entry, and a wrong axis or stride agrees on the square or symmetric cases a test would use", "anchors": ["dolo/numeric/serial_operations.py:serial_multiplication", "dolo/numeric/serial_operations.py:serial_solve", "dolo/algos/bruteforce_lib.py:mult_AB", "dolo/algos/bruteforce_lib.py:SmartJacobian.jac_1", "dolo/algos/bruteforce_lib.py:SmartJacobian.j2_A", "dolo/algos/bruteforce_lib.py:SmartJacobian.jac_2", "dolo/algos/bruteforce_lib.py:SmartJacobian.solve"]}
{"id": "C119", "title": "The convergence factors reported by improved time iteration", "statement": "invert_jac returns the partial sum of the Neumann series of the operator up to the first term smaller than tol (or maxit terms), together with the ratio of the sizes of the last two terms, which never exceeds the norm of the operator; radius_jac returns the growth factors of the powers of the operator on the array drawn, the last one and the largest one; they never exceed the norm of the operator, their product is at most a constant times rho**k when all eigenvalues are below rho, they are exact on eigenvectors, and the last factor estimates the spectral radius", "quantifier": "for all operators given by a matrix, all start arrays, all tolerances and numbers of passes", "why_tests_cant": "radius_jac draws its start at random, and a run on one model says nothing on operators whose powers oscillate or on the bound over all starts", "anchors": ["dolo/algos/improved_time_iteration.py:invert_jac", "dolo/algos/improved_time_iteration.py:radius_jac"]}
{"id": "C120", "title": "Printing a model shows which equations do not hold", "statement": "str(model) lists the transition and arbitrage equations with their residuals at the calibration and then the definitions; residuals below 1e-8 are shown as zero and an equation that does not hold is shown in red; _repr_html_ lists the equations of all groups with the same residuals flagged; both leave the equations of the model unchanged", "quantifier": "for all models, calibrations, residual vectors and definitions", "why_tests_cant": "a test prints a handful of models, all at their steady state; it does not see which texts any residual vector gives, nor that a residual that is not a number is displayed as if the equation held", "anchors": ["dolo/compiler/model.py:Model.__str__", "dolo/compiler/model.py:Model._repr_html_", "dolo/misc/termcolor.py:colored"]}
{"id": "C121", "title": "Perturbation, time iteration, perfect foresight and responses agree on linear models", "statement": "For a model with linear equations, the rule returned by perturb solves the model for the other algorithms too. On any grid, with any discretization having the conditional means of the process, it is an equilibrium of time_iteration: residuals are zero at all nodes and grid points; time_iteration started from this rule returns it after one iteration with error zero, and started elsewhere returns a rule whose distance from it is bounded by the error reported. The path simulated without shocks solves the equations of deterministic_solve at all dates, except for the terminal condition, where the residual is the last change of the controls. Impulse responses computed by response are exactly the powers of the transition matrix applied to the shock, hence linear in the impulse. With iid shocks all this should hold whatever their calibrated mean.", "quantifier": "all linear models (any numbers of shocks, states and controls), iid and VAR(1) processes, all grids, discretizations, initial states, horizons and impulses", "why_tests_cant": "agreement of independent algorithms can be sampled on a few models, and only up to tolerances; equality on all linear models and grids is a statement about the algorithms", "anchors": ["dolo/algos/perturbation.py:perturb", "dolo/algos/time_iteration.py:time_iteration, residuals_simple", "dolo/algos/perfect_foresight.py:deterministic_solve, det_residual", "dolo/algos/simulations.py:response, simulate", "dolo/numeric/processes.py:DiscretizedIIDProcess"]}
{"id": "C122", "title": "Progress tables are aligned, complete and silent on request", "statement": "With verbose=False an IterationsPrinter prints nothing and cannot fail. With verbose=True it prints a rule, the message, the titles, one line per pass and the elapsed time; every line is a row whose cells are the values of the columns in the order in which the columns were declared, titles over values, all rows having the same length when the values fit; a missing column is a KeyError. The solvers give a value for each of their columns.", "quantifier": "every list of columns, every run of passes, every way of writing numbers, every message", "why_tests_cant": "Tests run a few solvers whose output nobody checks; alignment and the absence of KeyErrors in verbose mode depend on column names and on all values that may be printed", "anchors": ["dolo/misc/itprinter.py:IterationsPrinter", "dolo/algos/time_iteration.py:time_iteration", "dolo/algos/improved_time_iteration.py:improved_time_iteration", "dolo/algos/value_iteration.py:value_iteration", "dolo/algos/egm.py:egm"]}
{"id": "C123", "title": "Improved time iteration converges near a regular solution", "statement": "Let xs solve the discretised model, with or without complementarities (strict complementarity at the bounds), with continuously differentiable residuals, nonsingular derivatives in today's controls and correct numerical derivatives. If the eigenvalues of the operator at xs (the one whose radius is reported) are below one in modulus, improved_time_iteration with its default inversion, started close enough to xs, returns converged=True for every tol, after at most n0 passes as soon as C*rho^n0 < tol, with the residual of the rule returned below tol and its distance to xs at most a multiple of that residual, whatever smaxit and maxbsteps (at least one). With invmethod='gmres' the same holds whenever one is not an eigenvalue, even if the radius is above one, and convergence is faster than linear: whole steps are accepted and reduce the distance by any given factor close to the solution.", "quantifier": "for all models, grids, interpolations linear in the values, bounds, regular solutions, initial rules in a neighbourhood, tolerances, sweeps, backsteps and iteration limits", "why_tests_cant": "Convergence from a whole neighbourhood and for all tolerances is a statement about infinitely many runs; a test sees one model, one starting point and one tolerance, and cannot tell local convergence from luck.", "anchors": ["dolo/algos/improved_time_iteration.py:improved_time_iteration", "dolo/algos/improved_time_iteration.py:smooth", "dolo/algos/improved_time_iteration.py:invert_jac", "dolo/algos/improved_time_iteration.py:Operator"]}
{"id": "C124", "title": "newton and ncpsolve converge near a regular solution", "statement": "Let N points each have n equations F_p with a regular solution xs_p: F_p(xs_p)=0, F_p continuously differentiable, invertible derivative. Started close enough to xs, newton with serial storage returns without a warning for every tol, after at most n0 iterations as soon as C*rho^n0 < tol (n0 below maxit), with all residuals below tol and every entry within C*tol of xs; the rate rho can be chosen as small as one likes. With exact Jacobians the error is divided by any given factor (and squared, when the derivatives are Lipschitz) at every iteration close to the solution. With SerialDifferentiableFunction the same holds for all steps eps below some bound, from one neighbourhood. ncpsolve converges in the same way near a strictly complementary solution of lb <= x <= ub complementary to F whose free equations determine the free unknowns, with exact or numerical derivatives.", "quantifier": "for all numbers of points and unknowns, equations, regular solutions, bounds, starting points in a neighbourhood, tolerances, rates, difference steps below the bound and iteration limits", "why_tests_cant": "Convergence for all starting points of a neighbourhood, all tolerances and all small steps of the finite differences is a limit statement; a test runs one starting point and one tolerance, and superlinear convergence stalls at rounding after three or four iterations.", "anchors": ["dolo/numeric/optimize/newton.py:newton", "dolo/numeric/optimize/newton.py:serial_solve", "dolo/numeric/optimize/newton.py:SerialDifferentiableFunction", "dolo/numeric/optimize/ncpsolve.py:ncpsolve", "dolo/numeric/optimize/ncpsolve.py:smooth"]}
{"id": "C125", "title": "time_iteration converges near a regular solution of a nonlinear model", "statement": "Suppose the residuals on the grid are continuously differentiable in today's controls and in the rule used tomorrow, vanish at a rule xs (or satisfy strict complementarity with the bounds), and to first order determine today's controls. If the linear response of today's controls to tomorrow's rule has all its eigenvalues below rho < 1 in modulus, then time_iteration started close enough to xs, with numerical derivatives of small enough step, returns after a number of iterations that grows with the logarithm of the tolerance, at the rate rho, with a last change of at most tol, and the values returned are within C*max(tol, tin) of xs, tin being the tolerance of the inner solver (newton or ncpsolve). The number of inner iterations and the inner tolerance do not matter for convergence. A tolerance below the inner one has no effect: when the residuals of the guess are below the inner tolerance the guess is returned and convergence is reported with a zero error.", "quantifier": "all models with residuals of this kind, all grids, all starting rules in a neighbourhood, all tolerances below 10, all inner tolerances and numbers of inner iterations, all steps below a bound", "why_tests_cant": "convergence from every point of a neighbourhood for every model, with a rate given by eigenvalues, cannot be observed on examples", "anchors": ["dolo/algos/time_iteration.py:time_iteration", "dolo/numeric/optimize/newton.py:newton,SerialDifferentiableFunction", "dolo/numeric/optimize/ncpsolve.py:ncpsolve"]}
{"id": "C126", "title": "Perfect foresight finds the path near a regular one", "statement": "Let a perfect foresight path be regular: the model functions are continuously differentiable along it and the equations linearised along the path (initial state fixed, last control repeating the previous one) have no other solution than zero. Then for all initial states and exogenous paths close enough to those of the path there is exactly one perfect foresight path near it, at a distance proportional to the perturbation; the Newton solver that deterministic_solve calls, started near the path, contracts towards it at any prescribed rate, stops without a warning within the corresponding number of steps, and what it returns satisfies the equations to the tolerance and is within a multiple of the tolerance of the exact path. With bounds on the controls the same holds for ncpsolve at a strictly complementary path. In particular, when the calibration is a regular steady state, the whole call with the default guess succeeds for all small shocks and initial displacements and its table contains the exact path up to a multiple of the tolerance. The tolerance and the iteration limit that apply should be those passed by the user.", "quantifier": "for all model functions continuously differentiable near the path, all horizons, all regular paths, all nearby data and guesses, all tolerances and iteration limits", "why_tests_cant": "Tests run a few calibrated models from a few shocks and look at the output of one call; they cannot show that a neighbourhood exists for every regular path, nor that the returned path is near an exact one, nor that the tolerance argument has no effect on any call without constraints.", "anchors": ["dolo/algos/perfect_foresight.py: deterministic_solve, det_residual", "dolo/numeric/optimize/newton.py: newton", "dolo/numeric/optimize/ncpsolve.py: ncpsolve"]}
{"id": "C127", "title": "Bounds in perfect foresight", "statement": "When a model has bounds on its controls and constraints are not ignored, deterministic_solve either returns a path along which every control stays within the bounds evaluated at the states and exogenous values of that path (up to a multiple of the tolerance), or raises the exception 'controls have constant bounds'. Bounds that do not depend on anything are never refused. The condition imposed on the last control is that it repeats the previous one.", "quantifier": "for all bound functions, all numbers of controls, all horizons, guesses and exogenous paths", "why_tests_cant": "The refusal test is evaluated on the initial guess only and compares with nan in one particular position; whether state dependent bounds slip through depends on the order of the controls and on the guess, which no finite set of models explores.", "anchors": ["dolo/algos/perfect_foresight.py: deterministic_solve", "dolo/numeric/optimize/ncpsolve.py: ncpsolve"]}
{"id": "C128", "title": "Solvers leave the rules they are given unchanged", "statement": "time_iteration and evaluate_policy do not change the decision rules passed to them and return rules of their own, so that results obtained earlier keep their meaning; evaluate_policy accepts a rule or the array of its values on the grid.", "quantifier": "for every store of rule objects, every policy, starting rule, tolerance and budget, and every sequence of calls", "why_tests_cant": "aliasing shows only when several objects and several calls are combined, in all possible ways", "anchors": ["dolo/algos/value_iteration.py:evaluate_policy", "dolo/algos/value_iteration.py:value_iteration", "dolo/algos/time_iteration.py:time_iteration", "dolo/numeric/decision_rule.py:DecisionRule.set_values"]}
{"id": "C129", "title": "The trace of time_iteration holds all the rules gone through", "statement": "With trace=True the result holds one rule per iteration plus the final one: distinct objects, the k-th holding the k-th iterate, the last one equal to the rule returned; later calls do not change them.", "quantifier": "for every model, starting rule, tolerance, budget and number of iterations", "why_tests_cant": "quantifies over all runs; aliasing between the entries would show only in their values", "anchors": ["dolo/algos/time_iteration.py:time_iteration"]}
{"id": "C130", "title": "Starting again from a solution stops at once", "statement": "newton, improved_time_iteration, evaluate_policy and time_iteration, started from a solution they reported as converged, stop at once, report convergence, and return this solution (time_iteration: its next iterate).", "quantifier": "for every problem, tolerance, budget and initial guess of the first run", "why_tests_cant": "quantifies over all models and all runs", "anchors": ["dolo/numeric/optimize/newton.py:newton", "dolo/algos/improved_time_iteration.py:improved_time_iteration", "dolo/algos/value_iteration.py:evaluate_policy", "dolo/algos/time_iteration.py:time_iteration"]}
{"id": "C131", "title": "A solution can be handed to another method", "statement": "The result of a solver, or any decision rule of the library, or a function, can be given to time_iteration, improved_time_iteration, egm (to start from) and evaluate_policy (to evaluate); they start from the values of the rule at the exogenous nodes and grid points.", "quantifier": "for every rule object, grid, number of nodes and model", "why_tests_cant": "all combinations of rule classes and solvers, all values", "anchors": ["dolo/algos/time_iteration.py:time_iteration", "dolo/algos/improved_time_iteration.py:improved_time_iteration", "dolo/algos/value_iteration.py:evaluate_policy", "dolo/algos/egm.py:egm", "dolo/algos/results.py:AlgoResult", "dolo/numeric/decision_rule.py:CallableDecisionRule.__call__"]}
{"id": "C132", "title": "ergodic_distribution answers exactly for chains with one recurrent class, and its answer gives long-run frequencies", "statement": "The entry of the transition matrix from (exogenous state i, node k) to (j, l) is the probability of j after i times, for every state, the hat function of the distance in grid steps between node l and the next state clamped to the grid.  ergodic_distribution returns a distribution exactly when some pair (exogenous state, node) can be reached from every pair with positive probability, and raises otherwise.  The distribution gives positive mass exactly to the pairs reached from everywhere; from every initial distribution the fraction of the first n periods spent in each pair is within C/n of it; and, if after some number of periods one pair has positive probability from everywhere, the distribution itself converges to it geometrically.", "quantifier": "for all uniform grids of one or two states with at least two nodes per state, all stochastic matrices or iid weights, all decision rules and transition functions, all initial distributions and all horizons", "why_tests_cant": "Tests compute one distribution for one calibration; they cannot tell for which chains the system is singular, nor that frequencies converge from every starting point", "anchors": ["dolo/algos/ergodic.py:trembling_hand", "dolo/algos/ergodic.py:ergodic_distribution"]}
{"id": "C133", "title": "The default impulse is one standard deviation of the named shock", "statement": "response(model, dr, shock, T) without an impulse returns the same paths as with an impulse equal to one standard deviation of that shock: the named shock takes this value at date one, all shocks are zero otherwise; a shock that is not in the model raises.", "quantifier": "for every model, decision rule, horizon of at least two dates, and every process a model can declare", "why_tests_cant": "the test only prints a response for one model; the size of the impulse depends on which attribute the class of the process happens to have", "anchors": ["dolo/algos/simulations.py:response", "dolo/numeric/processes.py:IIDProcess.response", "dolo/numeric/distribution.py:UNormal", "dolo/numeric/distribution.py:Normal", "dolo/compiler/model.py:SymbolicModel.get_exogenous"]}
{"id": "C134", "title": "Infinite values and nan are never reported as convergence", "statement": "Whatever the functions of the model return (numbers, infinities or nan), time_iteration, improved_time_iteration, value_iteration and egm set their convergence flags, and newton and ncpsolve stay without warning, only when every entry compared is a finite number and the error is below the tolerance; a trial point of newton where the equations can not be evaluated is not kept when a shorter step improves; and a run that ended with nan can not be mistaken for a successful one.", "quantifier": "for all sizes, all update functions, residual functions and steps on arrays of floats with infinities and nan, all tolerances (including nan and infinite ones) and iteration limits", "why_tests_cant": "Tests run models whose functions return numbers everywhere; whether a comparison with nan goes the safe way matters at points that depend on the model, the grid and the iteration, and has to be settled for every comparison and every possible pattern of nan entries.", "anchors": ["dolo/algos/time_iteration.py: time_iteration", "dolo/algos/improved_time_iteration.py: improved_time_iteration", "dolo/algos/value_iteration.py: value_iteration, evaluate_policy", "dolo/algos/egm.py: egm", "dolo/numeric/optimize/newton.py: newton", "dolo/numeric/optimize/ncpsolve.py: ncpsolve"]}
{"id": "C135", "title": "Interrupted computations can be resumed", "statement": "Running newton, ncpsolve, time_iteration, improved_time_iteration or evaluate_policy with a steps and then again, from what was returned, with c steps gives what a + c steps give at once (same result, same error, same flags). A simulation started again from a state it went through, with the rest of the driving process, gives the rest of the simulation, and from any date on a perfect-foresight path is a perfect-foresight path for the rest of the horizon.", "quantifier": "for all problems, update functions, starting points, tolerances, numbers of steps and dates of interruption", "why_tests_cant": "Tests compare single runs; that splitting a run at any point changes nothing is a relation between runs, over all models and all split points.", "anchors": ["dolo/numeric/optimize/newton.py: newton", "dolo/algos/time_iteration.py: time_iteration", "dolo/algos/improved_time_iteration.py: improved_time_iteration", "dolo/algos/value_iteration.py: evaluate_policy", "dolo/algos/simulations.py: simulate", "dolo/algos/perfect_foresight.py: det_residual"]}
{"id": "C136", "title": "The order of declarations does not matter", "statement": "Listing the states, the controls (with their equations and bounds), the exogenous variables or the grid points of a model in another order gives the same results in the other order: newton and ncpsolve (with the numerical derivatives that time_iteration wraps around the residuals), time_iteration, simulate and the stacked perfect-foresight system return reordered arrays, with the same iteration counts, errors, warnings and exceptions.  Without bounds, equations may be listed independently of the controls.", "quantifier": "all sizes, all permutations of variables, equations, grid points, exogenous nodes and integration nodes, all functions, all starting points, tolerances and budgets, provided the Jacobians met are invertible", "why_tests_cant": "a test compares one model in two orders; the claim is about all models and all orders, and the pivoting of the linear solver and the order of summation do depend on the order", "anchors": ["dolo/numeric/optimize/newton.py: newton", "dolo/numeric/optimize/ncpsolve.py: ncpsolve", "dolo/numeric/serial_operations.py: serial_solve", "dolo/algos/time_iteration.py: residuals_simple, time_iteration", "dolo/algos/simulations.py: simulate", "dolo/algos/perfect_foresight.py: det_residual, deterministic_solve"]}
{"id": "C137", "title": "The first-order solution is the saddle path of the linearised model", "statement": "When the generalised eigenvalues reported by ordqz satisfy the Blanchard-Kahn conditions strictly (above one, in the reported S/T convention, for as many as there are states and below one for the others), the matrix C returned by approximate_1st_order is the saddle path: a path of the linearised model (transitions and arbitrage equations at all dates) stays bounded exactly if the controls are C times the states at all dates. In consequence the matrix does not depend on which Schur decomposition is returned, every other linear rule satisfying the equations has exploding paths, and reordering states, controls and equations reorders C.", "quantifier": "for all derivatives of transitions and arbitrage, all numbers of states and controls, all decompositions that are correct, and all infinite paths", "why_tests_cant": "the claim is about all infinite paths of all linear models; a test can only follow one path for finitely many dates", "anchors": ["dolo/algos/perturbation.py:approximate_1st_order", "dolo/numeric/extern/qz.py:qzordered"]}
{"id": "C138", "title": "clear_cache forgets the stored values of one function and only those", "statement": "After clear_cache(f), the next call of the function named f computes its value again whatever was stored (stale or truncated files), the stored values of all other functions are kept, and a cache damaged by a crash is repaired for good; clear_cache() does so for all functions.", "quantifier": "for all contents of the cache directory, all function names, all arguments and all later histories of calls", "why_tests_cant": "the claim is about all names (also those which begin alike or contain characters with a meaning for the shell), all contents of the directory and all later calls", "anchors": ["dolo/misc/caching.py:clear_cache", "dolo/misc/caching.py:cachedondisk"]}
{"id": "C139", "title": "Units of measurement do not matter", "statement": "A user who measures the same variables in other units (cents for dollars, percents for fractions, another origin of a scale) gets the same answer in those units: perturb returns the same decision rule, newton makes the same iterations and returns the same point, uniform grids have the same nodes, and the discretisation of a shock (rouwenhorst, tauchen, Gauss-Hermite for one or several normal variables, VAR1) has the same nodes and the same probabilities.", "quantifier": "all linear models and all invertible changes of variables and equations; all functions, starting points and tolerances of newton with nonsingular Jacobians; all grids; all persistences, standard deviations, covariance matrices, numbers of nodes and units", "why_tests_cant": "Tests run one calibration in one set of units; that no absolute number (a tolerance, a unit diagonal, an order of factors) enters the answer is a statement about all pairs of problems.", "anchors": ["dolo/numeric/optimize/newton.py:newton", "dolo/algos/perturbation.py:approximate_1st_order", "dolo/numeric/discretization/discretization.py:rouwenhorst", "dolo/numeric/discretization/discretization.py:tauchen", "dolo/numeric/discretization/discretization.py:multidimensional_discretization", "dolo/numeric/discretization/quadrature.py:gauss_hermite_nodes", "dolo/numeric/distribution.py:Normal.discretize", "dolo/numeric/grids.py:UniformCartesianGrid"]}
{"id": "C140", "title": "Points solved together are solved as if alone", "statement": "newton with jactype='serial' (used by time_iteration, value iteration and the solvers on grids) solves the problems of all grid points at once. What it returns at a point is what it would return for this point alone: the other points of the batch have no influence, except that iterations go on until the slowest point has converged.", "quantifier": "for all families of problems, starting points, tolerances and iteration limits", "why_tests_cant": "Tests solve one batch; that the answer at a point does not change when other points are added is a relation between runs, and it only breaks when another point needs smaller steps.", "anchors": ["dolo/numeric/optimize/newton.py:newton", "dolo/numeric/serial_operations.py:serial_solve"]}
{"id": "C141", "title": "Operators on grids", "statement": "g1 + g2 and g1 * g2 give the grid over the product of the two sets of points, EmptyGrid() is neutral on both sides, and node(i) for i < n_nodes runs through the rows of nodes.", "quantifier": "for all grid objects of all classes", "why_tests_cant": "the operators dispatch on pairs of classes, and the contents of the grids are arbitrary; the failures concern whole pairs of classes that no test exercises", "anchors": ["dolo/numeric/grids.py: Grid.__mul__, cat_grids, EmptyGrid.__add__, UniformCartesianGrid.__add__, NonUniformCartesianGrid.__add__, Grid.n_nodes, Grid.node, PointGrid"]}
{"id": "C142", "title": "Complementarity conditions are read as written", "statement": "decode_complementarity reads 'lb <= x <= ub' as the bounds lb and ub, whatever blanks surround the pieces; it accepts exactly the texts whose middle piece is the control; the one-sided forms 'a <= x' and 'x <= b' promised in its documentation are read too.", "quantifier": "for all texts of bounds, names and blanks", "why_tests_cant": "a greedy regular expression over arbitrary texts: bounds are formulas of any length", "anchors": ["dolo/compiler/model.py: regex, decode_complementarity"]}
{"id": "C143", "title": "Symmetric shocks stay symmetric", "statement": "Discretising a symmetric shock gives a symmetric discrete shock: nodes come in opposite pairs (seen from the mean) with equal weights, so that odd moments are exactly zero; products of symmetric shocks are symmetric; the transition matrix of a discretised symmetric autoregression is unchanged when both dimensions are read backwards.", "quantifier": "for all numbers of nodes, means, variances, persistence parameters, symmetric quantile functions and symmetric rules", "why_tests_cant": "the statement ranges over all orders and parameters, and floating-point tests only compare moments up to a tolerance", "anchors": ["dolo/numeric/distribution.py: UnivariateContinuousDistribution.__discretize_ep__, UNormal.__discretize_gh__, Normal.discretize, product_iid", "dolo/numeric/discretization/discretization.py: rouwenhorst", "dolo/numeric/discretization/quadrature.py: hermgauss, gauss_hermite_nodes", "dolo/numeric/processes.py: MarkovChain.inode, iweight"]}
{"id": "C144", "title": "Converged improved time iteration respects the bounds of controls up to three tolerances", "statement": "When improved_time_iteration converges on a model with complementarity conditions, every control on the grid lies within its bounds up to three times the tolerance; where a control is away from a bound by more than that, its arbitrage equation does not have the sign that only this bound would allow beyond three tolerances, so away from both bounds the equation holds up to three tolerances. Without complementarities every equation holds up to the tolerance.", "quantifier": "for all models, grids, solvers, inversion methods, starting points, budgets and tolerances up to 30000, and for all controls and grid points", "why_tests_cant": "A test sees a few converged models; the claim compares the Fischer-Burmeister residual that the loop monitors with the conditions a user reads, for every value of residuals and bounds.", "anchors": ["dolo/algos/improved_time_iteration.py: improved_time_iteration, smooth, smooth_nodiff"]}
{"id": "C145", "title": "The value of a policy is the expected discounted sum of utilities", "statement": "For a model whose value equation is utility plus discounted future value, the values returned by evaluate_policy are the expected discounted sum of utilities under the policy: after k updates from v0 the value at a grid point is exactly the sum over all k-step paths on the grid of probability times (discounted utilities plus discounted v0 at the last state); the values returned are within error/(1 - beta*kappa) of the limit of these sums as the horizon grows (kappa = 1 for linear interpolation, the norm of the interpolation weights otherwise).", "quantifier": "for all models with such a value equation, discretised processes, policies, interpolations by weights of sum one with beta*kappa < 1, tolerances below 10, numbers of iterations, initial values, horizons and grid points", "why_tests_cant": "It equates a fixed point computed by iteration with an expectation over all paths, exponentially many in the horizon, for any policy and process.", "anchors": ["dolo/algos/value_iteration.py: evaluate_policy, update_value, EvaluationResult"]}
{"id": "C146", "title": "Plots of impulse responses show every variable of every simulation", "statement": "plot_irfs draws one panel for each variable asked for, in order, with its title; each panel has one line per simulation with the values of the variable up to the horizon, and the vertical limits, when set, contain all values.", "quantifier": "for all lists of simulations, variables, titles, horizons and line options", "why_tests_cant": "Depends on the numbers of variables and simulations, and on all values drawn; a plot is looked at, not compared.", "anchors": ["dolo/misc/graphs.py: plot_irfs, default_layout"]}
{"id": "C147", "title": "Functions with several methods are called as they are declared", "statement": "A function decorated with @multimethod is applicable to the arguments that its annotations accept: the signature has the class written for each parameter up to the last annotated one, object for those without annotation, and nothing for the parameters after it; arguments may be given by position or by name.", "quantifier": "for all declarations, class hierarchies and arguments", "why_tests_cant": "Quantifies over parameter lists with annotations in any places and over all classes of arguments.", "anchors": ["dolo/misc/multimethod.py: get_types, multimethod.__init__, multimethod.__call__", "dolo/algos/ergodic.py: ergodic_distribution"]}
{"id": "C148", "title": "The scale of utility does not matter, and better opportunities are worth more", "statement": "Adding a constant c to utility leaves the controls found by value_iteration, its number of iterations and its errors unchanged and adds c/(1-beta) to the values. Multiplying utility by a > 0 and adding c gives the same iterations of evaluate_policy when the tolerance is multiplied by a, and values multiplied by a plus c/(1-beta); the optimal choices are the same and the values returned by value_iteration agree up to the reported errors. If felicity rises or more choices become admissible, the values do not fall beyond the reported errors.", "quantifier": "all models with value equation felicity + beta*V(1), processes, grids, policies, scales a > 0, constants c, tolerances, iteration limits, initial values and initial controls", "why_tests_cant": "A test compares two scales for one model; the claim is for every scale, model and starting point, and the values are limits", "anchors": ["dolo/algos/value_iteration.py:value_iteration", "dolo/algos/value_iteration.py:evaluate_policy", "dolo/algos/value_iteration.py:update_value", "dolo/algos/value_iteration.py:choice_value"]}
{"id": "C149", "title": "Risk enters perturbation solutions linearly, as a shift of decisions", "statement": "The covariance matrix of the shocks does not enter the solution at first order. At second order it only enters the constant of the rule: the coefficients of the states are those of the model without risk, the correction is linear in the covariance matrix (it vanishes without risk, doubles when variances double), and the rules for two covariance matrices differ by the same vector in all states, with the same law of motion. At third order it also enters the coefficients of the states, linearly. A model that is solved at second order is solved at first and third order, with the same lower-order terms.", "quantifier": "for every model's derivatives, every pair of covariance matrices and every linear combination of them, every state", "why_tests_cant": "a superposition law over all covariance matrices and models; tests fix one covariance matrix", "anchors": ["dolo/algos/perturbations_higher_order.py:state_perturb, perturb", "dolo/numeric/taylor_expansion.py:TaylorExpansion"]}
{"id": "C150", "title": "A singular Jacobian is reported, never stepped over", "statement": "newton (and so ncpsolve and time_iteration, which use it) raises exactly when the linear system of a step cannot be solved: the exception names the first point with a singular Jacobian and carries this Jacobian and residual; no step is made up. When newton returns, the default point-by-point solver (diagnose=True) and the elimination (diagnose=False) give the same result, number of iterations and warning; problems whose Jacobians are invertible always return. A point that is already solved does not prevent the others from being solved.", "quantifier": "for every function, number and dimension of points, tolerance, iteration budget and starting point", "why_tests_cant": "exceptions depend on the iterates that are reached; the two code paths must agree on all inputs", "anchors": ["dolo/numeric/optimize/newton.py:newton, serial_solve", "dolo/numeric/serial_operations.py:serial_solve"]}
{"id": "C151", "title": "The horizon of a perfect-foresight simulation matters only near its end", "statement": "In a linear model whose eigenvalues satisfy the conditions of Blanchard and Kahn, a perfect-foresight path over N dates follows the decision rule of perturb up to an error that decays geometrically in the distance to the last date. Once the exogenous variables stay at the steady state, the deviation of the controls at date i from the rule is at most c q^(N-1-i) times the deviation at the last date, and so is the distance of states and controls from the simulation with the rule; c and q < 1 do not depend on the horizon, the shocks or the initial state. Two horizons agree at early dates, and in the limit the path is the one of the rule. The remainder of a path is a path from the state it has reached. It fails when the solution is indeterminate, which perturb does not always notice.", "quantifier": "all numbers of states, controls and shocks, all derivatives, all horizons, all initial states, all shock paths, all perfect-foresight paths", "why_tests_cant": "a test compares two horizons on one model; the constants must hold for every horizon at once and the rate comes from the eigenvalues of the pencil", "anchors": ["dolo/algos/perfect_foresight.py: deterministic_solve, det_residual", "dolo/algos/perturbation.py: perturb, approximate_1st_order"]}
{"id": "C152", "title": "Linear interpolation of decision rules has the properties that the solution methods rely on", "statement": "A DecisionRule with interp_method='linear', after set_values, returns at every state a weighted sum of the values at the grid points. The weights depend only on the grid and on the state: they sum to one, the weighted mean of the grid points is the state, and inside the box they are not negative. So evaluation is linear in the values, affine rules (in particular those of perturb for linear models) are reproduced everywhere including outside the grid, interpolated controls stay within bounds that hold at the grid points, differences between rules are not amplified, the order of the states does not matter.", "quantifier": "for all Cartesian grids with at least two nodes per dimension, all tables of values, all states (inside or outside the box), all exogenous grids for which the rule can be evaluated", "why_tests_cant": "a test evaluates a few rules at a few points; the statement is about all tables and all states, and it is what convergence and error bounds of the solution methods rest on", "anchors": ["dolo/numeric/decision_rule.py: DecisionRule.set_values, eval_ijs, eval_is, eval_s, eval_ms, get_coefficients (Linear)", "dolo/numeric/grids.py: CartesianGrid", "dolo/algos/time_iteration.py: residuals_simple", "dolo/algos/value_iteration.py: value_iteration"]}
{"id": "C153", "title": "Derivatives of complementarity problems are numbers wherever the functions of the model are", "statement": "ncpsolve and improved_time_iteration compute, from residuals, derivatives and bounds that are numbers (or infinite bounds), smoothed residuals and derivatives that are numbers, at every point, in particular where a control is at a bound and its equation holds there. Consequently deterministic_solve can be used on a model whose calibrated controls are at their bounds.", "quantifier": "for all residuals, bounds, points, storage types, horizons, models, exogenous paths, tolerances and iteration limits", "why_tests_cant": "The derivative divides by a square root that is zero only at isolated points, so random or generic test points never meet it; that the default guess of deterministic_solve is such a point for every model with a binding bound, and that no number of iterations recovers from it, are statements about all models and executions.", "anchors": ["dolo/numeric/optimize/ncpsolve.py: smooth, ncpsolve", "dolo/algos/improved_time_iteration.py: smooth", "dolo/algos/perfect_foresight.py: deterministic_solve, det_residual", "dolo/numeric/optimize/newton.py: newton"]}
{"id": "C154", "title": "Models that satisfy the Blanchard-Kahn conditions get their saddle path, with real or complex roots", "statement": "If the linearised model satisfies the Blanchard-Kahn conditions (of the roots of det(zA - B) exactly as many as there are states lie inside the unit circle, counted with multiplicity, and none on it), the rule returned by approximate_1st_order / perturb is a solution of the linearised equations, is stable, and is the only rule along which the linearised model stays bounded; paths of perfect foresight approach it geometrically away from the last date.", "quantifier": "all models (numbers of states and controls, derivative matrices) whose roots, real or complex, satisfy the conditions; all sorted QZ decompositions", "why_tests_cant": "Tests run a few models with real roots and one decomposition each; the claim is about every model, complex pairs included, and every decomposition that LAPACK may return.", "anchors": ["dolo/numeric/extern/qz.py: qzordered, select", "dolo/algos/perturbation.py: approximate_1st_order, perturb"]}
{"id": "C155", "title": "Small changes of the calibration change the perturbation rule and its paths little", "statement": "For a model whose linearisation satisfies the Blanchard-Kahn conditions, every model with close enough derivatives satisfies them too, and the rule that perturb / approximate_1st_order returns for it differs from the rule of the model by at most a constant times the difference of the derivatives. The states and the controls along the paths of the two rules from the same state differ by at most a constant times that difference, uniformly over all dates.", "quantifier": "all models satisfying the conditions, all perturbations of the six derivative matrices below a threshold, all initial states and all dates", "why_tests_cant": "The bound is about all models in a neighbourhood and all dates, although the decompositions of nearby models may be far from each other (Schur vectors are not continuous).", "anchors": ["dolo/algos/perturbation.py: approximate_1st_order, perturb", "dolo/numeric/extern/qz.py: qzordered"]}
{"id": "C156", "title": "Small changes of preferences, discounting, transitions or probabilities change the values found and the quality of decisions little", "statement": "If felicity changes by at most eu, the discount factor by eb, the transition probabilities by ew in sum, and the states reached by so little that the value function interpolated there changes by at most ev, the values returned by value_iteration change by at most (eu + eb V + beta' (ew V + ev)) / (1 - beta'), V being a bound of the values, plus beta/(1-beta) times the errors that the two runs report. The controls found for one model, used in the other, lose at most twice that relative to its optimum.", "quantifier": "all pairs of models with value equation felicity + beta*V(1) on the same grids and admissible choices, all tolerances, optimisers, initial controls and values", "why_tests_cant": "The bound is over all pairs of models and compares two optima, which a test does not know.", "anchors": ["dolo/algos/value_iteration.py: value_iteration, evaluate_policy"]}
{"id": "C157", "title": "Small changes of the model change the rule of time_iteration little", "statement": "When the arbitrage equations react more to today's controls than to the future rule, a change of the model (parameters, transition, probabilities of the process, bounds on the controls) that changes the expected residuals and the bounds by at most eps moves the equilibrium rule by at most kappa*eps/(1-q); the rules returned by two runs of time_iteration, for the model and for the changed one, with whatever initial guesses, options and inner solvers, differ by at most this plus (kappa*delta + q*err)/(1-q) for each run, which is computed from the errors they report.", "quantifier": "for all pairs of models of the same size, all processes, bounds, initial guesses, options and inner solvers of the stated accuracy, and all sizes of the change", "why_tests_cant": "Comparing two solutions for one change of one parameter says nothing about other changes, and cannot tell whether a difference comes from the model or from the accuracy of the iterations.", "anchors": ["dolo/algos/time_iteration.py:time_iteration", "dolo/algos/time_iteration.py:residuals_simple", "dolo/numeric/optimize/ncpsolve.py:ncpsolve"]}
{"id": "C158", "title": "Solutions found on a grid approach the true ones as the grid is refined", "statement": "With linear interpolation, a rule known at the nodes is recovered between them up to half its Lipschitz constant times the distance between nodes, and up to a multiple of the square of that distance when the rule is smooth; the nodes of a uniform grid are (max - min)/(n - 1) apart. The equilibrium rule on the grid, and the rule returned by time_iteration, differ from the true rule of the model at the grid points by at most a constant times this interpolation error (plus the errors of the inner solver and of stopping), and the values returned by value_iteration differ from the true value function by at most beta/(1-beta) times the interpolation error plus the reported error. So with twice as many nodes the error is four times smaller.", "quantifier": "for all grids, tables of values, rules or value functions meeting the smoothness bounds, models with the contraction conditions of C110 or C108, options, inner solvers within their contract and results", "why_tests_cant": "the true rule is unknown for nearly all models, and a test on one model at two grid sizes says nothing about the rate for others", "anchors": ["dolo/algos/time_iteration.py: time_iteration", "dolo/algos/value_iteration.py: value_iteration", "dolo/numeric/decision_rule.py: DecisionRule", "dolo/numeric/grids.py: UniformCartesianGrid"]}
{"id": "C159", "title": "Errors of rules carry over in proportion to simulations and to ergodic distributions", "statement": "Simulate two decision rules, or two models, with the same exogenous path. If one period under the first rule expands differences of states by at most rho, a change of controls moves the next state by at most Lx times the change, the rules differ by at most ex and the transitions by at most eg, then at date t the states differ by at most rho^t times the initial difference plus (Lx ex + eg)(1 + rho + ... + rho^(t-1)); when rho < 1 the second term is at most (Lx ex + eg)/(1 - rho) however long the simulation. Likewise, if the next states that two rules or models imply at the nodes of the grid differ by at most d_k grid steps in dimension k, the distributions that ergodic_distribution returns differ by at most 2 t (sum of d_k)/(1 - tau) in sum, where the chain of the first model forgets its starting point up to tau within t periods.", "quantifier": "all metric spaces of states and controls, all transition functions, rules, initial states, exogenous paths, horizons and dates; all uniform grids of one or two states, all Markov chains and all discretized iid processes, all transition functions and rules, all forgetting times t and tau < 1", "why_tests_cant": "A solver returns a rule up to a tolerance and a test can only compare a few simulated paths or one distribution; that errors of any size and any shape are transmitted with a known factor, and do not accumulate over arbitrarily long horizons, is a statement about all rules, paths and dates.", "anchors": ["dolo/algos/simulations.py: simulate", "dolo/algos/ergodic.py: ergodic_distribution, trembling_hand"]}
{"id": "C160", "title": "The first-order rule is tangent to the solution of the nonlinear model", "statement": "Let the derivatives used by perturb be those of the model functions at a steady state, and let phi be any solution of the nonlinear model without shocks near the steady state (the arbitrage equations hold along states s' = g(s, phi(s))) that is differentiable there and stable (states stay within a multiple of the initial displacement). If perturb returns a rule with eigenvalues satisfying the Blanchard-Kahn conditions, the rule is tangent to phi: its error is small compared with the distance to the steady state, and at most a multiple of the squared distance when phi is twice continuously differentiable. Simulations without shocks of any length under the rule, under phi, and of the linearised model, differ at date t by at most eps r^t times the initial distance, for an r < 1 and every eps > 0 if the start is near enough, and all differentiable stable solutions agree to first order.", "quantifier": "all models differentiable at a steady state, all numbers of states and controls, all differentiable stable solutions, all correct decompositions with real eigenvalues, or complex ones that ordqz sorts, all dates", "why_tests_cant": "Models with known nonlinear solutions are rare, and a test compares the two at some distance from the steady state; that the error vanishes faster than the distance is a limit statement over all models and solutions.", "anchors": ["dolo/algos/perturbation.py: perturb, approximate_1st_order, BivariateTaylor", "dolo/algos/simulations.py: simulate"]}
{"id": "C161", "title": "Where perturb returns a rule, the nonlinear model is determinate near the steady state and the rule approximates its one stable path", "statement": "If the functions of a model are continuously differentiable around a steady state and perturb returns a rule there (the Blanchard-Kahn conditions hold), then from every initial state near the steady state there is exactly one path without shocks that satisfies transitions and arbitrage equations at all dates and stays near the steady state. These paths are those of one solution x = phi(s), which exists, is differentiable at the steady state, is stable, and is the only such solution near the steady state. The rule of perturb is tangent to it, and a simulation under the rule differs from the path at date t by at most eps r^t times the initial distance with r < 1, uniformly in dates and lengths of simulations.", "quantifier": "for all models continuously differentiable around a steady state, all numbers of states and controls, all rules perturb returns whatever generalised Schur decomposition the library yields, all initial states near the steady state, all dates, all lengths of simulations", "why_tests_cant": "existence and uniqueness among all infinite paths of a nonlinear system cannot be observed; a test can only compare finitely many simulated points", "anchors": ["dolo/algos/perturbation.py: perturb, approximate_1st_order", "dolo/algos/simulations.py: simulate"]}
{"id": "C162", "title": "The second-order rule of state_perturb agrees with smooth stable solutions up to second order", "statement": "When state_perturb(problem) at order 2 returns without a warning under the conditions of Blanchard and Kahn, then (i) the Sylvester equations behind every higher-order term and the linear system behind the risk correction have at most one solution; (ii) every stable solution x = phi(s) of the nonlinear model without shocks that has a second-order expansion at the steady state has exactly the expansion X_s, X_ss that was returned, so the error of the returned rule is negligible next to |s - s*|^2: smaller than any multiple of |s - s*|^2 near the steady state; (iii) every rule phi(s, lambda) of states and size of risk with first-order terms X_s that solves the model up to second order has the returned terms X_ss and X_tt; (iv) without shocks, simulations under the returned rule (without the risk correction) and under the solution of (ii) from a state s0 give, at every date, states and controls whose difference is negligible next to |s0 - s*|^2.", "quantifier": "all numbers of states, controls and shocks, all functions g and f with second-order expansions at the steady state, all generalised Schur decompositions meeting the contract of ordqz, all exact linear solvers, all stable solutions with a second-order expansion, all finite distributions of shocks with the given covariance", "why_tests_cant": "tests compare second-order coefficients of one or two example models with stored numbers; the claim is about every model and every solution function, and about a limit at the steady state", "anchors": ["dolo/algos/perturbations_higher_order.py: state_perturb", "dolo/numeric/matrix_equations.py: solve_sylvester"]}
{"id": "C163", "title": "Equation errors of the second-order rule are negligible next to squared distance and risk, those of the first-order rule at most comparable", "statement": "Let the model be smooth at its steady state, and let perturb at order two return a rule without warning under the Blanchard-Kahn conditions. Put the rule into the equations of the model, take the expectation over the shocks scaled by lambda, and start from any state s. The expected equation errors are small compared with |s - s*|^2 + lambda^2 as s tends to the steady state and lambda to zero, also when the rules are those computed for the covariance matrix scaled by lambda^2 and evaluated by the Taylor expansion object. The rule returned at order one has expected equation errors of at most the order of |s - s*|^2 + lambda^2. Conversely, a rule with the same first-order terms in the states and a second-order expansion whose expected equation errors are this small does not react to lambda at first order, has no mixed terms of states and lambda, has the second-order terms and the risk correction that were returned, and simulations from s0 with the same shocks (scaled by lambda) under that rule and under the rule returned differ, at every date, by little compared with |s0 - s*|^2 + lambda^2.", "quantifier": "for all models twice differentiable at the steady state, all finite distributions of shocks with mean zero and the covariance matrix of the model, all states near the steady state and all small scales of risk", "why_tests_cant": "A test evaluates Euler errors at finitely many points of one model; the rate at which they vanish is a statement about all states and all scales of risk near the steady state.", "anchors": ["dolo/algos/perturbations_higher_order.py: perturb, state_perturb", "dolo/numeric/taylor_expansion.py: eval_te_order_2"]}
