# Formal model of dolo.py in Lean 4: design

Source modelled: `/repo` (EconForge/dolo.py, pinned commit). The code is read as text; it is not run.

## Layout

* `lean/Verif/Model/*.lean` - executable-style definitions that mirror the Python functions, each with a comment citing file and lines.
* `lean/Verif/Lemmas/*.lean` - helper lemmas.
* `lean/Verif/Props/*.lean` - the property theorems (named `Cxx_...`), small specifications they are stated against, and a non-vacuity `example` beside each.
* `MANIFEST.json` - property -> theorem names.
* `seeded/LOG.jsonl` - mutation tests.  Most edits were applied to a copy of the working files, the last ones to a copy of
  the last commit.  Eight entries had been run while other files were being edited and did not build, and listed theorems that failed for that reason: seven were corrected by removing the
  theorem in question, one was run again.  They were found by looking for theorems that do not depend on the definition edited.

## Trusted base

* Lean 4.33 kernel; Mathlib definitions used in statements (real numbers, `Real.sqrt`, `Matrix`, `Polynomial`, finite sums, `HasDerivAt`).
* Axioms: only `propext`, `Classical.choice`, `Quot.sound` (checked by `#print axioms` / `vcheck`).
* The reading of the Python source. Nothing ties the model to the code mechanically.
* **Arithmetic is exact.** Every float is modelled as an element of an ordered field or of the reals. Rounding, overflow, NaN and infinities produced by arithmetic are outside the model. Exceptions: `Model/PFBounds.lean` and `Model/NanLoops.lean` use reals with the two infinities and nan (C127, C134), `Model/RadiusJac.lean` and `Model/ModelDisplay.lean` have nan (C119, C120). Infinite *bounds* supplied by the user are modelled explicitly where the code tests for them.
* numpy/scipy/numba/pandas/dolang primitives are modelled by their documented meaning (reshape, ravel, kron, concatenate, repeat, linspace, where, slicing). Solvers and special functions (`numpy.linalg.solve`, `ordqz`, `norm.cdf`, `ppf`, interpolation routines, random number generators) are parameters with an explicit contract in the theorem's hypotheses.
* Exceptions are values (`Except`), never silently totalised.

## What is modelled and what is not

Python files and the modules under `lean/Verif/Model` that model functions of them (the comments there cite the lines):

| file | modules |
|---|---|
| `dolo/algos/bruteforce_lib.py` | BruteforceLinear, SerialOps, SparseTensor |
| `dolo/algos/egm.py` | Egm, HandOver, ItPrinter, ModelFunctions, NanLoops |
| `dolo/algos/ergodic.py` | Ergodic, ErgodicDriver |
| `dolo/algos/fb.py` | Complementarity |
| `dolo/algos/improved_time_iteration.py` | Complementarity, HandOver, ItPrinter, ItiOperator, ItiPass, Loops, ModelFunctions, NanLoops, RadiusJac, SerialOps |
| `dolo/algos/invert.py` | Gauss, SerialOps |
| `dolo/algos/perfect_foresight.py` | ModelFunctions, PFBounds, PFSolve, PerfectForesight |
| `dolo/algos/perturbation.py` | HandOver, MethodsAgree, Perturbation |
| `dolo/algos/perturbations_higher_order.py` | HigherOrder, Taylor |
| `dolo/algos/results.py` | HandOver |
| `dolo/algos/simulations.py` | HandOver, Response, SimulateTable, Simulation, Tabulate |
| `dolo/algos/steady_state.py` | PerfectForesight, SteadyState |
| `dolo/algos/time_iteration.py` | EvalHeap, HandOver, ItPrinter, Loops, MethodsAgree, ModelFunctions, NanLoops, NewtonSerial, TISerial, TimeIteration |
| `dolo/algos/value_iteration.py` | EvalHeap, HandOver, Howard, ItPrinter, Loops, ModelFunctions, NanLoops |
| `dolo/compiler/eval_formula.py` | EvalFormula |
| `dolo/compiler/factories.py` | Factory, ModelFunctions, SymbolicModel |
| `dolo/compiler/misc.py` | Calibration, NumDiff |
| `dolo/compiler/model.py` | DecodeComp, EndoGrid, ModelDisplay, ModelFunctions, Response, SymbolicModel |
| `dolo/compiler/model_import.py` | EndoGrid |
| `dolo/compiler/objects.py` | Cartesian, SymbolicModel |
| `dolo/misc/caching.py` | Caching, ClearCache |
| `dolo/misc/graphs.py` | PlotIrfs |
| `dolo/misc/groot.py` | Groot |
| `dolo/misc/itprinter.py` | ItPrinter |
| `dolo/misc/multimethod.py` | GetTypes, Multimethod |
| `dolo/misc/termcolor.py` | ModelDisplay |
| `dolo/numeric/decision_rule.py` | CustomDR, DecisionRule, EvalHeap, HandOver, MethodsAgree, Tabulate, Taylor |
| `dolo/numeric/discretization/discretization.py` | Markov, Rouwenhorst |
| `dolo/numeric/discretization/quadrature.py` | Distribution, Hermgauss |
| `dolo/numeric/distribution.py` | Distribution, Draws, NormalExpectation, Processes, Response |
| `dolo/numeric/extern/lmmcp.py` | Complementarity, Lmmcp, PerfectForesight |
| `dolo/numeric/extern/qz.py` | Perturbation, SecondOrder, Qz |
| `dolo/numeric/filters.py` | Filters |
| `dolo/numeric/grids.py` | Cartesian, DecisionRule, GridOps, Processes, Tabulate |
| `dolo/numeric/matrix_equations.py` | SecondOrder, Sylvester |
| `dolo/numeric/misc.py` | Cartesian, NumDiff |
| `dolo/numeric/optimize/ncpsolve.py` | Complementarity, Newton, NewtonSerial, PFBounds, PFSolve, PerfectForesight, TISerial |
| `dolo/numeric/optimize/newton.py` | Gauss, NanLoops, Newton, NewtonRaise, NewtonSerial, NumDiff, PFSolve, TISerial |
| `dolo/numeric/processes.py` | AR1, Distribution, Draws, Loops, Markov, MethodsAgree, Perturbation, Processes, Response, Simulation |
| `dolo/numeric/serial_operations.py` | Gauss, NumDiff, SerialOps |
| `dolo/numeric/taylor_expansion.py` | HandOver, Taylor |
| `dolo/numeric/tensor.py` | HigherOrder, MultiTake, Tensor |

Not modelled, with the reason:

* `dolo/linter.py`: every line is commented out. `dolo/compiler/derivatives.py`: imports a module that does not exist, so it cannot be loaded. `dolo/compiler/recipes.py`, `dolo/config.py`, `dolo/algos/commands.py`, `__init__.py` files: settings and imports only.
* `dolo/misc/decorators.py`, `dprint.py`, `timing.py`, `display.py` (`read_file_or_url`, `pcat`), `termcolor.cprint`: printing, timing, reading of files. `yaml_import` beyond the checks made on the document: the YAML parser is outside the model, which starts from the parsed nodes.
* `simulations.plot3d`, `plot_decision_rule`: calls to plotting libraries; the second refers to undefined names.
* `bruteforce_lib.compact_ddx`, `construct_j2`: refer to undefined names (`B`, `tb`, `n_m`), so that every call raises.
* `fb.smooth`, `fb.smooth_` (loops over the modelled scalar functions, not called), `improved_time_iteration.ssmul_inplace` (not called), `decision_rule.filter_controls` (calls the interpolation library; not called).
* Helpers of `invert.py` (`swaplines*`, `substract*`, `divide*`) appear as parts of the elimination steps in `Gauss.lean`, not one by one. `newton.solve` and `newton.serial_solve` are the elimination of `Gauss.lean` with right-hand sides of other shapes (exceptions in `NewtonRaise.lean`).
* Abstract methods of base classes (`Distribution.draw`, `DiscreteDistribution.point`, ...), constructors that only store their arguments, `Process.names`.
* Compilation: `dolang` (parsing, symbolic derivatives, code generation), `numba`, the interpolation library, `scipy`'s optimisers and `numpy.linalg`: parameters with contracts.
* Functions named `test_*` inside modules.

## Plan per property

* **C01** cartesian lists every combination exactly once, in row-major order. `Model/Cartesian.lean`: list recursion mirroring `cartesian`; refinement to `List.getElem` with mixed-radix index; induction on the number of arrays.
* **C02** Uniform grid nodes cover the box: corners, spacing, count, containment. `Model/Cartesian.lean`: `linspace` over an ordered field, `mlinspace` = cartesian of linspaces; proofs by induction on dimension.
* **C03** Concatenating two uniform grids keeps both sets of bounds. `Model/Grids.lean`: `__add__` as written (reuses the left bounds). Property is false of the code: negation with a witness, `_partial` theorem for equal bounds.
* **C04** Concatenating two non-uniform grids gives the product grid; it is associative. `Model/Grids.lean`: node lists appended, nodes = cartesian; `cartesian (a ++ b)` lemma.
* **C05** Products of discrete distributions are independent products. `Model/Distribution.lean`: nodes via cartesian of index ranges, weights via iterated kron; expectation as a finite sum; induction on the number of factors.
* **C06** Discretising a mixture averages the components' expectations. `Model/Distribution.lean`: fold over mixing index; linearity of finite sums. String keys by position modelled as lookups that may fail.
* **C07** Equiprobable discretisation stays inside the support and keeps the order. `Model/Distribution.lean`: quantile function is a parameter, monotone by hypothesis.
* **C08** Truncation yields values inside the truncation bounds. `Model/Distribution.lean`: cdf/ppf are parameters with an inverse-pair contract.
* **C09** Gauss-Hermite discretisation of a multivariate normal reproduces mean and covariance. `Model/Quadrature.lean`: 1-d rules are parameters with moment contracts; product rule, affine map. Code adds the mean twice for d>=2: negation + `_partial`.
* **C10** Discretising a discrete distribution as a Markov chain is an iid chain. `Model/Distribution.lean`: direct.
* **C11** Product of Markov chains is an independent joint chain. `Model/Markov.lean`: kron on lists of lists and left fold over chains; refinement to the pair-indexed product; induction over the fold.
* **C12** Rouwenhorst chain is a stochastic matrix for every number of states. `Model/Rouwenhorst.lean`: recursion on n over an ordered field; induction.
* **C13** Rouwenhorst chain reproduces the AR(1) conditional mean and variance. `Model/Rouwenhorst.lean`: generating polynomial of row i is ((p+(1-p)X)^(n-1-i) ((1-q)+qX)^i); moments by polynomial derivative at 1.
* **C14** Tauchen chain is a stochastic matrix. `Model/Tauchen.lean`: cdf is a parameter; telescoping sum.
* **C15** Inverse-cdf draws return a valid state and only states with positive probability. `Model/Simulation.lean`: `choice` loop as structural recursion.
* **C16** Simulated Markov paths only make transitions of positive probability. `Model/Simulation.lean`: fold over draws; invariant over the path.
* **C17** The linear system used for the ergodic distribution characterises stationary distributions. `Model/Ergodic.lean`: matrices over a field indexed by `Fin (n+1)`.
* **C18** Mass placed on the grid by the trembling hand is conserved, non-negative and mean-preserving. `Model/Ergodic.lean`: 1-d and 2-d index arithmetic with floor over an ordered field with floor.
* **C19** Fischer-Burmeister residual vanishes exactly at complementarity. `Model/Complementarity.lean` over the reals with `Real.sqrt`.
* **C20** Two-sided smoothing used in time iteration is zero exactly at solutions of the complementarity problem. `Model/Complementarity.lean`: nested smoothing, all bound cases.
* **C21** Derivatives reported with the smoothed residual are the true derivatives. `Model/Complementarity.lean`: `HasDerivAt`.
* **C22** ncpsolve's smoothed residual is zero exactly at solutions of the bounded problem. `Model/Ncpsolve.lean`: code branch by storage type; `full` branch ignores bounds: negation + `_partial`.
* **C23** lmmcp's merit function is zero exactly at solutions of the mixed complementarity problem. `Model/Lmmcp.lean`: four index sets.
* **C24** Gauss elimination used in serial solves returns a solution. `Model/Gauss.lean`: row operations on matrices as functions, loop invariant: row operations preserve solutions; termination by structural loops.
* **C25** In-place inversion solves the linear system for every column. `Model/Gauss.lean`: as above; non-square B modelled as in the code.
* **C26** Sylvester equations are solved by vectorisation. `Model/Sylvester.lean`: ravel as a bijection of index pairs, kron, sum.
* **C27** Newton never reports convergence wrongly and never exceeds the iteration budget. `Model/Newton.lean`: loop with fuel = maxit; trace invariant.
* **C28** Time iteration reports convergence only when successive decision rules are within tolerance. `Model/TimeIteration.lean`: while-loop with fuel.
* **C29** Improved time iteration returns the rule at which the reported residual was computed when it converges. `Model/ImprovedTimeIteration.lean`: for-loop with break.
* **C30** The iterative Jacobian inversion sums the Neumann series. `Model/ImprovedTimeIteration.lean`: linear operator parameter; identity by induction.
* **C31** Value-function iteration stops only when values and policies have settled. `Model/ValueIteration.lean`: loop; mismatch of tolerances: negation + `_partial`.
* **C32** Policy evaluation returns values consistent with the last reported error. `Model/ValueIteration.lean`: contraction in a metric space.
* **C33** First-order perturbation satisfies the linearised equilibrium conditions. `Model/Perturbation.lean`: block matrices; QZ is a parameter with its defining identities as a contract.
* **C34** Determinacy check: a first-order solution is only returned when the Blanchard-Kahn count is right. `Model/Perturbation.lean`: decision logic on the list of eigenvalues.
* **C35** Perturbation decision rule is exact at the steady state and affine. `Model/Perturbation.lean`: direct.
* **C36** Second- and third-order perturbation terms make the residual vanish to that order. `Model/HigherOrder.lean`: multilinear derivatives contracted along a direction, truncated power series.
* **C37** Shock paths are extended by their last value. `Model/PerfectForesight.lean`: slices as list functions.
* **C38** Stacked-time residual is zero exactly at perfect-foresight paths. `Model/PerfectForesight.lean`: residual rows; equivalence.
* **C39** Stacked-time Jacobian is the derivative of the stacked residual. `Model/PerfectForesight.lean`: sequence of block writes; action on a perturbation.
* **C40** Simulated paths satisfy the decision rule and the transition equation. `Model/Simulation.lean`: loop as written (uses m[t-1], m[t] in the step to t+1). False of the code: negation + `_partial`.
* **C41** An impulse response to a zero impulse stays at the steady state. `Model/Simulation.lean`.
* **C42** VAR(1)/iid impulse responses have the closed form. `Model/Simulation.lean`.
* **C43** Calibration lookups agree: group vector, flat name, tuple. `Model/Calibration.lean`: association lists; exceptions as values.
* **C44** Symbol aliases never change what a lookup returns. `Model/Calibration.lean`: op histories.
* **C45** Model caches are coherent after any sequence of recalibrations. `Model/ModelCache.lean`: state machine, refinement to the uncached spec.
* **C46** Accepted definitions are well-founded. `Model/Definitions.lean`: checker as a fold; invariant.
* **C47** Shifting a symbol specification shifts every variable and no parameter. `Model/Factories.lean`.
* **C48** Complementarity bounds line up with the equations. `Model/Definitions.lean`.
* **C49** Exogenous declarations are accepted exactly when their order matches. `Model/Definitions.lean`: string split/strip on lists of characters.
* **C50** Memoised functions return what the function returns. `Model/Caching.lean`: cache keyed by a hash of the flattened arguments; false without injectivity: negation + `_partial`.
* **C51** The on-disk cache survives a crash during a write. `Model/Caching.lean`: crash = any prefix of the bytes of the file.
* **C52** Multiple dispatch picks a most specific applicable method whatever the registration order. `Model/Multimethod.lean`: registry with parent sets as maintained by the code.
* **C53** groot ends in a project root or restores the directory. `Model/Groot.lean`.
* **C54** HP filter solves the penalised least-squares problem. `Model/Filters.lean`: banded matrix as assembled; equality with I+lambda K'K for all T>=5; 2-d branch drops lambda.
* **C55** Finite-difference derivatives are exact on low-degree polynomials. `Model/NumDiff.lean`.
* **C56** Taylor-expansion decision rules evaluate the polynomial they describe. `Model/Taylor.lean`.
* **C57** Endogenous-grid policies respect the bounds. `Model/Egm.lean`.
* **C58** Default discretisation of product processes. `Model/Processes.lean`.
* **C59** Sparse tensor reshapes keep every entry at the same flat position. `Model/SparseTensor.lean`.
* **C60** Tensor-product filter matrices are Kronecker products. `Model/SparseTensor.lean`.
* **C61** Multidimensional discretisation of a VAR(1) reproduces its conditional mean and covariance. `Model/Rouwenhorst.lean` (`multidimDisc`): Kronecker power and linear image of the product grid. The code multiplies by the upper Cholesky factor, so the covariance is L L' instead of L' L: negation + `_partial` for diagonal Sigma
* **C62** discretize(to='mc') honours the same options as discretize(to='iid'). `Model/Distribution.lean` (`discretizeUni`). False of the code, which drops the options: negation + `_partial` for the default options
* **C63** A draw from a mixture is a draw of the selected component. `Model/Distribution.lean` (`mixtureDrawOne`). discretize needs string keys, draw needs integer keys: negation + `_partial` for integer keys
* **C64** Simulated VAR(1) paths start at the requested value and follow the autoregression around the mean. `Model/Simulation.lean`: recursion over dates. Start value false of the code (m0 + mu): negation + `_partial`; the deterministic case always raises.
* **C65** The exogenous states reported with a simulation are the simulated states. `Model/Simulation.lean`: search of the first equal row. False with repeated nodes: negation + `_partial` for distinct nodes.
* **C66** Discretising a VAR(1) as a Markov chain refuses a non-scalar autoregression matrix. `Model/Simulation.lean`: the check as written (tolerance one). False of the code: negation + `_partial`.
* **C67** Impulse responses are available for every exogenous process. `Model/Simulation.lean`: response per kind of process with errors as values. False for VAR(1): negation + `_partial` for iid.
* **C68** The seed determines the simulation. `Model/Simulation.lean`: generator state threaded explicitly. False of the code (seed set after drawing): negation + `_partial`.
* **C69** The transition matrix on the state grid is a stochastic matrix in (exogenous state, node) order. `Model/Ergodic.lean`: slices filled by the trembling hand, concatenated blocks; induction over integration nodes.
* **C70** lmmcp's analytic Jacobian is the derivative of its residual. both blocks modelled row by row; chain rule with HasDerivAt along arbitrary differentiable curves
* **C71** Discretising a domain gives the uniform grid on its box. reduction to C02 for the grid built from the domain's bounds
* **C72** The mean of a VAR(1) shifts its discretised nodes. entry by entry
* **C73** Newton solves affine systems in one step. `Model/Newton.lean`; composition of C24 and C27.
* **C74** ncpsolve without warning returns an approximate solution of the complementarity problem. `Model/Newton.lean`, `Model/Complementarity.lean`; error bound of the Fischer-Burmeister function applied twice.
* **C75** The rule returned by time iteration satisfies the equilibrium conditions up to a known error. Residual as a Finset sum; C28 loop invariant; Lipschitz estimate of a weighted average.
* **C76** The improvement step of value iteration is the Bellman operator. Decision logic: choiceValue as a Finset sum; optimality from the contract of the optimiser; negation witness for GDP processes.
* **C77** The first-order rule satisfies the linearised model in the variables of the model. Block matrices; C33 applied to the extended state; the attribute error of VAR1 as negation.
* **C78** Reported generalised eigenvalues are those of the model and predict stability. Determinants of triangular pencils; similarity with the first block; negation witness with a rotation block.
* **C79** An interpolated decision rule returns the given values at the grid nodes. Model grids, reshape, dispatch; splines as a parameter with an interpolation contract, shown satisfiable by multilinear interpolation. False for linear interpolation over several states with an unstructured exogenous grid and for uniform Cartesian exogenous grids with bounds different from the endogenous ones.
* **C80** A rule can be applied to several states at one exogenous value. Case analysis on the dispatch. False for Cartesian exogenous grids: np.concatenate raises unless there is exactly one state.
* **C81** eval_ijs evaluates the rule at the next exogenous state. Case analysis; row-wise characterisation.
* **C82** tabulate returns the rule along a segment. Model tabulate on top of the decision-rule models; false (always raises) for Cartesian exogenous grids.
* **C83** tabulate_2d returns the rule on a product of segments. False for every interpolated rule (eval_is is called with a one-dimensional state and asserts two dimensions); true for rules whose eval_is accepts a vector.
* **C84** A perfect-foresight simulation starts where the user said. pfStart/deterministicSolve with find_steady_state and newton as parameters; start state proved in the stationary cases, counterexamples otherwise
* **C85** Both complementarity solvers receive the same problem. ncpCallOf records by the callee's own parameter names what is passed
* **C86** A perfect-foresight solution can be reused as initial guess. pfTable and pfUserGuess; holds with keep_steady_state, fails by one row otherwise
* **C87** The properties of a model can be read in any order. readSymbols / readDefinitions as state transformers; holds with symbols first, fails for every non-empty block with definitions first
* **C88** set_changed(all=True) makes every property be recomputed. MState.setChanged; holds for calibration, domain, exogenous; fails for functions
* **C89** Domain bounds are ordered as the states. getDomain, domainMin, domainMax; fails when the section lists the states in another order
* **C90** Calibration values come from the user, then from definitions, then from defaults. fullCalibration; the default for values and expectations is dead code
* **C91** Equations are attached to the variable on their left-hand side. targetEquations, residualText; the left-hand side is ignored
* **C92** The on-disk cache returns what the function returns. Model the directory as a map from file names to written values, files named after `__name__` and the hash of the call; induct over the history under injectivity of names and hashes; show the failure for two functions with one name.
* **C93** The band-pass filter removes constants and linear trends. Model/Filters.lean: weights with the sine values as a parameter, `numpy.convolve` in valid mode. Proved by pairing symmetric weights.
* **C94** A converged endogenous-grid solution solves the model on the grid. Model/Egm.lean: the loop with the model functions as parameters. Invariant by induction on the remaining iterations.
* **C95** Iterating over a discretised process gives its conditional expectation. Model/Processes.lean: the interface as a record with failing accessors. Induction over the inodes.
* **C96** Simulations of iid and product processes. Model/Processes.lean: draws and children's simulations as parameters. Block arithmetic.
* **C97** Discretising a one-dimensional autoregression as a general process keeps its conditional mean. Model/Processes.lean: var1DiscretizeGdp with the grid constructor as written; failure proved, conditional mean proved for the arrays it would return.
* **C98** The Gauss-Hermite routine returns the nodes and weights of Gaussian quadrature. Model/Hermgauss: the recurrence, the Newton iterations and the loop over roots, with square root and pi^(-1/4) real and starting values arbitrary. Proved through Christoffel-Darboux, discrete orthogonality and division by the Hermite polynomial; existence of the roots by interlacing; distance to the roots from the logarithmic derivative; integrals of x^k exp(-x^2) from Mathlib's Gaussian integrals. Not proved: that the iterations converge within 100 steps to distinct roots for every order.
* **C99** Tensor products contract the dimensions they say. Arrays as shape plus entries; np.einsum with its labels and np.tensordot are modelled entry by entry; both shown equal to an explicit contraction.
* **C100** The second-order matrix equation solver returns a solution. The pencil is built as in the code, the ordered QZ is a parameter with its defining equations; the invariant-subspace argument gives the equation.
* **C101** eval_formula evaluates a formula along a series. Formulas as trees; data frames as columns; pandas shift modelled with missing values; result compared with the dated meaning of the formula.
* **C102** Steady states are stationary equilibria. scipy.optimize.root is a parameter; residuals compared with the specification of perfect-foresight paths.
* **C103** The operator reported by improved time iteration is the derivative of time iteration. Operator, matrix and matvec modelled on flat vectors; implicit differentiation of the Euler residuals; Gelfand's formula for the spectral radius; loop of time iteration from C28.
* **C104** Compiled functions compute the equations of the model. Model get_factory on syntax trees with the recipes table; semantics of the generated code as assignments; prove value, existence of definition values, and failure exactly when a name is neither an argument nor an available definition.
* **C105** The grid of a model is the one described in its options. Model YAML nodes with tags, get_address, get_type and endo_grid; prove the result for each tagged type; negations for untagged and missing grids.
* **C106** A rule given by formulas returns the values of the formulas. Reuse the model of factories; prove the value by the triangular order of the auxiliary formulas and existence of their values by iteration on ranks.
* **C107** Means under the ergodic distribution are stationary. model both ergodic_distribution methods on top of the matrices of C69; invariance (C17) against the coordinate functions, whose mean after spreading is the clamped target (C18)
* **C108** value_iteration finds the optimal value. Model/Howard composes evaluate_policy, the improvement step and the outer loop. Disc: one lookahead is monotone and discounts constants. Invariant of the outer loop: the evaluated values are nearly raised by the greedy policy, and their gap to the solution shrinks by beta in every pass up to the evaluation accuracy (policy iteration with approximate evaluation). evaluate_policy's accuracy follows from C32_converges. The default cubic interpolation is not an average of the values, so the theorem covers piecewise linear interpolation within the grid.
* **C109** lmmcp only returns solutions. Model/Lmmcp has the preprocessor, the line search, the watchdog and the main loop with directions as parameters. Invariant: Psix is the merit function at x and Psibest at xbest. The merit function bounds the natural residual through |min(a,b)| <= 12/7 |phi(a,b)|. Counterexample for more than 500 preprocessing steps: the shared counter passes kmax, the main loop is skipped, and the starting point is returned.
* **C110** time_iteration finds the equilibrium. Model time_iteration as a whole (initial guess, reshapes, bounds, solver choice, loop, trace); prove a one-step error bound for uniform P-functions with natural residuals, then induct over the iterations and use the sup distance for the a posteriori bound; negation for the argument dprocess.
* **C111** The table returned by simulate is a labelled trajectory of the model. Model/SimulateTable.lean models simulate with its four ways of driving the simulation, the loop and the assembly of the table. Props/SimulateTable.lean proves C111_table (every column against a separately stated trajectory), C111_inputs (what drives it), C111_exogenous_fails (without auxiliary variables no column for the exogenous variables) and C111_indices_fail (indices without i0 always raise).
* **C112** All solution methods impose the bounds written in the model. Model/ModelFunctions.lean models the dictionary of equations, the loop that compiles them and the lookups of the five methods. Props/ModelFunctions.lean proves C112_functions, C112_bounds, C112_unbounded and C112_alias, and the negations C112_iti_fails (no condition: KeyError) and C112_value_iteration_fails (every model: KeyError).
* **C113** Draws follow the distribution. Finite probability: a random value is the list of its outcomes with their probabilities, successive calls of numpy's generator are independent. The law of the table is given by the expectation of an arbitrary function of it. Proved for finite, equiprobable, product (given the components) and mixture (integer keys) draws, and for simulate. Bernouilli.draw ignores pi, so it follows the distribution iff pi = 1/2 (iff proved), and its integrate raises AttributeError; discretize(to='mc') of a product always raises.
* **C114** Normal expectations: the discretised and the continuous distribution agree on polynomials. Measure theory of Mathlib (gaussianReal, multivariateGaussian). integrate: the integrand is the density times f, quad exact on it. One dimension: affine image of the standard law composed with C98. Several dimensions: the nodes are the image of the product rule by the Cholesky factor; substitution of affine forms in a polynomial keeps the total degree; Fubini for monomials. The code counts the mean twice in several dimensions (C09), so the law has mean 2M: stated exactly, and equal to N(M, Sigma) when M = 0. sigma < 0 is accepted and integrate returns minus the expectation (proved).
* **C115** AR1 processes are the autoregressions they are declared to be. Model the methods of AR1 on top of the models of multidimensional_discretization and rouwenhorst. Prove the moments at all horizons by induction from the one-step moments of C61. The code uses σ as the variance and simulate, response and discretize_gdp always raise: prove the negations.
* **C116** Stable first-order solutions bring the model back to its steady state. Compose the models of perturb, BivariateTaylor, response and simulate. Show that a triangular ordered decomposition with eigenvalues above one gives a transition matrix with all complex eigenvalues below one, then use a geometric version of the local convergence theorem for iterations of differentiable maps. The code's test does not guarantee the eigenvalue condition (C34): prove that an explosive solution is returned.
* **C117** The Newton solver for linear models returns a rule that solves the model. Model the loops on Mathlib matrices with the missing global names as a parameter; prove that the code raises as it stands; with the names defined, prove the step identity by a telescoping sum, the stopping rule by induction on the iterations, and give witnesses for the remaining failures.
* **C118** Point-by-point linear algebra and the stacked Jacobian agree. Model/SerialOps.lean; loops reduced to closed forms, stacked sums split by division with remainder; the missing names of the module and the 1e-6 threshold are modelled as they stand.
* **C119** The convergence factors reported by improved time iteration. Model/RadiusJac.lean: both loops for an arbitrary linear operator in exact arithmetic, nan as none. Closed form of the loops by induction, norm bounds, powers bounded through the spectral radius lemma. The estimate fails for operators with eigenvalues of opposite sign (C119_oscillation_fails); for symmetric operators the last factor is the largest (C119_symmetric_partial).
* **C120** Printing a model shows which equations do not hold. Model/ModelDisplay.lean: the two methods and termcolor on lists of characters, with number formatting and eq2tex as parameters. Equality with a specified text by induction over equations and groups; colour codes occur iff some residual is above 1e-8. False for nan residuals (C120_nan_fails).
* **C121** Perturbation, time iteration, perfect foresight and responses agree on linear models. Combine the closed form of the rule (C33, C35, C77) with the residuals of time iteration (C75, C110), the stacked residuals (C41) and the simulation loop; exact expectation of affine functions; exact residual for iid shocks, which is nonzero when their mean is not zero.
* **C122** Progress tables are aligned, complete and silent on request. Model text as lists of characters with abstract renderings of numbers; show that the joined format and the concatenated titles are both rows of the same table; the columns of the solvers by inspection
* **C123** Improved time iteration converges near a regular solution. Model/ItiPass.lean models a pass on arrays (residuals, smoothing with bounds, solves, Neumann sums or gmres, line search) on top of the loop of Model/Loops. The smoothed residual is shown to be C1 with the derivative computed by the code; Newton steps with truncated Neumann sums contract in an adapted norm (Lemmas/NewtonConv), gmres steps are inexact Newton steps; the line search keeps the contraction. Numerical derivatives, the small solver and gmres enter by contracts.
* **C124** newton and ncpsolve converge near a regular solution. Modelled: `newton` and `serial_solve` as in C24 and C27, `SerialDifferentiableFunction` (C55) composed with them, the serial branch of `smooth` (C22) entry by entry (`Model/NewtonSerial.lean`). Proved: near the solution the step computed from an approximate Jacobian reduces the error by a small factor, so that the line search accepts the whole step and the run contracts (`Lemmas/NewtonLocal.lean`); Gaussian elimination solves the systems because the Jacobians stay invertible; differences approach the derivative by strict differentiability; at a strictly complementary point the smoothed residual is differentiable with rows of the Jacobian or unit rows (`Lemmas/NcpLocal.lean`). Exact arithmetic: the limits set by rounding are not modelled.
* **C125** time_iteration converges near a regular solution of a nonlinear model. Newton steps on F(.,x) land near the linear forecast xs + L(x - xs); adapted norm for L; the loop of C28; strict differentiability of the smoothed residuals for bounds
* **C126** Perfect foresight finds the path near a regular one. The stacked system is a map of the unknowns and the data; implicit function theorem and the local Newton estimates for families; the Jacobian assembled by det_residual is the derivative (C38). Bounds through the strict derivative of the smoothed residuals (C124).
* **C127** Bounds in perfect foresight. Floats with infinities and nan; np.max propagates nan, Python's max keeps a leading nan. Exact characterisation of the refusal, witness for bounds frozen at the guess, positive result for constant bounds from C126.
* **C128** Solvers leave the rules they are given unchanged. Model/EvalHeap.lean: rule objects as cells of a store, evaluate_policy and time_iteration as they read and write it; refinement to the loops of C28 and C32 plus frame lemmas.
* **C129** The trace of time_iteration holds all the rules gone through. Model/EvalHeap.lean, with copy.deepcopy allocating a new cell; explicit form of the store after n iterations by induction.
* **C130** Starting again from a solution stops at once. From the loops of Model/Loops and Model/Newton; time_iteration needs updates which do not move rules apart, counterexample otherwise.
* **C131** A solution can be handed to another method. Model/HandOver.lean: rule objects by the methods they have; what each solver does first with its argument.
* **C132** ergodic_distribution answers exactly for chains with one recurrent class, and its answer gives long-run frequencies. Perron-Frobenius style arguments over ordered fields: kernel of the linear system by positive and negative parts, invariant distributions of closed sets of states by linear algebra, frequencies by the inverse of the system, convergence by Doeblin's contraction; exact weights from the trembling hand
* **C133** The default impulse is one standard deviation of the named shock. model response with the attributes of every process class; characterise the path for a given impulse, the default for Normal and UNormal, and which classes raise
* **C134** Infinite values and nan are never reported as convergence. Model/NanLoops.lean: the loops on arrays of floats with infinities and nan, everything inside a pass being an arbitrary function. Lemmas on np.max by induction, invariants of the loops by induction; flags are equivalent to a specification on the entries.
* **C135** Interrupted computations can be resumed. Props/Resume.lean on the existing models: induction over the loops with the budget split, the simulation loop dropped at a date, and the tail of a stacked path through C38. That the rule handed over is read back exactly at the nodes is C79/C131.
* **C136** The order of declarations does not matter. Props/Relabel.lean: a relation between arrays and functions in two orders; uniqueness of the solution of the linear systems (C24) makes the Newton step equivariant although the elimination pivots differently; induction over backsteps, inner and outer iterations; the negation for the bounds check of deterministic_solve.
* **C137** The first-order solution is the saddle path of the linearised model. LinearPath and BoundedSeq are stated without reference to the algorithm; a path is written in the coordinates of the decomposition, the unstable block is solved backwards (row by row for triangular blocks, with powers for blocks with complex pairs), the stable one forwards.
* **C138** clear_cache forgets the stored values of one function and only those. The command line is modelled by the shell's pattern matching on the names of files; names of ASCII identifiers are shown to match their own files only, the invariant of C92 then restarts from the cleared directory; the name <lambda> is modelled as the two redirections that the shell sees.
* **C139** Units of measurement do not matter. Model/Newton.lean, Model/Rouwenhorst.lean, Model/Distribution.lean, Model/Cartesian.lean and C137 are reused; Lemmas/Units.lean proves equivariance of the Newton step (uniqueness of the solution of a nonsingular system), uniqueness of the Cholesky factor and how it scales; Props/Units.lean has the theorems, and the witnesses where units matter.
* **C140** Points solved together are solved as if alone. Model/Newton.lean; the batch norm is the maximum of the norms of the points, the linear systems are solved point by point; if all full steps are accepted the iterates coincide (induction over iterations), the counts and warnings follow; a witness with two points where backtracking spoils the easy one.
* **C141** Operators on grids. AnyGrid, an inductive type of the classes; theorems by cases, product sums from C04.
* **C142** Complementarity conditions are read as written. texts as lists of characters; the greedy regular expression is the split at the last two '<='; round trip and acceptance proved by induction on the text; one-sided forms shown to raise.
* **C143** Symmetric shocks stay symmetric. symmetry stated as equality of reversed and mirrored lists; linspace, midpoints, cartesian products and the Rouwenhorst recursion shown to commute with reversal; consequences for expectations proved.
* **C144** Converged improved time iteration respects the bounds of controls up to three tolerances. Uses the loop contract C29 and the comparison of natural and Fischer-Burmeister residuals; the cut-off of slacks at 100000 is handled by the bound on the tolerance.
* **C145** The value of a policy is the expected discounted sum of utilities. Sum over Fin k -> state paths defined independently; recursion on the first step; C32 for the loop; geometric series for the limit.
* **C146** Plots of impulse responses show every variable of every simulation. A figure is modelled as the list of its panels; the positive theorem needs 2 to 12 variables and as many line options as simulations; the two failures are proved for all inputs.
* **C147** Functions with several methods are called as they are declared. get_types as the generator that pops annotations; C52 for dispatch; the failure with named arguments proved for every list of declarations.
* **C148** The scale of utility does not matter, and better opportunities are worth more. Simulation between two runs of the loops of Model/Loops.lean and Model/Howard.lean, related by v' = a*v + c/(1-beta); the optimum by uniqueness of the solution of the Bellman equation (C108) and monotonicity of the discounted operator. Absolute tolerances break the claim for a != 1 with a fixed tolerance: witness.
* **C149** Risk enters perturbation solutions linearly, as a shift of decisions. superposition of the linear systems of C36, for the solution at two covariance matrices and at their combination
* **C150** A singular Jacobian is reported, never stepped over. simulation of the loop with exceptions by the loop of C27, uniqueness of solutions of regular systems (C24)
* **C151** The horizon of a perfect-foresight simulation matters only near its end. Deviations from the rule in the coordinates of the Schur decomposition obey a backward recursion with matrix T22^-1 S22; spectral radius below one gives geometric decay; states by variation of constants. Counterexample with one state and two controls.
* **C152** Linear interpolation of decision rules has the properties that the solution methods rely on. Model: DecisionRule.init and evalIJS (Model/DecisionRule.lean) composed as ruleInterp; eval_linear, outside the repository, has the contract Splines.Multilinear (multilinear interpolation with linear extrapolation). Proved by induction over the dimensions: the interpolant is a sum over all nodes with product weights. The theorems have the form of the hypotheses on interpolation in C103, C108, C121, C123, C136 and C145 (C152_policy_value_partial), so that these hold with linear interpolation. The claim on bounds is false outside the box (C152_outside_fails: at every such state), hence partial.
* **C153** Derivatives of complementarity problems are numbers wherever the functions of the model are. Model/NcpNan.lean: the same lines as in Complementarity.lean, on reals with infinities and nan. Exact characterisation of the points where 0/0 is computed and agreement with the real model elsewhere; then an invariant of newton (a nan at a bounded unknown stays).
* **C154** Models that satisfy the Blanchard-Kahn conditions get their saddle path, with real or complex roots. Model of select with numpy's ordering of complex numbers and of the sorting contract of ordqz; characteristic polynomial over the complex numbers, block determinants and a count of roots show that the first block is exactly the stable one whenever select tells stable from unstable roots; real roots always qualify, complex ones only if the real part of the square passes the test: witness with a complex pair where the code returns a non-solution.
* **C155** Small changes of the calibration change the perturbation rule and its paths little. The pencil is deflated at the rule, det(zA - B) = det(z - P) det(-(M + z f_X)); the Blanchard-Kahn conditions say that the second factor has no root in the closed disc, an open condition by compactness. The Sylvester operator of the derivative of the equation of the rule is injective because powers of M^-1 f_X and P vanish, so the implicit function theorem gives a stable solution of nearby models, which is the one returned by uniqueness of the saddle path (C137, C154).
* **C156** Small changes of preferences, discounting, transitions or probabilities change the values found and the quality of decisions little. The difference of the two look-ahead functions is split into felicity, discounting, probabilities and states; discounted monotone operators turn it into a bound on the solutions of the Bellman equations; the a-posteriori bound of C108 carries it over to the results of value_iteration.
* **C157** Small changes of the model change the rule of time_iteration little. the equilibrium of one model has a small natural residual in the other; the error bound of C110 and its contraction then bound the distance; Props/RuleSensitivity.lean
* **C158** Solutions found on a grid approach the true ones as the grid is refined. weights of multilinear interpolation (C152): mean absolute deviation and variance in each dimension computed from the cell containing the point; a true rule has small residuals on the grid, so the bound of C157 on Euler errors applies; Bellman argument of C156 for values
* **C159** Errors of rules carry over in proportion to simulations and to ergodic distributions. simLoop by induction on the date (states contract, controls and transitions add one error per period); the hat weights of a node vary by at most two grid steps in sum per dimension, so the rows of the transition matrix move by at most 2 sum d_k; perturbation bound for stationary distributions by expanding the difference over pairs of starting states.
* **C160** The first-order rule is tangent to the solution of the nonlinear model. Differentiate the equilibrium equations along phi at the steady state (chain rule): the derivative of phi is a linear rule that satisfies the linearised equations; derivatives of the iterated transition are powers bounded by the stability constant, so its paths are bounded, and C137 leaves only the returned matrix. The quadratic bound is the mean value inequality; paths by differentiating iterates.
* **C161** Where perturb returns a rule, the nonlinear model is determinate near the steady state and the rule approximates its one stable path. implicit function theorem in the space of bounded sequences: the linearised path operator is invertible by the ordered decomposition (stable block forward, unstable block backward), which gives the path, its uniqueness and its derivative in the initial state; the tangent and the distance follow from C160
* **C162** The second-order rule of state_perturb agrees with smooth stable solutions up to second order. expansions of f, g and phi along straight lines give formal power series; the residual of a solution vanishes to third order; C160 gives the first-order terms, C36_second_unique the second-order ones; regularity follows because a solution of the homogeneous Sylvester equation gives bounded paths of the linear model that start at zero
* **C163** Equation errors of the second-order rule are negligible next to squared distance and risk. Substitution of second-order expansions into the equations; the second-order conditions solved by state_perturb cancel all terms up to order two.

## Disagreements between the code and the property

Each item is proved as a negation with a concrete witness; the `_partial` theorem beside it gives conditions under which the property holds.

* **C01** mixed dtypes: `cartesian` allocates the output with the dtype of the first array, so later arrays of a wider dtype are truncated (`C01_mixed_dtype_fails`).
* **C03** `UniformCartesianGrid.__add__` passes the bounds of the first grid twice (`C03_uniform_add_fails`).
* **C06** `Mixture.discretize` looks components up by the string of the *position*: components given in another order, or with integer keys, are mismatched or raise `KeyError`.
* **C09** `Normal.discretize` adds `mu` to nodes that `gauss_hermite_nodes` has already shifted when d>=2 (`C09_mean_fails`); columns of the covariance that merely sum to zero are treated as degenerate (`C09_zero_sum_column_fails`).
* **C61** `multidimensional_discretization` uses `scipy.linalg.cholesky` (upper by default) as if it were the lower factor: the conditional covariance is `L Lᵀ`, not `Σ = Lᵀ L` (`C61_covariance_fails`).
* **C62** `discretize(to='mc', ...)` ignores `N`, `method` and `mass_point` (`C62_mc_options_fail`).
* **C63** `Mixture.draw` compares drawn integers with the dictionary keys, `Mixture.discretize` looks up string keys: with string keys every draw is zero, with integer keys discretisation raises (`C63_no_key_kind_serves_both`).
* **C40** `simulate` evaluates the transition to date t+1 with the exogenous values of dates t-1 and t (`dolo/algos/simulations.py:184-202`): shocks affect states one date late.
* **C64** `VAR1.simulate` starts at m0 + mu instead of m0, and `stochastic=False` always raises IndexError.
* **C65** `find_index` returns the first equal node; with repeated nodes the reported (and used) state is not the simulated one.
* **C66** the scalar check in `VAR1.discretize_mc` uses `<= 1` as tolerance: non-scalar matrices are discretised as scalar ones.
* **C67** `response` calls `expand_dims` on the result of `process.response`, which is a numpy array for VAR1: AttributeError.
* **C68** `simulate` sets the seed after drawing the process: the first call depends on earlier random numbers.
* C21: in `improved_time_iteration.smooth` a slack crossing 100000 makes the residual jump (from the Fischer-Burmeister value to the raw residual), so there is no derivative there; the theorem excludes that point (`C21_threshold_jump`). `fb.smooth` receives `df`, computes `dv` and drops it.
* C22: `ncpsolve.smooth` with `jactype="full"` returns its arguments, so the bounds are ignored (`C22_ncpsolve_full_fails`).
* C23: in `lmmcp` the index set uses strict comparisons with 1e10 on both sides; with an upper bound of exactly 1e10 the index is treated as free and its lower bound is ignored (`C23_lmmcp_big_fails`).
* **C25** `invert` (dolo/algos/invert.py): the row operations on a matrix `B` loop over `A.shape[0]` columns. A matrix with more columns than rows is only partly solved, one with fewer columns is indexed out of bounds. The library's callers pass square blocks.
* **C27** `newton` accepts the last of thirty trial steps even when none decreases the residual (C27_may_increase), and warns "Did not converge" whenever the budget is used up, without looking at the residual of the last point (C27_warns_at_solution). Neither contradicts the property as stated.
* C31: `value_iteration` stops with the caller's `tol` for values but reports and flags convergence with hard-coded `tol_x = 1e-5`, `tol_v = 1e-7`; with the default `tol = 1e-6` a run that stopped on its tolerance can be flagged as not converged (`C31_flag_ignores_tol`).
* C76: `choice_value` evaluates the continuation value with `drv(I_ms, S)`, i.e. at the exogenous *node* number I_ms, while the probability and the future exogenous value are those of the I_ms-th *integration node*; for GDP-type processes these differ (`C76_gdp_fails`).
* C28: `time_iteration` leaves the loop when err <= tol but sets converged only if err < tol (`C28_unflagged_stop`); with maxit = 0 or tol >= 10 it raises NameError.
* C34: `approximate_1st_order` (and `state_perturb`) test `max(eigval[:n_s]) >= 1 and min(eigval[n_s:]) < 1`; Blanchard-Kahn needs `min(...) >= 1` and `max(...) < 1`. Models with too few or too many stable eigenvalues are accepted silently (`C34_fails`, `C34_fails_indeterminate`), and `perturb` always reports stable = determined = unique = True. When the test fails, the list is sorted in increasing order so that `ev_a > ev_b` is impossible, and the exception class raised is not defined (NameError).
* C77: `get_derivatives` reads `process.rho`, but `VAR1.__init__` only sets `ρ`: perturb raises AttributeError for every VAR1 (`C77_var1_raises`).
* C78: `qzordered` takes `|diag(S)/diag(T)|` as eigenvalues; for complex pairs the real Schur form has 2x2 blocks whose diagonal ratios are unrelated to the moduli (`C78_complex_pair_fails`: stable rotation reported as eigenvalues 0, and the model is rejected).
* C36: `state_perturb` at order three is wrong. Line 287 has the factor 2 in front of `sdot(g_sx, X_ss)` where 3 is needed (`C36_third_fails`: `x + s' = s`, `s' = s x`). With two or more states `dot(X_s, V2_3)` on line 285 contracts the second instead of the first dimension of `V2_3` (`C36_third_fails_two_states`).
* C79: `get_coefficients` is registered twice for an unstructured exogenous grid with linear interpolation; the second registration (lines 342-350) replaces the first and does not reshape the values, so that `eval_linear` gets an array of shape (N, n_x) for a grid with several dimensions. For a uniform Cartesian exogenous grid, `exo_grid + endo_grid` (C03) drops the bounds of the endogenous grid, so the rule is evaluated on the wrong box.
* C80: with a Cartesian exogenous grid, a call with one exogenous value (or a node number) and N states raises ValueError for every N other than 1 (`np.concatenate` of a one-row and an N-row array). As a consequence `time_iteration` cannot be warm-started with such a rule: both attempts (lines 127-134) raise.
* C82: `tabulate` passes a one-dimensional `m0` to `eval_ms`, which asserts two dimensions for a Cartesian exogenous grid: it always raises there.
* C83: `tabulate_2d` passes a one-dimensional state to `eval_is`; every method of `DecisionRule` asserts two dimensions, so it never returns for an interpolated rule (nor for a perturbation rule, which has no `eval_is`).
* C37: `_shocks_to_epsilons` drops the first row of an array input (lines 47-48), a dict with the same series keeps it; the two documented input forms give paths one period apart.
* C84: `deterministic_solve` computes `s1 = transition(m0, s0, x0, m1)` (lines 170 and 183) and makes it the state of date 0. A user-supplied `s0` is therefore not the first state, and with a shock path the exogenous value of date 1 enters the states of both date 0 and date 1.
* C85: line 249 calls `lmmcp(fun, Dfun, lower, upper, guess)` while `lmmcp` takes `(fun, Dfun, x0, lb, ub)`.
* C86: lines 202 drops the first row of any initial guess, also when the table was made without the steady-state row; also `newton` on line 273 ignores `tol`, `maxit` and `verbose` (not modelled).
* C44: `LoosyDict` does not override `__setitem__` and `__contains__`: a value assigned through an alias is never returned by a lookup, and `in` ignores aliases.
* C46: a definition may have the name of a parameter (only names of variables are checked); the definition is then accepted.
* C87: reading `definitions` before `symbols` on a model with empty caches always raises "already defined" when there is a definition: line 138 reads `self.symbols`, which registers the auxiliaries before they are checked. Reading a second time works.
* C88: `set_changed(all=True)` does not reset `__functions__`; the old compiled functions are returned after the equations have changed.
* C89: `get_domain` keeps the key order of the domain section and never reorders by states; `endo_grid` and `CartesianDomain.discretize` use these vectors as if ordered by states.
* C90: the defaults of 0 for `values` and `expectations` (line 308-309) are dead code, since these groups are skipped on line 334.
* C91: `get_factory` takes the text after the first equal sign and zips it with the target symbols; the left-hand side is never compared with the symbol.
* **C50** `memoized` keys its table by a hash of the arguments, not the arguments: `hash(-1) == hash(-2)`, and arrays are hashed by their bytes only, so arrays of different shapes collide and the second call returns the first call's value (`C50_collisions_fails`). The fallback for unhashable arguments catches TypeError only around the table lookup, while the hash is computed before the `try`, so the TypeError reaches the caller (`C50_unhashable_fails`).
* **C51** `cachedondisk` writes the file in place; after a crash during the write every later call with those arguments reads the truncated file and raises (`C51_crash_fails`).
* **C52** With signatures of different lengths, `__setitem__` only relinks the ancestors it finds, and a more specific signature may be passed over; the result then depends on the order of registration (`C52_mixed_lengths_fails`).
* **C53** If the given path does not exist under the project (or a directory cannot be listed), `groot` raises after having changed the working directory (`C53_missing_path_fails`).
* **C92** The file of `cachedondisk` is named after `__name__` and the hash only: two functions of the same name read each other's results (`C92_same_name_fails`).
* C54: `hp_filter` of a two-dimensional array calls itself on each series without passing `lam` (filters.py 41), so every series is filtered with the default 1600 (`C54_two_dim_fails`); series of fewer than four observations raise (`C54_short_fails`).
* C55: `compiler/misc.py` `numdiff` takes the number of points for the number of values, so it raises unless they agree or the value is scalar (`C55_numdiff_fails`).
* C57: `egm` imposes the bounds at the grid nodes only, before a cubic interpolation, so the policy can leave the bounds between nodes (`C57_between_nodes_fails`); after one iteration it returns the initial policy as it is (`C57_single_iteration_fails`).
* C94: `egm` sets the error to one in the first two iterations, so a tolerance above one reports convergence at once (`C94_large_tolerance_fails`); for a product of iid processes, which is not itself an `IIDProcess`, the second iteration indexes policies by tomorrow's node and raises (`C94_iid_product_fails`).
* C58: a product of a single Markov chain or autoregression cannot be discretised, because `tensor_markov` wants at least two chains (`C58_single_fails`); models that declare their exogenous processes by name always build a product, even of one. Nested products raise (`C58_nested_fails`), and an option shared by all children is refused when one is a Markov chain (`C58_options`).
* C96: `ConstantProcess` and `AR1` cannot be simulated (`C96_constant_ar1_fails`), products refuse an initial value, and `IIDProcess.simulate` ignores `stochastic`.
* C97: `discretize_gdp` calls `CartesianGrid([min], [max], [n])`, a class without constructor, so every call raises (`C97_always_fails`); the mean of the process is not used either.
* C59: `SparseTensor.as_spmatrix` calls `scipy.sparse.coo_matrix` without a shape, so the shape comes from the stored entries: a tensor of shape (2, 2) with a single entry at (0, 0) gives a 1 × 1 matrix (`C59_matrix_shape_fails`). The Jacobians store their last diagonal entry, so they are not affected.
* C99: `mdot(M)` without matrices takes `M_syms[:-0]`, which is empty, and sums all entries (`C99_empty_fails`); above 26 labels `mdot` raises ValueError.
* C100: `second_order_solver` never uses `eigmax`: an explosive solution is returned when there are too few stable roots (`C100_unstable_fails`); when a complex pair straddles the middle of the real ordered Schur form the matrix returned is not a solution (`C100_complex_fails`).
* C101: `eval_formula` uses `df.shift(h)`, which moves values forward, so `k(1)` is the previous value of k (`C101_lead_fails`), contrary to the dating convention of models.
* C102: `find_steady_state` does not read `sol.success`; a point is returned also when no steady state exists (`C102_unchecked_fails`).
* C104: definitions are only made available at dates where both states and controls are arguments (factories.py 83-86), so a bound (`arbitrage_lb/ub`), `half_transition`, `direct_response(_egm)` or `reverse_state` equation that uses a definition can not be evaluated, even if the definition only depends on their arguments; a definition with a lag or a lead passes the checks (C46) but no function with definitions can then be evaluated, even if it does not use it.
* C105: `get_type` returns the tag of the YAML node, which is `tag:yaml.org,2002:map` for a mapping without tag, so `options: {grid: {type: Cartesian}}` is refused as an unknown type; without `options:grid` it raises AttributeError instead of the documented message, and the lookup of `options:grid:type` and `options:grid_type` is never reached.
* C106: in `CustomDR` a formula may be named `y(0)`, but then `y(0)` and not `y` is added to the names of variables, so other formulas can not use `y`.
* C108: `value_iteration` accepts `maxit_howard` and never reads it; every pass evaluates the policy with the defaults of `evaluate_policy` (tolerance 1e-8, 2000 iterations).
* C109: `lmmcp` counts preprocessing steps and main iterations with one counter and raises only if it is exactly 500 at the end. With `presteps` above 500 a failed preprocessor is followed by no main iteration at all, and the starting point is returned without any warning (`C109_presteps_fails`). With `verbose=False` a solution found by the preprocessor is not returned there (the `return` is inside `if verbose`), but the main loop is skipped, so the result is the same (`C109_verbose`).
* C110: `time_iteration(model, dprocess=...)` computes the rule at the nodes of the process given, but builds the rule on the exogenous grid of `model.discretize()` (time_iteration.py:100-118): the grid of the rule returned is not the one of the process (`C110_process_fails`).
* C111: the table of `simulate` has columns for the exogenous variables only if the model has auxiliary variables; a driving process of indices raises unless `i0` is given, although the value computed with it is overwritten.
* C112: `value_iteration` reads `model.functions["controls_lb"]`, but `recipes.yaml` has no such type of equations: a model that declares it can not be compiled, and any other does not have it, so `value_iteration` raises on every model.  (C31, C76 and C108 are about the loop, for given bound functions.)  `improved_time_iteration` and `egm` raise `KeyError` on models without complementarity conditions.
* C113: `Bernouilli.draw` ignores its parameter: it draws 0 and 1 with equal probability (`C113_bernouilli_partial`: it follows the distribution iff π = 1/2). `Bernouilli.integrate` raises `AttributeError`, as the constructor sets no `n`. `ProductDistribution.discretize(to="mc")` always raises.
* C114: in two or more dimensions the discretisation of `Normal(M, Sigma)` is exact for polynomials under the law with mean `2 M` instead of `M` (same cause as C09). `UNormal` accepts a negative `σ`: draws and discretisation use `σ²`, but `integrate` returns minus the expectation (`C114_integrate_negative_fails`).
* C115: `AR1` reads `σ` as a variance (`Sigma = np.array([[self.σ]])`), so the chain has conditional variance σ instead of σ². `AR1.simulate` always raises (`μ` is not defined there), so do `AR1.response` (a number is used as a matrix) and `AR1.discretize_gdp` (a number has no shape).
* C116: because of the inverted eigenvalue test (C34), `perturb` returns explosive rules; the response to an impulse then grows without bound (`C116_explosive_fails`).
* C55: `numdiff2` (serial_operations.py 37-63) indexes with a list holding an `Ellipsis` (line 60, `obj = tuple(obj)`, is commented out), which numpy >= 2 rejects: it raises IndexError at every non-empty point (`C55_numdiff2_fails`).
* C99: `multitake` (tensor.py 58-63) with scalar positions drops each axis as it goes, so later axis numbers refer to other axes (`C99_multitake_scalars_fails`).
* C117: `newtonator`, `spectral_radius` (`n_x`, `n_s`) and `classical_perturbation` (`row_stack`, `column_stack`, `eye`) of bruteforce_lib.py read names that are not defined in the module: they raise on every call (`C117_raises`). With the names defined, `newtonator` returns without any sign of failure after 1000 iterations (`C117_unsolved_fails`), and `spectral_radius` takes `abs(ddx.max())` for `abs(ddx).max()` (`C117_radius_sign_fails`).
* C118: `SmartJacobian.jac_2` (bruteforce_lib.py 384-436) reads names the module does not define, so that `jac`, `solve`, `solve_sp` and `solve_smart` always raise `NameError`; with the names supplied, products below 1e-6 are set to zero whatever the scale of the model, and the matrix returned is not the Jacobian (`C118_small_entries_fails`).
* C119: `radius_jac` is read as an estimate of the spectral radius, but for an operator with eigenvalues 2 and -2 its last factor is different from 2 after every number of passes and for almost every start (`C119_oscillation_fails`). `verbose = True` is also set inside, so the argument has no effect.
* C120: a residual that is `nan` is printed without red by `Model.__str__` and `_repr_html_` (`C120_nan_fails`), so a calibration at which an equation can not even be evaluated looks like a steady state.
* C121: with iid shocks the discretized process has the single node zero whatever the calibrated mean of the shocks (`processes.py:206-231`), while `perturb` linearises around the calibrated value.  When the mean is not zero and today's shock enters the arbitrage or transition equations, `time_iteration` and `perturb` solve different models: `C121_iid_residuals` gives the exact residual and `C121_nonzero_mean_fails` an instance where it is minus one everywhere.
* C122: the table printed by improved_time_iteration has titles (Time_residuals, Time_inversion, Time_search) longer than its columns, so that the line of titles is 114 characters long in a table of 102; egm prints `it, i_m, i_M` for every pair of nodes whatever verbose.
* **C125** `time_iteration` does not pass its tolerance to the inner solver: `newton` stops at residuals below `1e-6` (`ncpsolve` at `1e-8`) whatever `tol`. When the residuals of the current rule are below that, the inner solver returns the rule unchanged, the error is zero and convergence is reported even for `tol=1e-12` (`C125_inner_tolerance`, `C125_tolerance_ignored`).
* C126: perfect_foresight.py 273 calls newton without tol, maxit and verbose: without constraints (or with ignore_constraints) the arguments of deterministic_solve have no effect, the solver stops at 1e-6 or after 5 steps whatever was asked. C126_tolerance_ignored gives a model for which every call returns the control 5e-7 although the only path has the control 0.
* C127: perfect_foresight.py 207-220: the bounds are evaluated at the states of the initial guess only; bounds depending on the state are accepted when the guess is constant and then used as if the state never moved (C127_guess_bounds). The test uses Python's max over an array whose first entry is nan when the first control has no bound (inf - inf), so that nothing is ever refused in that case (C127_first_control_free).
* C127: under bounds the terminal residual x[T-1] - x[T] enters the complementarity system with the sign of the arbitrage equations; the condition then holds also when the last control sits at either of its bounds (C127_terminal_condition), so that the constrained system has spurious solutions.
* C128: `evaluate_policy(model, mdr, dr0=r)` uses the object `r` as its own (value_iteration.py:278-279, 331): `r` is overwritten and is what is returned, so two evaluations started from the same rule return the same object and the first value function is lost (C128_first_result_lost, C128_results_shared). If the policy itself is given as `dr0` it is overwritten during its evaluation (C128_policy_is_dr0). A policy given as an array, for which line 286 has a branch, raises AttributeError in `update_value` (C128_array_policy).
* C130: a converged result of `time_iteration` says that the last two rules are close, not that the next one is: started again from it, the solver may leave it and converge elsewhere (C130_time_iteration_fails); nonexpansive updates exclude this.
* C131: only `time_iteration` (and the simulation tools) unwrap the result objects that the solvers return by default; `improved_time_iteration`, `evaluate_policy` and `egm` fail on them (C131_results_refused). Rules of `perturb`, Taylor expansions and custom rules have no `eval_is` and can only start `time_iteration` (C131_rules_without_index); only a DecisionRule can be evaluated by `evaluate_policy` (C131_evaluate_policy, C131_no_eval_ijs). A Python function of the exogenous value is first called with the number of the node, and if it accepts it, silently misread (C131_function_misread).
* C133: without an impulse, response uses the square root of the attribute σ when there is no Σ; for UNormal σ is the standard deviation, so the impulse is √σ (rbc.yaml: ten standard deviations). Proved in C133_unormal_fails.
* C41/C67: ProductProcess has no response method, so response raises for every model whose exogenous section is keyed by shock names (C133_no_response_fails); responses of independent processes are computed around zero, not around the mean (C41_mean_fails).
* C134: `while err > tol` in time_iteration.py 192 and value_iteration.py 325 ends at the first `nan`; without `details` the caller gets a rule (or values) made of `nan` after one pass and no exception (`C134_silent_fails`, `C134_evaluate_fails`). improved_time_iteration in the same situation uses up all its passes (`C134_improved_nan`). In `newton` a residual `nan` at the current point makes every trial point look worse, even a solution, so the shortest step is taken (`C134_newton_nan_start_fails`). `egm` with a tolerance above one sets `a_converged` after its first pass (`C134_egm_large_tolerance_fails`).
* C135: `evaluate_policy` returns the values of the pass before the last, so resuming from its solution repeats a pass, and with `maxit=1` never moves (`C135_evaluate_policy_fails`). `simulate` started again at a date uses the exogenous value of this date twice, where the uninterrupted run uses the one of the date before (`C135_simulate_fails`, a consequence of the delay of C40).
* C136: deterministic_solve accepts or refuses a model with bounds that vary along the guess depending on the order in which the controls are listed (Python's max over a list that starts with nan); see C127.
* C138: `clear_cache('<lambda>')` hands `rm -rf .cache/<lambda>.*.pickle` to the shell, which reads two redirections: without a file `lambda` nothing is removed, with one the whole directory `.cache` goes, after which cached functions raise `FileNotFoundError`.
* C139: three places where the answer depends on units. (1) `newton` compares residuals with an absolute tolerance: multiplying an equation by 1e-9 makes it return the starting point without warning (`C139_newton_tolerance_fails`). (2) `gauss_hermite_nodes` tests `sigma.sum(axis=0) == 0` to find degenerate shocks, so a shock with variance 1 and covariance -1 with another is replaced by a constant, unless the other is measured in other units (`C139_normal_fails`). (3) `multidimensional_discretization` multiplies by the upper Cholesky factor, so measuring one variable in halves changes the nodes of another variable (`C139_var1_fails`).
* C140: `newton` with several points uses one step length for all of them (the maximum over points of the residuals must fall). A point that is solved in one step alone is left far from its solution when it shares the batch with a point that needs backtracking (`C140_newton_fails`).
* C141: `g1 * g2` of two Cartesian grids always raises TypeError (`CartesianGrid` has no constructor taking bounds); `g + EmptyGrid()` and `g * EmptyGrid()` raise although the empty grid is neutral on the left; `PointGrid` says `n_nodes = 1` but `node(0)` is `None`.
* C142: the documentation of `decode_complementarity` lists `a<=expr` and `expr<=a`; every condition with a single `<=` is rejected (`C142_one_bound_fails`).
* C143: a multivariate normal with nonzero mean is discretised symmetrically about twice its mean (same defect as C09); points at the left (right) ends of the cells are mirror images of the right (left) ends, not of themselves.
* **C146** (plots of responses): `plot_irfs` fails for one variable, since `plt.subplots(1, 1)` does not return an array (`C146_one_variable_fails`); with default options it fails when there are more simulations than variables, since `line_options` has one entry per variable and is read by simulation (`C146_many_simulations_fails`).
* **C147** (declared methods): dispatch looks at positional arguments only, so annotated parameters cannot be given by name: `ergodic_distribution(model, dr=dr)` raises `DispatchError` (`C147_keyword_fails`).
* C148: the tolerances of `evaluate_policy` (1e-8) and `value_iteration` are absolute. A model whose utility is of order 1e-9 is "solved" by the initial values after one iteration (`C148_tolerance_fails`).
* **C150**: a point that is already solved makes `newton` raise. All points take part in every step until the largest residual is below the tolerance, and `serial_solve` raises if one Jacobian is singular, even if the residual of that point is zero. Witness: `z**2 = 0` and `z = 1` from `z = 0`, each solved alone (`C150_solved_point_fails`).
* C151: `perturb` accepts some indeterminate models; the perfect-foresight path of such a model never approaches the rule, the distance of the first control from it grows with the horizon.
* C152: outside the box of the grid linear interpolation extrapolates: at every state outside, there are values between 0 and 1 at all nodes with an interpolated value outside [0, 1] (C152_outside_fails). So bounds on controls hold between the nodes but not outside the grid, and the average property used for the convergence of value iteration (C108) needs transitions which stay in the box.
* C153: ncpsolve.py 51-61 and improved_time_iteration.py 51-52 divide by `sqrt(r**2 + d**2)` without a test for zero (fb.py has one). Where a control is at a bound and its equation holds, the row of the Jacobian is `nan` (`C153_ncpsolve`, `C153_improved`); `newton` then returns `nan` with a warning (`C153_ncpsolve_fails`). The default guess of deterministic_solve is such a point whenever a calibrated control equals a bound, because the terminal condition holds there; in floats exactly so at least for the bound 0 (`C153_perfect_foresight_fails`).
* C154: the function `select` of `qzordered` (dolo/numeric/extern/qz.py:13-14) tests `alpha**2 > crit*beta**2`; for complex `alpha` numpy compares the real part of the square first, so stable complex pairs are not moved to the top-left unless `a^2 - b^2` exceeds the criterion. A model that satisfies the Blanchard-Kahn conditions may then get a matrix that does not solve its equations, without a warning (C154_complex_fails).
