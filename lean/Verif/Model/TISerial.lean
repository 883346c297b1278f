import Verif.Model.TimeIteration
import Verif.Model.NewtonSerial

/-!
# The inner solvers of time_iteration

`time_iteration` (`dolo/algos/time_iteration.py:204-219`) wraps the residual function in
`SerialDifferentiableFunction` and hands it to `newton` or `ncpsolve` with the default tolerances of these two
(`1e-6` and `1e-8`, `dolo/numeric/optimize/newton.py:84`, `ncpsolve.py:10-12`) and `maxit=inner_maxit`.
-/

namespace Dolo

/-- The residual function, which takes and returns arrays with `R` rows and `n` columns, on lists of rows. -/
def onRows {K : Type} [Field K] (R n : ℕ) (fn : (ℕ → ℕ → K) → ℕ → ℕ → K) (X : List (List K)) : List (List K) :=
  rowsOf R n (fn (rowAt X))

/-- The two inner solvers, lines 204-219: `dfn = SerialDifferentiableFunction(fn)` with the step `eps`, then
`newton(dfn, controls_0, maxit=inner_maxit)` or `ncpsolve(dfn, lb, ub, controls_0, maxit=inner_maxit)`.  The tolerances
are `newtonTol` and `ncpTol`. -/
noncomputable def tiSolvers (R n : ℕ) (eps newtonTol ncpTol : ℝ) (inner_maxit : ℕ) : TISolvers ℝ where
  newton fn x := (newton (serialProblem R n (diffFun R n (onRows R n fn) eps)) newtonTol inner_maxit x).x
  ncpsolve fn lb ub x := (serialNcpsolve R n (diffFun R n (onRows R n fn) eps) lb ub ncpTol inner_maxit x).x

end Dolo
