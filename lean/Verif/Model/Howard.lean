import Verif.Model.Loops

/-!
# `value_iteration`: the whole algorithm

`dolo/algos/value_iteration.py:23-206`.  `Verif.Model.Loops` models the outer loop, the improvement at one grid
point and `evaluate_policy`; here they are put together.  The rule `mdrv` is represented by the table of values
last set on it; `evalI v I S k` is component `k` of `mdrv(I, S)` and `evalIJS v i j S k` that of
`mdrv.eval_ijs(i, j, S)`, for the rule with values `v`.

Simplified: `mdrv.eval_is(i, s)` at the nodes of the grid returns the values set there (lines 127 and 299), and
`mdr.eval_is(i, s)` the controls (line 291), that is, interpolation reproduces the data.
-/

namespace Dolo

variable {K : Type} [Field K] [LinearOrder K]

/-- The improvement at all nodes and grid points, `dolo/algos/value_iteration.py:129-156`.  `minimize i n` is
`scipy.optimize.minimize` with the bounds `controls_lb(m, s_)`, `controls_ub(m, s_)` of node `i` and grid point
`n`.  A pass is given the values at the grid points and the values of `mdrv`; it changes the former. -/
def improveTables (minimize : ℕ → ℕ → ((ℕ → K) → K) → (ℕ → K) → (ℕ → K))
    (transition : (m s x M : ℕ → K) → ℕ → K) (felicity : (m s x : ℕ → K) → K)
    (evalI : Table K → ℕ → (ℕ → K) → ℕ → K) (dp : DProc K) (beta : K) (s : ℕ → ℕ → K)
    (controls_0 : Table K) (v : Table K × Table K) : Table K × (Table K × Table K) :=
  let mdrv := v.2
  let step := fun i n => valueStep (minimize i n)
    (fun xx => choiceValue transition felicity i (s n) xx (fun I S => evalI mdrv I S 0) dp beta) (controls_0 i n)
  (fun i n => (step i n).1, (fun i n k => if k = 0 then (step i n).2 else v.1 i n k, mdrv))

/-- The evaluation of the policy in pass `it`, lines 119-127: up to the second pass `evaluate_policy` starts from
the calibrated values `vcal`, later from the rule `mdrv`; default tolerance and number of iterations.  `T x v` is
`update_value` for the controls `x` and the values `v`. -/
def evaluateTables (T : Table K → Table K → Table K) (dist : Table K → Table K → K) (vcal : Table K)
    (it : ℕ) (controls_0 : Table K) (v : Table K × Table K) : Table K × Table K :=
  let ev := if it > 2 then evaluatePolicy (T controls_0) dist (1 / 10 ^ 8) 2000 v.2 (some v.2)
    else evaluatePolicy (T controls_0) dist (1 / 10 ^ 8) 2000 vcal none
  let mdrv := ev.solution.getD v.2
  (mdrv, mdrv)

/-- `update_value` as it is called by `evaluate_policy` for the controls `x`, lines 331-334; `evalX x i j S` is
`mdr.eval_ijs(i, j, S)` for the rule with controls `x`. -/
def policyUpdate (val : (m s x v M S X V : ℕ → K) → ℕ → K) (g : (m s x M : ℕ → K) → ℕ → K) (s : ℕ → ℕ → K)
    (evalX evalIJS : Table K → ℕ → ℕ → (ℕ → K) → ℕ → K) (dp : DProc K) (x v : Table K) : Table K :=
  updateValue val g s x v (evalX x) (evalIJS v) dp

/-- `value_iteration(model, tol=tol, maxit=maxit)`, lines 23-206: `nm` exogenous nodes, `N` grid points, `nx`
controls and one value. -/
def valueIterationFull (nm N nx : ℕ) (minimize : ℕ → ℕ → ((ℕ → K) → K) → (ℕ → K) → (ℕ → K))
    (transition : (m s x M : ℕ → K) → ℕ → K) (felicity : (m s x : ℕ → K) → K)
    (val : (m s x v M S X V : ℕ → K) → ℕ → K) (evalX evalIJS : Table K → ℕ → ℕ → (ℕ → K) → ℕ → K)
    (evalI : Table K → ℕ → (ℕ → K) → ℕ → K) (dp : DProc K) (beta : K) (s : ℕ → ℕ → K) (vcal : Table K)
    (tol : K) (maxit : ℕ) (x0 : Table K) : Except Err (VIResult (Table K) (Table K × Table K) K) :=
  let distX := fun a b : Table K => tableMax nm N nx fun i n k => a i n k - b i n k
  let distV := fun a b : Table K => tableMax nm N 1 fun i n k => a i n k - b i n k
  valueIteration (evaluateTables (policyUpdate val transition s evalX evalIJS dp) distV vcal)
    (improveTables minimize transition felicity evalI dp beta s) distX (fun a b => distV a.1 b.1) tol maxit x0
    (fun _ _ _ => 0, vcal)

end Dolo
