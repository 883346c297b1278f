import Mathlib.Algebra.BigOperators.Group.Finset.Basic
import Mathlib.Algebra.Order.Field.Basic
import Verif.Model.Newton

/-!
# Global solution algorithms

Models the loops of `dolo/algos/time_iteration.py`, `dolo/algos/improved_time_iteration.py` and
`dolo/algos/value_iteration.py`, and the operators they iterate on.

A table of controls (or values) on the product of the exogenous nodes and the endogenous grid is a function
`i n k` of the exogenous index, the grid index and the component.  Compiled model functions (`f`, `g`, `val`,
`felicity`) act row by row and are functions of one row each; interpolation is the parameter `interp`, which
receives the table and returns the function `eval_ijs(i, j, S)`.  Variables read before assignment in Python
are the error `nameError`.  Not modelled: printing, timing, `hook`, `trace`, and the initialisation of the
tables from a decision rule.
-/

namespace Dolo

variable {K : Type} [Field K] [LinearOrder K]

/-- `i n k ↦` component `k` at exogenous node `i` and grid point `n`. -/
abbrev Table (K : Type) := ℕ → ℕ → ℕ → K

/-- The interface of a discretized process, `dolo/numeric/processes.py:110-170`. -/
structure DProc (K : Type) where
  nNodes : ℕ
  nInodes : ℕ → ℕ
  node : ℕ → ℕ → K
  inode : ℕ → ℕ → ℕ → K
  iweight : ℕ → ℕ → K

/-- `abs(v).max()` on a table with `nm` nodes, `N` grid points and `n` components. -/
def tableMax (nm N n : ℕ) (v : Table K) : K :=
  ((List.range nm).map fun i => maxAbs N n (v i)).foldl max 0

/-- `residuals_simple(f, g, s, x, dr, dprocess, parms)`, `dolo/algos/time_iteration.py:11-32` (also
`euler_residuals` without derivatives, `dolo/algos/improved_time_iteration.py:541-602`). The functions
`f` and `g` have the parameters built in; `dr i j S` is `dr.eval_ijs(i, j, S)`. -/
def residualsSimple (f : (m s x M S X : ℕ → K) → ℕ → K) (g : (m s x M : ℕ → K) → ℕ → K) (s : ℕ → ℕ → K)
    (x : Table K) (dr : ℕ → ℕ → (ℕ → K) → ℕ → K) (dp : DProc K) : Table K := fun i n k =>
  (List.range (dp.nInodes i)).foldl (fun res j =>
    let m := dp.node i
    let M := dp.inode i j
    let prob := dp.iweight i j
    let S := g m (s n) (x i n) M
    let X := dr i j S
    let rr := f m (s n) (x i n) M S X
    res + prob * rr k) 0

/-! ### Time iteration -/

/-- What `time_iteration(..., details=True)` returns (the fields used here). -/
structure TIResult (X K : Type) where
  /-- the values set on the decision rule at the end -/
  controls : X
  iterations : ℕ
  converged : Bool
  err : K

/-- The loop `while err > tol and it < maxit` of `dolo/algos/time_iteration.py:192-230`, the first argument
being `maxit - it`.  `update` is the call of the inner solver on the residuals against the rule that
interpolates `controls_0`.  `last` is `controls`, if it has been assigned. -/
def tiLoop {X : Type} (update : X → X) (dist : X → X → K) (tol : K) :
    ℕ → ℕ → K → X → Option X → ℕ × K × Option X
  | 0, it, err, _, last => (it, err, last)
  | k + 1, it, err, controls_0, last =>
    if err > tol then
      let controls := update controls_0
      let err := dist controls controls_0
      tiLoop update dist tol k (it + 1) err controls (some controls)
    else (it, err, last)

/-- `time_iteration`, lines 167-168, 192-253. -/
def timeIteration {X : Type} (update : X → X) (dist : X → X → K) (tol : K) (maxit : ℕ) (x0 : X) :
    Except Err (TIResult X K) :=
  match tiLoop update dist tol maxit 0 10 x0 none with
  | (it, err, some controls) => .ok ⟨controls, it, decide (err < tol), err⟩
  | (_, _, none) => .error .nameError

/-! ### Improved time iteration -/

/-- What `improved_time_iteration(..., details=True)` returns (the fields used here). -/
structure ITIResult (X K : Type) where
  /-- the values set on the decision rule at the end -/
  x : X
  it : ℕ
  err_0 : K
  converged : Bool

/-- The loop over the backsteps, `dolo/algos/improved_time_iteration.py:483-495`, with `maxbsteps = k + 1`:
the first trial point with a smaller error, or the last one. -/
def itiSearch {X : Type} (trial : ℕ → X) (norm : X → K) (err_0 : K) (k : ℕ) : X :=
  trial (backSteps (fun b => decide (norm (trial b) < err_0)) k 0)

/-- The loop `for it in range(maxit)` of lines 363-513; the first argument is `maxit - it`.  `norm x` is the
largest absolute (smoothed) residual of the rule `x`, `trial x b` the point `x - tot * 0.5 ** b`.  `last` holds
`(it, err_0)` of the last pass. -/
def itiLoop {X : Type} (norm : X → K) (trial : X → ℕ → X) (bsteps : ℕ) (tol : K) :
    ℕ → ℕ → X → Option (ℕ × K) → Except Err (X × Option (ℕ × K))
  | 0, _, x, last => .ok (x, last)
  | k + 1, it, x, _ =>
    let err_0 := norm x
    match bsteps with
    | 0 => .error .nameError
    | b + 1 =>
      let new_x := itiSearch (trial x) norm err_0 b
      if err_0 < tol then .ok (x, some (it, err_0))
      else itiLoop norm trial bsteps tol k (it + 1) new_x (some (it, err_0))

/-- `improved_time_iteration`, lines 363-538. -/
def improvedTimeIteration {X : Type} (norm : X → K) (trial : X → ℕ → X) (maxbsteps : ℕ) (tol : K)
    (maxit : ℕ) (x0 : X) : Except Err (ITIResult X K) := do
  match ← itiLoop norm trial maxbsteps tol maxit 0 x0 none with
  | (x, some (it, err_0)) => pure ⟨x, it, err_0, decide (err_0 < tol)⟩
  | (_, none) => .error .nameError

/-- `d_filt_dx(π, M_ij, S_ij, ...)`, `dolo/algos/improved_time_iteration.py:103-116`, with `ssmul` (lines
77-86).  `filt π i j n` is `dumdr.eval_ijs(i, j, S_ij[i, j])[n]` after `dumdr.set_values(π)`; `set_values`
copies, so the later modification of `π` in place has no effect on it. -/
def dFiltDx (nim nx : ℕ) (M : ℕ → ℕ → ℕ → ℕ → ℕ → K) (filt : Table K → ℕ → ℕ → ℕ → ℕ → K) (π : Table K) :
    Table K := fun i n k =>
  (List.range nim).foldl (fun acc j =>
    acc + (List.range nx).foldl (fun o l => o + M i j n k l * filt π i j n l) 0) 0

/-- The loop of `invert_jac`, lines 190-201, the first argument being the number of passes left: the result is
`(tot, nn)` where `nn` is the loop index of the last pass. -/
def invertJacLoop {X : Type} [Add X] (L : X → X) (norm : X → K) (tol : K) : ℕ → ℕ → X → X → Option ℕ → X × Option ℕ
  | 0, _, _, tot, last => (tot, last)
  | k + 1, nn, ddx, tot, _ =>
    let ddx := L ddx
    let tot := tot + ddx
    if norm ddx < tol then (tot, some nn)
    else invertJacLoop L norm tol k (nn + 1) ddx tot (some nn)

/-- `invert_jac(res, dres, jres, fut_S, dumdr, tol, maxit)`, `dolo/algos/improved_time_iteration.py:174-204`
without the reported ratio `lam`; `d` is `solve_gu(dres, res)`. -/
def invertJac {X : Type} [Add X] (L : X → X) (norm : X → K) (tol : K) (maxit : ℕ) (d : X) : Except Err (X × ℕ) :=
  match invertJacLoop L norm tol maxit 0 d d none with
  | (tot, some nn) => .ok (tot, nn)
  | (_, none) => .error .nameError

/-! ### Value function iteration -/

/-- `update_value(val, g, s, x, v, dr, drv, dprocess, parms)`, `dolo/algos/value_iteration.py:367-397`. -/
def updateValue (val : (m s x v M S X V : ℕ → K) → ℕ → K) (g : (m s x M : ℕ → K) → ℕ → K) (s : ℕ → ℕ → K)
    (x : Table K) (v : Table K) (dr drv : ℕ → ℕ → (ℕ → K) → ℕ → K) (dp : DProc K) : Table K := fun i n k =>
  (List.range (dp.nInodes 0)).foldl (fun res j =>
    let m := dp.node i
    let M := dp.inode i j
    let prob := dp.iweight i j
    let S := g m (s n) (x i n) M
    let X := dr i j S
    let V := drv i j S
    let rr := val m (s n) (x i n) (v i n) M S X V
    res + prob * rr k) 0

/-- What `evaluate_policy(..., details=True)` returns; `solution` are the values last set on `mdrv`. -/
structure EvalResult (X K : Type) where
  solution : Option X
  iterations : ℕ
  tol : K
  error : K

/-- The loop `while err > tol and it < maxit` of `dolo/algos/value_iteration.py:325-340`; the first argument is
`maxit - it`; `set` are the values of `mdrv`; `T v` is `update_value` at the values `v` with the rule that
interpolates `v`. -/
def epLoop {X : Type} (T : X → X) (dist : X → X → K) (tol : K) :
    ℕ → ℕ → K → X → Option X → EvalResult X K
  | 0, it, err, _, set => ⟨set, it, tol, err⟩
  | k + 1, it, err, values_0, set =>
    if err > tol then
      let values := T values_0
      let err := dist values values_0
      epLoop T dist tol k (it + 1) err values (some values_0)
    else ⟨set, it, tol, err⟩

/-- `evaluate_policy`, lines 306-308, 325-364.  `dr0` are the values of the rule supplied, whose values at the
grid points are `v0`; without it `mdrv` has no values yet. -/
def evaluatePolicy {X : Type} (T : X → X) (dist : X → X → K) (tol : K) (maxit : ℕ) (v0 : X)
    (dr0 : Option X) : EvalResult X K :=
  epLoop T dist tol maxit 0 10 v0 dr0

/-- `choice_value(transition, felicity, i_ms, s, x, drv, dprocess, parms, beta)`,
`dolo/algos/value_iteration.py:209-219`; `drv I S` is `drv(I, S)[0]`, the evaluation at the exogenous index
`I`. -/
def choiceValue (transition : (m s x M : ℕ → K) → ℕ → K) (felicity : (m s x : ℕ → K) → K) (i : ℕ)
    (s x : ℕ → K) (drv : ℕ → (ℕ → K) → K) (dp : DProc K) (beta : K) : K :=
  let m := dp.node i
  let cont_v := (List.range (dp.nInodes i)).foldl (fun cont_v j =>
    let M := dp.inode i j
    let prob := dp.iweight i j
    let S := transition m s x M
    let V := drv j S
    cont_v + prob * V) 0
  felicity m s x + beta * cont_v

/-- The result of the maximisation at one node and grid point, lines 135-156: `minimize` is
`scipy.optimize.minimize(valfun, x, bounds=bnds).x`.  `x` is a view of `controls[i_m, n, :]`, so that
`-valfun(x)` on line 156 is evaluated at the new controls. -/
def valueStep (minimize : ((ℕ → K) → K) → (ℕ → K) → (ℕ → K)) (cv : (ℕ → K) → K) (x : ℕ → K) : (ℕ → K) × K :=
  let valfun := fun xx => - cv xx
  let x' := minimize valfun x
  (x', - valfun x')

/-- What `value_iteration(..., details=True)` returns (the fields used here). -/
structure VIResult (X V K : Type) where
  controls : X
  values : V
  iterations : ℕ
  x_converged : Bool
  x_tol : K
  x_err : K
  v_converged : Bool
  v_tol : K
  v_err : K

/-- The loop of `dolo/algos/value_iteration.py:114-171`.  `evaluate x` are the values of the rule returned by
`evaluate_policy` at the grid points, `improve x v` the result of the maximisation.  (From the third pass on
`evaluate_policy` starts from the previous rule; `evaluate` may depend on it through `it` and the previous
values.) -/
def viLoop {X V : Type} (evaluate : ℕ → X → V → V) (improve : X → V → X × V) (distX : X → X → K)
    (distV : V → V → K) (tol tol_x : K) :
    ℕ → ℕ → K → K → X → V → Bool → ℕ × K × K × X × V × Bool
  | 0, it, err_v, err_x, x, v, set => (it, err_v, err_x, x, v, set)
  | k + 1, it, err_v, err_x, controls_0, v, set =>
    if err_v > tol ∨ err_x > tol_x then
      let values_0 := evaluate (it + 1) controls_0 v
      let r := improve controls_0 values_0
      let controls := r.1
      let values := r.2
      let err_x := distX controls controls_0
      let err_v := distV values values_0
      viLoop evaluate improve distX distV tol tol_x k (it + 1) err_v err_x controls values true
    else (it, err_v, err_x, controls_0, v, set)

/-- `value_iteration(model, tol, maxit)`, lines 93-100, 114-206. -/
def valueIteration {X V : Type} (evaluate : ℕ → X → V → V) (improve : X → V → X × V) (distX : X → X → K)
    (distV : V → V → K) (tol : K) (maxit : ℕ) (x0 : X) (v0 : V) : Except Err (VIResult X V K) :=
  let tol_x : K := 1 / 10 ^ 5
  let tol_v : K := 1 / 10 ^ 7
  match viLoop evaluate improve distX distV tol tol_x maxit 0 100 100 x0 v0 false with
  | (it, err_v, err_x, controls, values, true) =>
    .ok ⟨controls, values, it, decide (err_x < tol_x), tol_x, err_x, decide (err_v < tol_v), tol_v, err_v⟩
  | (_, _, _, _, _, false) => .error .nameError

end Dolo
