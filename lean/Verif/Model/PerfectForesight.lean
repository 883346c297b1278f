import Mathlib.Algebra.Field.Defs
import Mathlib.Data.List.Basic
import Verif.Model.Err

/-!
# Model of `dolo/algos/perfect_foresight.py`

`_shocks_to_epsilons` (lines 10-50), `det_residual` (lines 306-406) and the wiring of
`deterministic_solve` (lines 53-303).

Conventions.

* Arithmetic is exact: scalars live in a field `K`.
* `model.functions["transition"]` and `model.functions["arbitrage"]` act row by row on
  stacked inputs (generalized ufuncs); here they are the per-row functions `g m s x M` and
  `f m s x M S X`.  The parameter vector `p` is the same everywhere and is left inside `g`, `f`.
* A 2-d array of paths with `N` rows is a function of the row number; only rows `< N` matter.
  The columns `[:n_s]` and `[n_s:]` are the two sides of `S ⊕ X`.
-/

namespace Dolo

/-- perfect_foresight.py 10-50: the argument `shocks`.  A `DataFrame` is converted to a dict
of lists on line 19 and has no separate constructor.  An array-like argument has been passed
through `np.asarray(shocks).reshape((-1, n_e))` (line 43), so it is the list of its rows. -/
inductive ShockArg (K : Type) where
  | none
  | dict (d : String → Option (List K))
  | rows (l : List (List K))

/-- perfect_foresight.py 24-29, one column of the dict branch:
`epsilons[:len(sh), i] = sh; epsilons[len(sh):, i] = sh[-1]` for an array with `T + 1` rows.
Assigning more than `T + 1` values raises `ValueError`, `sh[-1]` of an empty list raises
`IndexError`. -/
def dictColumn {K : Type} (T : ℕ) (sh : List K) : Except Err (List K) :=
  if T + 1 < sh.length then .error .valueError
  else match sh.getLast? with
    | none => .error .indexError
    | some v => .ok (sh ++ List.replicate (T + 1 - sh.length) v)

/-- perfect_foresight.py 25-32: the loop over `enumerate(model.symbols["exogenous"])`; returns
the columns of `epsilons`.  `exo` pairs each exogenous symbol with its calibrated value. -/
def dictColumns {K : Type} (exo : List (String × K)) (d : String → Option (List K)) (T : ℕ) :
    Except Err (List (List K)) :=
  exo.mapM fun kv =>
    match d kv.1 with
    | some sh => dictColumn T sh
    | none => .ok (List.replicate (T + 1) kv.2)

/-- perfect_foresight.py 42-50: the array branch.  `epsilons[:R-1] = shocks[1:]` and
`epsilons[R-1:] = shocks[-1:]` where `R` is the number of rows of `shocks`.  No row at all, or
more than `T + 2` of them, raises `ValueError`. -/
def arrayRows {K : Type} (T : ℕ) (l : List (List K)) : Except Err (List (List K)) :=
  match l.getLast? with
  | none => .error .valueError
  | some v =>
    if T + 2 < l.length then .error .valueError
    else .ok (l.tail ++ List.replicate (T + 1 - (l.length - 1)) v)

/-- Row `t` of a 2-d array stored by columns. -/
def rowOfColumns {K : Type} [Zero K] (cols : List (List K)) (t : ℕ) : List K :=
  cols.map fun c => c.getD t 0

/-- perfect_foresight.py 10-50 `_shocks_to_epsilons(model, shocks, T)`, as the list of the
rows of the returned array. -/
def shocksToEpsilons {K : Type} [Zero K] (exo : List (String × K)) (shocks : ShockArg K)
    (T : ℕ) : Except Err (List (List K)) :=
  match shocks with
  | .dict d => do
      let cols ← dictColumns exo d T
      pure ((List.range (T + 1)).map (rowOfColumns cols))
  | .none => arrayRows T [exo.map (·.2)]
  | .rows l => arrayRows T l

/-! ## `det_residual` -/

section residual

variable {K : Type} [Field K] {S X E : Type}

/-- `guess[i, :n_s]`. -/
def stOf (guess : ℕ → S ⊕ X → K) (i : ℕ) : S → K := fun a => guess i (.inl a)

/-- `guess[i, n_s:]`. -/
def ctOf (guess : ℕ → S ⊕ X → K) (i : ℕ) : X → K := fun b => guess i (.inr b)

/-- A 2-d array write `res[lo:hi, :n_s] = v` or `res[lo:hi, n_s:] = v`: rows `lo ≤ i < hi`,
the columns selected by `col`; row `i` of the target receives row `i - lo` of `v`. -/
def putRows {A : Type} (res : ℕ → S ⊕ X → K) (lo hi : ℕ) (col : S ⊕ X → Option A)
    (v : ℕ → A → K) : ℕ → S ⊕ X → K :=
  fun i c => if lo ≤ i ∧ i < hi then
      match col c with
      | some a => v (i - lo) a
      | none => res i c
    else res i c

/-- perfect_foresight.py 336-363: `res`, by the four successive writes of lines 359-363.  With
`N = 1`, `guess[-2, n_s:]` raises `IndexError`; with `N = 0`, `res[0, ...]` does. -/
def detResidual (g : (E → K) → (S → K) → (X → K) → (E → K) → S → K)
    (f : (E → K) → (S → K) → (X → K) → (E → K) → (S → K) → (X → K) → X → K)
    (N : ℕ) (guess : ℕ → S ⊕ X → K) (start : S → K) (shocks : ℕ → E → K) :
    Except Err (ℕ → S ⊕ X → K) :=
  if N < 2 then .error .indexError
  else
    let resS : ℕ → S → K := fun i a =>
      g (shocks i) (stOf guess i) (ctOf guess i) (shocks (i + 1)) a - stOf guess (i + 1) a
    let resX : ℕ → X → K := fun i b =>
      f (shocks i) (stOf guess i) (ctOf guess i) (shocks (i + 1)) (stOf guess (i + 1))
        (ctOf guess (i + 1)) b
    let r0 : ℕ → S ⊕ X → K := fun _ _ => 0
    let r1 := putRows r0 1 N Sum.getLeft? resS
    let r2 := putRows r1 0 (N - 1) Sum.getRight? resX
    let r3 := putRows r2 0 1 Sum.getLeft? fun _ a => -(stOf guess 0 a - start a)
    let r4 := putRows r3 (N - 1) N Sum.getRight? fun _ b =>
      -(ctOf guess (N - 1) b - ctOf guess (N - 2) b)
    .ok r4

/-- The derivative blocks returned by `g(..., diff=True)` and `f(..., diff=True)`
(perfect_foresight.py 348-349), one matrix per row `i`. -/
structure PFBlocks (K S X : Type) where
  SS_s : ℕ → S → S → K
  SS_x : ℕ → S → X → K
  R_s : ℕ → X → S → K
  R_x : ℕ → X → X → K
  R_S : ℕ → X → S → K
  R_X : ℕ → X → X → K

/-- A 4-d array write `jac[i, rows, j, cols] = B`. -/
def putBlk {A B : Type} (jac : ℕ → S ⊕ X → ℕ → S ⊕ X → K) (i : ℕ) (row : S ⊕ X → Option A)
    (j : ℕ) (col : S ⊕ X → Option B) (v : A → B → K) : ℕ → S ⊕ X → ℕ → S ⊕ X → K :=
  fun i' r j' c => if i' = i ∧ j' = j then
      match row r, col c with
      | some a, some b => v a b
      | _, _ => jac i' r j' c
    else jac i' r j' c

/-- `np.eye(n)`. -/
def eyeFn {A : Type} [DecidableEq A] (a b : A) : K := if a = b then 1 else 0

variable [DecidableEq S] [DecidableEq X]

/-- perfect_foresight.py 378-385, one turn of the loop. -/
def jacStep (D : PFBlocks K S X) (jac : ℕ → S ⊕ X → ℕ → S ⊕ X → K) (i : ℕ) :
    ℕ → S ⊕ X → ℕ → S ⊕ X → K :=
  let j1 := putBlk jac i Sum.getRight? i Sum.getLeft? (D.R_s i)
  let j2 := putBlk j1 i Sum.getRight? i Sum.getRight? (D.R_x i)
  let j3 := putBlk j2 i Sum.getRight? (i + 1) Sum.getLeft? (D.R_S i)
  let j4 := putBlk j3 i Sum.getRight? (i + 1) Sum.getRight? (D.R_X i)
  let j5 := putBlk j4 (i + 1) Sum.getLeft? i Sum.getLeft? (D.SS_s i)
  let j6 := putBlk j5 (i + 1) Sum.getLeft? i Sum.getRight? (D.SS_x i)
  putBlk j6 (i + 1) Sum.getLeft? (i + 1) Sum.getLeft? fun a b => -eyeFn a b

/-- perfect_foresight.py 377-395: the stacked Jacobian, indexed `[i, row, j, column]` before
the `reshape` of line 398 (which only renames indices).  The conversion to a sparse matrix does
not change entries. -/
def detJac (D : PFBlocks K S X) (N : ℕ) : ℕ → S ⊕ X → ℕ → S ⊕ X → K :=
  let j0 : ℕ → S ⊕ X → ℕ → S ⊕ X → K := fun _ _ _ _ => 0
  let j1 := (List.range (N - 1)).foldl (jacStep D) j0
  let j2 := putBlk j1 0 Sum.getLeft? 0 Sum.getLeft? fun a b => -eyeFn a b
  let j3 := putBlk j2 (N - 1) Sum.getRight? (N - 1) Sum.getRight? fun a b => -eyeFn a b
  putBlk j3 (N - 1) Sum.getRight? (N - 2) Sum.getRight? fun a b => eyeFn a b

end residual

/-! ## `deterministic_solve` -/

section solve

variable {K : Type} [Field K] {S X E : Type}

/-- What `deterministic_solve` reads from the model: the model functions, the calibration,
and `find_steady_state(model, m=m0)` (`steady_state.py` 30-52; a call to
`scipy.optimize.root`, taken as a parameter). -/
structure PFModel (K S X E : Type) where
  g : (E → K) → (S → K) → (X → K) → (E → K) → S → K
  f : (E → K) → (S → K) → (X → K) → (E → K) → (S → K) → (X → K) → X → K
  cS : S → K
  cX : X → K
  cE : E → K
  findSteady : (E → K) → (S → K) × (X → K)

/-- perfect_foresight.py 160-184: the starting values `s0, x0, s1`.  `eps` is the (already
padded) path of exogenous values: `given = true` when the argument `exogenous` was passed.
`epsilons[1, :]` raises `IndexError` when `T = 0`. -/
def pfStart (M : PFModel K S X E) (T : ℕ) (given : Bool) (eps : ℕ → E → K)
    (s0 : Option (S → K)) (m0 : Option (E → K)) : Except Err ((S → K) × (X → K) × (S → K)) :=
  if T = 0 then .error .indexError
  else if given then
    let st := M.findSteady (eps 0)
    .ok (st.1, st.2, M.g (eps 0) st.1 st.2 (eps 1))
  else
    let s := s0.getD M.cS
    let m := m0.getD M.cE
    .ok (s, M.cX, M.g m s M.cX (eps 1))

/-- perfect_foresight.py 190-195: the default initial guess
`start*(1-l) + final*l for l in linspace(0, 1, T+1)`. -/
def pfGuess (M : PFModel K S X E) (T : ℕ) (s1 : S → K) (i : ℕ) : S ⊕ X → K :=
  let l : K := (i : K) / (T : K)
  Sum.elim (fun a => s1 a * (1 - l) + M.cS a * l) (fun b => M.cX b * (1 - l) + M.cX b * l)

/-- The arguments handed to a complementarity solver, by the names of the solver's own
parameters: `ncpsolve(f, a, b, x)` (ncpsolve.py 10) and `lmmcp(fun, Dfun, x0, lb, ub)`
(lmmcp.py 61). -/
structure NcpCall (α : Type) where
  x0 : α
  lb : α
  ub : α

/-- perfect_foresight.py 235-257: how the bounds and the guess are passed.  `ncpsolve` is called
as `ncpsolve(ff, lower, upper, guess)`; `lmmcp` as `lmmcp(fun, Dfun, lower, upper, guess)`. -/
def ncpCallOf {α : Type} (solver : String) (lower upper guess : α) : NcpCall α :=
  if solver = "ncpsolve" then { x0 := guess, lb := lower, ub := upper }
  else { x0 := lower, lb := upper, ub := guess }

/-- perfect_foresight.py 278-303: the rows of the returned table, each with its index label:
states and controls, and the exogenous values.  (The auxiliary columns are a function of
these.) -/
def pfTable (T : ℕ) (given keep : Bool) (s0 : S → K) (x0 : X → K) (sol : ℕ → S ⊕ X → K)
    (eps : ℕ → E → K) : List (ℤ × (S ⊕ X → K) × (E → K)) :=
  let body := (List.range (T + 1)).map fun (i : ℕ) => ((i : ℤ), sol i, eps i)
  if given && keep then (-1, Sum.elim s0 x0, eps 0) :: body else body

/-- perfect_foresight.py 143-303 without complementarity constraints and with the default
initial guess.  `newton` is the solver of line 273 as a parameter: it receives the residual
function and the guess. -/
def deterministicSolve (M : PFModel K S X E)
    (newton : ((ℕ → S ⊕ X → K) → Except Err (ℕ → S ⊕ X → K)) → (ℕ → S ⊕ X → K) →
      Except Err (ℕ → S ⊕ X → K))
    (T : ℕ) (given keep : Bool) (eps : ℕ → E → K) (s0 : Option (S → K))
    (m0 : Option (E → K)) : Except Err (List (ℤ × (S ⊕ X → K) × (E → K))) := do
  let (s0', x0, s1) ← pfStart M T given eps s0 m0
  let sol ← newton (fun v => detResidual M.g M.f (T + 1) v s1 eps) (pfGuess M T s1)
  pure (pfTable T given keep s0' x0 sol eps)

/-- perfect_foresight.py 197-203: a user-supplied initial guess (as the list of its rows) loses
its first row, whatever it contains. -/
def pfUserGuess {α : Type} (rows : List α) : List α := rows.tail

end solve

end Dolo
