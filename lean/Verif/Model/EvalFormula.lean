import Mathlib.Data.Int.Basic
import Verif.Model.Err
import Verif.Model.Calibration

/-!
# Model of `eval_formula`, `dolo/compiler/eval_formula.py:11-51`

Parsing and printing of expressions is done by the external package dolang: the formula is its syntax
tree.  Undated symbols and dated variables are given different names by `stringify_symbol` (`k_` and
`k__0_`, `k__p1_`, ...), modelled by different constructors of `FKey`.

Numbers are of an arbitrary type `V` with a value `nan`; the operators and functions of formulas are
arbitrary functions on `V`.  A column of the table is the list of its values, in the order of the rows;
operations between columns of the same table are done row by row, and numbers are broadcast.
-/

namespace Dolo

/-- Formulas. -/
inductive Formula (V : Type) where
  | num (v : V)
  /-- a symbol without date, `delta` -/
  | sym (name : String)
  /-- a dated variable, `k(1)` -/
  | var (name : String) (date : ℤ)
  /-- an operator or a function (`log`, `exp`), applied to one argument -/
  | un (f : V → V) (a : Formula V)
  /-- an operator with two arguments -/
  | bin (f : V → V → V) (a b : Formula V)

/-- Names in the context of the evaluation, after `stringify_symbol`. -/
inductive FKey where
  | sym (name : String)
  | var (name : String) (date : ℤ)
  deriving DecidableEq

/-- A number or a column. -/
inductive FVal (V : Type) where
  | sc (v : V)
  | col (l : List V)

variable {V : Type}

/-- `list_variables(expr_ast)`, line 34: the dated variables. -/
def Formula.vars : Formula V → List (String × ℤ)
  | .num _ => []
  | .sym _ => []
  | .var k t => [(k, t)]
  | .un _ a => a.vars
  | .bin _ a b => a.vars ++ b.vars

/-- pandas' `Series.shift(t)`: the values are moved down by `t` rows, and rows left empty are `nan`. -/
def pdShift (nan : V) (l : List V) (t : ℤ) : List V :=
  (List.range l.length).map fun i : ℕ =>
    if 0 ≤ (i : ℤ) - t then l.getD ((i : ℤ) - t).toNat nan else nan

/-- The context `dd`: the last assignment of a name counts. -/
abbrev FEnv (V : Type) := FKey → Option (FVal V)

def FEnv.set (dd : FEnv V) (k : FKey) (v : FVal V) : FEnv V := fun k' => if k' = k then some v else dd k'

/-- A table: its index, and its columns. -/
structure Frame (V : Type) where
  index : List V
  cols : PyDict (List V)

/-- Lines 22-31: numbers of the context, by their names. -/
def contextEnv (context : PyDict V) : FEnv V
  | .sym k => (context.get? k).map .sc
  | .var _ _ => none

/-- Lines 44-45: the loop over the dated variables. -/
def frameEnv (nan : V) (fr : Frame V) : List (String × ℤ) → FEnv V → Except Err (FEnv V)
  | [], dd => .ok dd
  | (k, t) :: vs, dd =>
    match fr.cols.get? k with
    | none => .error .keyError
    | some c => frameEnv nan fr vs (dd.set (.var k t) (.col (pdShift nan c t)))

/-- One argument, row by row. -/
def FVal.map (f : V → V) : FVal V → FVal V
  | .sc v => .sc (f v)
  | .col l => .col (l.map f)

/-- Two arguments, row by row. -/
def FVal.map₂ (f : V → V → V) : FVal V → FVal V → FVal V
  | .sc a, .sc b => .sc (f a b)
  | .sc a, .col l => .col (l.map fun b => f a b)
  | .col l, .sc b => .col (l.map fun a => f a b)
  | .col l, .col l' => .col (List.zipWith f l l')

/-- Line 49: `eval`. -/
def Formula.eval (dd : FEnv V) : Formula V → Except Err (FVal V)
  | .num v => .ok (.sc v)
  | .sym k => match dd (.sym k) with
    | some v => .ok v
    | none => .error .nameError
  | .var k t => match dd (.var k t) with
    | some v => .ok v
    | none => .error .nameError
  | .un f a => do
    let x ← a.eval dd
    pure (x.map f)
  | .bin f a b => do
    let x ← a.eval dd
    let y ← b.eval dd
    pure (x.map₂ f y)

/-- `eval_formula(expr, dataframe, context)`. -/
def evalFormula (nan : V) (e : Formula V) (dataframe : Option (Frame V)) (context : PyDict V) :
    Except Err (FVal V) := do
  let dd := contextEnv context
  match dataframe with
  | none => e.eval dd
  | some fr => do
    let dd ← frameEnv nan fr e.vars dd
    -- `stringify_symbol("t")` is `"t_"`
    e.eval (dd.set (.sym "t") (.col fr.index))

end Dolo
