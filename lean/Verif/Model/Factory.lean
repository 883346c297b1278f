import Mathlib.Data.List.Dedup
import Verif.Model.EvalFormula
import Verif.Model.SymbolicModel

/-!
# Model of `get_factory` and `reorder_preamble`, `dolo/compiler/factories.py:25-144`, and of the table
`dolo/compiler/recipes.yaml`

Texts are read and printed by the external package dolang (`parse_string`, `Sanitizer`, `time_shift`,
`stringify`, `str_expression`); equations and definitions are its syntax trees here, and two names are equal
after `stringify_symbol` exactly when symbol and date are (`FKey`).  The cuts at `=` of lines 101-109 on
texts are modelled in `Verif/Model/SymbolicModel.lean`.  The order returned by dolang's
`triangular_solver` is a parameter.

`callFactory` is the code that dolang generates from a factory: the entries of the arguments are given
their names, the lines of the preamble are assigned one after the other, and the equations are evaluated.
-/

namespace Dolo

variable {V : Type}

/-- A Python `dict` whose keys are names after `stringify`. -/
abbrev KDict (α : Type) := List (FKey × α)

/-- `d[k] = v`. -/
def KDict.set {α : Type} (d : KDict α) (k : FKey) (v : α) : KDict α :=
  if d.any fun kv => decide (kv.1 = k) then d.map fun kv => if kv.1 = k then (k, v) else kv
  else d ++ [(k, v)]

/-- An equation: an expression, or `lhs = rhs`. -/
inductive Eqn (V : Type) where
  | expr (e : Formula V)
  | assign (lhs rhs : Formula V)

/-- dolang's `time_shift(e, t)`. -/
def Formula.shift (t : ℤ) : Formula V → Formula V
  | .num v => .num v
  | .sym k => .sym k
  | .var k d => .var k (d + t)
  | .un f a => .un f (a.shift t)
  | .bin f a b => .bin f (a.shift t) (b.shift t)

/-- dolang's `FlatFunctionFactory`. -/
structure Factory (V : Type) where
  preamble : KDict (Formula V)
  content : KDict (Formula V)
  arguments : PyDict (List FKey)

/-- `recipes.yaml`, `dtcc: specs`.  The entry `complementarities: left-right` of `arbitrage` is given
under the names `arbitrage_lb` and `arbitrage_ub` (factories.py 72-77), and the specification of lines
62-69 under `auxiliary`. -/
def recipe : String → Option Spec
  | "arbitrage" => some ⟨none, [⟨"exogenous", 0, "m"⟩, ⟨"states", 0, "s"⟩, ⟨"controls", 0, "x"⟩,
      ⟨"exogenous", 1, "M"⟩, ⟨"states", 1, "S"⟩, ⟨"controls", 1, "X"⟩, ⟨"parameters", 0, "p"⟩]⟩
  | "arbitrage_lb" => some ⟨none, [⟨"exogenous", 0, "m"⟩, ⟨"states", 0, "s"⟩, ⟨"parameters", 0, "p"⟩]⟩
  | "arbitrage_ub" => some ⟨none, [⟨"exogenous", 0, "m"⟩, ⟨"states", 0, "s"⟩, ⟨"parameters", 0, "p"⟩]⟩
  | "transition" => some ⟨some ⟨"states", 0, "S"⟩, [⟨"exogenous", -1, "m"⟩, ⟨"states", -1, "s"⟩,
      ⟨"controls", -1, "x"⟩, ⟨"exogenous", 0, "M"⟩, ⟨"parameters", 0, "p"⟩]⟩
  | "value" => some ⟨some ⟨"values", 0, "v"⟩, [⟨"exogenous", 0, "m"⟩, ⟨"states", 0, "s"⟩,
      ⟨"controls", 0, "x"⟩, ⟨"values", 0, "v"⟩, ⟨"exogenous", 1, "M"⟩, ⟨"states", 1, "S"⟩,
      ⟨"controls", 1, "X"⟩, ⟨"values", 1, "V"⟩, ⟨"parameters", 0, "p"⟩]⟩
  | "expectation" => some ⟨some ⟨"expectations", 0, "z"⟩, [⟨"exogenous", 1, "M"⟩, ⟨"states", 1, "S"⟩,
      ⟨"controls", 1, "X"⟩, ⟨"parameters", 0, "p"⟩]⟩
  | "half_transition" => some ⟨some ⟨"states", 0, "S"⟩, [⟨"exogenous", -1, "m"⟩, ⟨"poststates", -1, "a"⟩,
      ⟨"exogenous", 0, "M"⟩, ⟨"parameters", 0, "p"⟩]⟩
  | "direct_response_egm" => some ⟨some ⟨"controls", 0, "x"⟩, [⟨"exogenous", 0, "m"⟩,
      ⟨"poststates", 0, "a"⟩, ⟨"expectations", 0, "z"⟩, ⟨"parameters", 0, "p"⟩]⟩
  | "reverse_state" => some ⟨some ⟨"states", 0, "s"⟩, [⟨"exogenous", 0, "m"⟩, ⟨"poststates", 0, "a"⟩,
      ⟨"controls", 0, "x"⟩, ⟨"parameters", 0, "p"⟩]⟩
  | "direct_response" => some ⟨some ⟨"controls", 0, "x"⟩, [⟨"exogenous", 0, "m"⟩, ⟨"states", 0, "s"⟩,
      ⟨"expectations", 0, "z"⟩, ⟨"parameters", 0, "p"⟩]⟩
  | "felicity" => some ⟨some ⟨"rewards", 0, "r"⟩, [⟨"exogenous", 0, "m"⟩, ⟨"states", 0, "s"⟩,
      ⟨"controls", 0, "x"⟩, ⟨"parameters", 0, "p"⟩]⟩
  | "arbitrage_exp" => some ⟨none, [⟨"states", 0, "s"⟩, ⟨"controls", 0, "x"⟩, ⟨"parameters", 0, "p"⟩]⟩
  | "auxiliary" => some ⟨none, [⟨"exogenous", 0, "m"⟩, ⟨"states", 0, "s"⟩, ⟨"controls", 0, "x"⟩,
      ⟨"parameters", 0, "p"⟩]⟩
  | _ => none

/-- Lines 83-86: `preamble_tshift`, the dates of the states among the dates of the controls.  The order
in which a Python `set` is enumerated is not specified; it is the order of the specification here. -/
def preambleDates (eqs : List SpecEntry) : List ℤ :=
  (((eqs.filter fun s => decide (s.group = "states")).map (·.date)).dedup).filter fun t =>
    decide (t ∈ (eqs.filter fun s => decide (s.group = "controls")).map (·.date))

/-- Lines 90-94, the names of one argument. -/
def argNames (symbols : PyDict (List String)) (sg : SpecEntry) : Except Err (List FKey) :=
  if sg.group = "parameters" then do
    let ps ← symbols.get "parameters"
    pure (ps.map .sym)
  else do
    let vs ← symbols.get sg.group
    pure (vs.map fun s => .var s sg.date)

/-- `dict(zip(names, values))`. -/
def dictZip {α : Type} (names : List String) (values : List α) : PyDict α :=
  (names.zip values).foldl (fun d kv => d.set kv.1 kv.2) []

/-- Line 141, `dict(zip(targets, eqs))`. -/
def kdictZip {α : Type} (names : List FKey) (values : List α) : KDict α :=
  (names.zip values).foldl (fun d kv => KDict.set d kv.1 kv.2) []

/-- Lines 101-109: the expression that is computed for each equation. -/
def equationBody [Sub V] (target : Option SpecEntry) : Eqn V → Except Err (Formula V)
  | .assign lhs rhs => match target with
    | some _ => .ok rhs
    | none => .ok (.bin (· - ·) rhs lhs)
  | .expr e => match target with
    | some _ => .error .indexError
    | none => .ok e

/-- Lines 103 and 109: the names of the results. -/
def targetNames (symbols : PyDict (List String)) (target : Option SpecEntry) (n : ℕ) :
    Except Err (List FKey) :=
  match target with
  | some sg => do
    let vs ← symbols.get sg.group
    pure (vs.map fun s => .var s sg.date)
  | none => .ok ((List.range n).map fun i => .var ("out" ++ toString i) 0)

/-- Lines 126-137: each definition `name[t] = rhs`, at each of the dates. -/
def shiftedDefs (dates : List ℤ) (defs : List (String × Formula V)) : KDict (Formula V) :=
  (defs.flatMap fun d => dates.map fun t => (FKey.var d.1 t, d.2.shift t)).foldl
    (fun acc kv => KDict.set acc kv.1 kv.2) []

/-- Lines 25-36 `reorder_preamble`, with the answer `order` of the solver. -/
def reorderPreamble (order : List ℕ) (pr : KDict (Formula V)) : Except Err (KDict (Formula V)) := do
  let prl ← order.mapM fun o => pyGet pr o
  pure (prl.foldl (fun d kv => KDict.set d kv.1 kv.2) [])

/-- Lines 81-144 `get_factory(model, eq_type, tshift)`, for the specification of the type of equations and
the equations of the model. -/
def getFactory [Sub V] (solver : KDict (Formula V) → List ℕ) (symbols : PyDict (List String))
    (definitions : List (String × Formula V)) (spec : Spec) (eqs : List (Eqn V)) (tshift : ℤ) :
    Except Err (Factory V) := do
  let specs := shiftSpec spec tshift
  let args ← specs.eqs.mapM (argNames symbols)
  let arguments := dictZip (specs.eqs.map (·.name)) args
  let targets ← targetNames symbols specs.target eqs.length
  let bodies ← eqs.mapM (equationBody specs.target)
  let defs := shiftedDefs (preambleDates specs.eqs) definitions
  let preamble ← reorderPreamble (solver defs) defs
  pure ⟨preamble, kdictZip targets (bodies.map (Formula.shift tshift)), arguments⟩

/-- Names and their values. -/
abbrev NEnv (V : Type) := FKey → Option V

def NEnv.set (env : NEnv V) (k : FKey) (v : V) : NEnv V := fun k' => if k' = k then some v else env k'

/-- Evaluation of an expression. -/
def Formula.run (env : NEnv V) : Formula V → Except Err V
  | .num v => .ok v
  | .sym k => match env (.sym k) with
    | some v => .ok v
    | none => .error .nameError
  | .var k t => match env (.var k t) with
    | some v => .ok v
    | none => .error .nameError
  | .un f a => do
    let x ← a.run env
    pure (f x)
  | .bin f a b => do
    let x ← a.run env
    let y ← b.run env
    pure (f x y)

/-- `name = arg[pos]` for each name of one argument. -/
def bindGroup : List FKey → List V → NEnv V → Except Err (NEnv V)
  | [], _, env => .ok env
  | _ :: _, [], _ => .error .indexError
  | k :: ks, v :: vs, env => bindGroup ks vs (env.set k v)

/-- All arguments, in order. -/
def bindArgs : List (List FKey) → List (List V) → NEnv V → Except Err (NEnv V)
  | [], [], env => .ok env
  | ks :: kss, vs :: vss, env => do
    let env ← bindGroup ks vs env
    bindArgs kss vss env
  | _, _, _ => .error .typeError

/-- The lines of the preamble. -/
def runPreamble : KDict (Formula V) → NEnv V → Except Err (NEnv V)
  | [], env => .ok env
  | (k, e) :: rest, env => do
    let v ← e.run env
    runPreamble rest (env.set k v)

/-- A call of the function made from a factory. -/
def callFactory (ff : Factory V) (args : List (List V)) : Except Err (List V) := do
  let env ← bindArgs (ff.arguments.map (·.2)) args fun _ => none
  let env ← runPreamble ff.preamble env
  ff.content.mapM fun kv => kv.2.run env

end Dolo
