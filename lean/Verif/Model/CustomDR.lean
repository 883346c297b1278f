import Verif.Model.Factory

/-!
# Model of `CustomDR`, `dolo/numeric/decision_rule.py:495-559`

As in `Verif/Model/Factory.lean`, formulas are syntax trees, and the generated code is `callFactory`.  A key of
`values` is written `y` or `y(0)`.
-/

namespace Dolo

variable {V : Type}

/-- A key of `values`: `name`, or `name(0)`. -/
structure FormKey where
  name : String
  dated : Bool
  deriving DecidableEq

/-- The text of a key. -/
def FormKey.text (k : FormKey) : String := if k.dated then k.name ++ "(0)" else k.name

/-- dolang's `sanitize(e, vars)`: names of variables without date get the date 0. -/
def Formula.sanitize (vars : List String) : Formula V → Formula V
  | .num v => .num v
  | .sym k => if k ∈ vars then .var k 0 else .sym k
  | .var k d => .var k d
  | .un f a => .un f (a.sanitize vars)
  | .bin f a b => .bin f (a.sanitize vars) (b.sanitize vars)

/-- `values[s]`. -/
def cget (values : List (FormKey × Formula V)) (s : String) : Except Err (Formula V) :=
  match values.find? fun kv => decide (kv.1.text = s) with
  | some kv => .ok kv.2
  | none => .error .keyError

/-- Lines 500-552: the factory made from the formulas. -/
def customFactory (solver : KDict (Formula V) → List ℕ) (exogenous states controls parameters : List String)
    (values : List (FormKey × Formula V)) : Except Err (Factory V) := do
  -- line 505
  let preamble := values.filter fun kv => !decide (kv.1.text ∈ controls)
  -- line 506
  let equations ← controls.mapM (cget values)
  -- line 508
  let vars := exogenous ++ states ++ controls ++ preamble.map (·.1.text)
  -- lines 510-519: `y` becomes `y(0)`
  let preambleStr := preamble.foldl
    (fun d kv => KDict.set d (.var kv.1.name 0) (kv.2.sanitize vars)) []
  -- lines 521-527
  let preamble ← reorderPreamble (solver preambleStr) preambleStr
  -- lines 529-532
  let equations := equations.map (Formula.sanitize vars)
  -- lines 534-548
  pure ⟨preamble, kdictZip (controls.map fun e => .var e 0) equations,
    [("m", exogenous.map fun e => .var e 0), ("s", states.map fun e => .var e 0), ("p", parameters.map .sym)]⟩

/-- Lines 557-559 `eval_ms(m, s)`, with the parameters `p` of the calibration. -/
def customEval (ff : Factory V) (p m s : List V) : Except Err (List V) := callFactory ff [m, s, p]

end Dolo
