import Verif.Model.SymbolicModel

/-!
# `decode_complementarity`

Models `dolo/compiler/model.py:501-527`.  Strings are lists of characters.
-/

namespace Dolo

/-- The text before and after the last `<=`. -/
def splitLastLe : List Char → Option (List Char × List Char)
  | [] => none
  | c :: cs =>
    match splitLastLe cs with
    | some (a, b) => some (c :: a, b)
    | none => if c = '<' ∧ cs.head? = some '=' then some ([], cs.tail) else none

/-- `re.compile("(.*)<=(.*)<=(.*)").match(comp).groups()`, lines 503 and 517.  The dot does not match a newline, so what follows the first
line is not looked at; the groups are greedy, so the two last `<=` of the line separate them. -/
def regexLeLe (comp : List Char) : Option (List Char × List Char × List Char) :=
  match splitLastLe (comp.takeWhile fun c => c != '\n') with
  | none => none
  | some (l, g3) =>
    match splitLastLe l with
    | none => none
    | some (g1, g2) => some (g1, g2, g3)

/-- `decode_complementarity(comp, control)`, `dolo/compiler/model.py:506-527`. -/
def decodeComplementarity (comp control : List Char) : Except Err (List (List Char)) :=
  match regexLeLe comp with
  | none => .error (.exception "Unable to parse complementarity condition")
  | some (g1, g2, g3) =>
    if stripWs g2 ≠ control then .error (.exception "Complementarity condition incorrect")
    else .ok [stripWs g1, stripWs g3]

end Dolo
