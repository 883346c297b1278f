import Mathlib.Algebra.Order.Field.Basic
import Verif.Model.Calibration
import Verif.Model.SymbolicModel

/-!
# Printing a model: `dolo/misc/termcolor.py`, `Model.__str__` and `Model._repr_html_`

Text is a list of characters.  A residual is `none` for `nan` and `some v` for a number; formatting it with
`{:.4f}` and `{:.3f}` is a parameter, and so is `dolang.latex.eq2tex`.
-/

namespace Dolo

/-! ## termcolor.py -/

/-- termcolor.py 64-80 `COLORS`. -/
def colorCodes : PyDict ℕ :=
  [("grey", 30), ("red", 31), ("green", 32), ("yellow", 33), ("blue", 34), ("magenta", 35), ("cyan", 36),
    ("white", 37)]

/-- termcolor.py 44-61 `HIGHLIGHTS`. -/
def highlightCodes : PyDict ℕ :=
  [("on_grey", 40), ("on_red", 41), ("on_green", 42), ("on_yellow", 43), ("on_blue", 44), ("on_magenta", 45),
    ("on_cyan", 46), ("on_white", 47)]

/-- termcolor.py 33-41 `ATTRIBUTES`, the empty name being deleted. -/
def attributeCodes : PyDict ℕ :=
  [("bold", 1), ("dark", 2), ("underline", 4), ("blink", 5), ("reverse", 7), ("concealed", 8)]

/-- termcolor.py 103: `"\033[%dm%s" % (code, text)`. -/
def ansi (code : ℕ) (text : List Char) : List Char :=
  "\x1b[".toList ++ (Nat.repr code).toList ++ "m".toList ++ text

/-- termcolor.py 86-115 `colored`; `disabled` says whether the variable `ANSI_COLORS_DISABLED` is set. -/
def colored (disabled : Bool) (text : List Char) (color onColor : Option String)
    (attrs : Option (List String)) : Except Err (List Char) :=
  if disabled then .ok text else do
    let text ← match color with
      | some c => do pure (ansi (← colorCodes.get c) text)
      | none => pure text
    let text ← match onColor with
      | some c => do pure (ansi (← highlightCodes.get c) text)
      | none => pure text
    let text ← (attrs.getD []).foldlM (fun t a => do pure (ansi (← attributeCodes.get a) t)) text
    pure (text ++ "\x1b[0m".toList)

/-! ## Model.__str__ -/

variable {K : Type} [Field K] [LinearOrder K]

/-- `abs(val) < 1e-8`; false for `nan`. -/
def absBelow (v : Option K) : Bool := v.elim false fun v => decide (|v| < 1 / 10 ^ 8)

/-- `abs(val) > 1e-8`; false for `nan`. -/
def absAbove (v : Option K) : Bool := v.elim false fun v => decide (1 / 10 ^ 8 < |v|)

/-- `"{eqn:2}".format(eqn=str(i + 1))`. -/
def eqNumber (i : ℕ) : List Char :=
  let s := (Nat.repr (i + 1)).toList
  s ++ List.replicate (2 - s.length) ' '

/-- model.py 682-695: the line of one equation; `val` is the entry of `res[eqgroup]`, `none` for `None`. -/
def strLine (disabled : Bool) (fmt4 : Option K → List Char) (i : ℕ) (eq : List Char)
    (val : Option (Option K)) : Except Err (List Char) :=
  match val with
  | none => .ok (" ".toList ++ eqNumber i ++ " : ".toList ++ eq ++ "\n".toList)
  | some val => do
    let val := if absBelow val then some 0 else val
    let vals := fmt4 val
    let vals ← if absAbove val then colored disabled vals (some "red") none none else pure vals
    pure (" ".toList ++ eqNumber i ++ " : ".toList ++ vals ++ " : ".toList ++ eq ++ "\n".toList)

/-- model.py 680-695: the lines of the equations from number `i` on. -/
def strLines (disabled : Bool) (fmt4 : Option K → List Char) (res : List (Option (Option K))) :
    ℕ → List (List Char) → Except Err (List Char)
  | _, [] => .ok []
  | i, eq :: eqs => do
    let val ← pyGet res i
    let l ← strLine disabled fmt4 i eq val
    let rest ← strLines disabled fmt4 res (i + 1) eqs
    pure (l ++ rest)

/-- model.py 668-696: the loop over the groups `res.keys()`. -/
def strGroups (disabled : Bool) (fmt4 : Option K → List Char) (equations : PyDict (List (List Char))) :
    List (String × List (Option (Option K))) → Except Err (List Char)
  | [] => .ok []
  | (g, r) :: gs =>
    if g = "auxiliary" then strGroups disabled fmt4 equations gs else do
      let eqlist ← equations.get g
      let r := if g = "definitions" then eqlist.map fun _ => none else r
      let ls ← strLines disabled fmt4 r 0 eqlist
      let rest ← strGroups disabled fmt4 equations gs
      pure (g.toList ++ "\n".toList ++ ls ++ "\n".toList ++ rest)

/-- model.py 662-664: the definitions as equations. -/
def defEquations (defs : List (String × List Char)) : List (List Char) :=
  defs.map fun kv => kv.1.toList ++ " = ".toList ++ kv.2

/-- `Model.infos`, model.py 268-275. -/
structure ModelInfos where
  name : List Char
  type : List Char
  filename : List Char

/-- model.py 648-702 `Model.__str__`: the text, and `self.equations` after the call.  `res` is what
`self.residuals()` returns. -/
def modelStr (disabled : Bool) (fmt4 : Option K → List Char) (infos : ModelInfos)
    (eqs : PyDict (List (List Char))) (defs : List (String × List Char)) (res : PyDict (List (Option K))) :
    Except Err (List Char × PyDict (List (List Char))) := do
  let s := "\n        Model:\n        ------\n        name: \"".toList ++ infos.name ++
    "\"\n        type: \"".toList ++ infos.type ++ "\"\n        file: \"".toList ++ infos.filename ++
    "\n".toList
  let ss := "\nEquations:\n----------\n\n".toList
  let res := (PyDict.set res "definitions" [some 0]).map fun kv => (kv.1, kv.2.map some)
  let equations := PyDict.set eqs "definitions" (defEquations defs)
  let gs ← strGroups disabled fmt4 equations res
  pure (s ++ ss ++ gs, eqs)

/-! ## Model._repr_html_ -/

/-- model.py 754-759: keeps what precedes `sep`; the unpacking fails if there are several. -/
def beforeSep (sep : Char) (eq : List Char) : Except Err (List Char) :=
  if sep ∈ eq then
    match splitOn1 sep eq with
    | [e, _] => .ok e
    | _ => .error .valueError
  else .ok eq

/-- model.py 745-753: the cell of the residual. -/
def htmlVal (fmt3 fmt4 : Option K → List Char) (res : PyDict (List (Option K))) (g : String) (i : ℕ) :
    Except Err (List Char) :=
  if g = "arbitrage" ∨ g = "transition" ∨ g = "arbitrage_exp" then do
    let r ← res.get g
    let val ← pyGet r i
    if absAbove val then
      pure ("<span style=\"color: red;\">".toList ++ fmt4 val ++ "</span>".toList)
    else pure (fmt3 val)
  else pure []

/-- model.py 741-765: the line of equation `i` of the group `g`. -/
def htmlLine (tex : List Char → Except Err (List Char)) (fmt3 fmt4 : Option K → List Char)
    (res : PyDict (List (Option K))) (g : String) (i : ℕ) (eq : List Char) : Except Err (List Char) := do
  let vals ← htmlVal fmt3 fmt4 res g i
  let eq ← beforeSep '⟂' eq
  let eq ← beforeSep '|' eq
  let lat ← tex eq
  let lat := "$".toList ++ lat ++ "$".toList
  let h := if i = 0 then g.toList else []
  pure ("<tr><td>".toList ++ h ++ "</td><td>".toList ++ lat ++ "</td><td>".toList ++ vals ++
    "</td></tr>".toList)

/-- model.py 740-765: the lines `eq_lines` of one group, from number `i` on. -/
def htmlLines (tex : List Char → Except Err (List Char)) (fmt3 fmt4 : Option K → List Char)
    (res : PyDict (List (Option K))) (g : String) : ℕ → List (List Char) → Except Err (List (List Char))
  | _, [] => .ok []
  | i, eq :: eqs => do
    let l ← htmlLine tex fmt3 fmt4 res g i eq
    let rest ← htmlLines tex fmt3 fmt4 res g (i + 1) eqs
    pure (l :: rest)

/-- model.py 707-780 `Model._repr_html_`: the lines of the table of equations, by group, and `self.equations`
after the call; the table of general informations and the surrounding tags are left out. -/
def modelHtml (tex : List Char → Except Err (List Char)) (fmt3 fmt4 : Option K → List Char)
    (eqs : PyDict (List (List Char))) (defs : List (String × List Char)) (res : PyDict (List (Option K))) :
    Except Err (List (List (List Char)) × PyDict (List (List Char))) := do
  let equations := PyDict.set eqs "definitions" (defEquations defs)
  let ls ← equations.mapM fun ge => htmlLines tex fmt3 fmt4 res ge.1 0 ge.2
  pure (ls, eqs)

end Dolo
