import Verif.Model.Calibration

/-!
# Progress tables

Models `dolo/misc/itprinter.py` and the tables printed by `time_iteration` (`dolo/algos/time_iteration.py:174-182, 230,
238`), `improved_time_iteration` (`dolo/algos/improved_time_iteration.py:281-293, 499-509, 517`) and `value_iteration`
(`dolo/algos/value_iteration.py:102-112, 173-183`), and what `egm` prints (`dolo/algos/egm.py:33-35, 77-121`).

Texts are lists of characters.  What Python makes of a number is left abstract: `reprV v` is the text of `v` in a
format without precision, `sciV v` the one in the format `.3e`, both before padding.  Printing is the list of lines
printed.
-/

namespace Dolo

/-- Text. -/
abbrev Text := List Char

/-- Numbers are aligned to the right in a field of minimal width `w` (Python's default for numbers). -/
def padLeft (w : ℕ) (s : Text) : Text := List.replicate (w - s.length) ' ' ++ s

/-- Strings are aligned to the left. -/
def padRight (w : ℕ) (s : Text) : Text := s ++ List.replicate (w - s.length) ' '

/-- `str.join(sep, l)`. -/
def joinText (sep : Text) (l : List Text) : Text := sep.intercalate l

/-- The type given for a column: `int`, `float`, or something else. -/
inductive ColType where
  | int
  | float
  | other
  deriving DecidableEq

/-- A format: `"{:w}"` or `"{:9.3e}"`. -/
inductive ColFmt where
  | plain (w : ℕ)
  | sci

/-- How numbers are written. -/
structure NumText (V : Type) where
  reprV : V → Text
  sciV : V → Text
  zero : V

variable {V : Type}

/-- `fmt.format(v)`. -/
def ColFmt.apply (N : NumText V) : ColFmt → V → Text
  | .plain w, v => padLeft w (N.reprV v)
  | .sci, v => padLeft 9 (N.sciV v)

/-- `itprinter.py:12-20`: the format of a column; none is appended for other types. -/
def colFmt (k : String) : ColType → List ColFmt
  | .int => [.plain (max 4 k.toList.length)]
  | .float => [.sci]
  | .other => []

/-- The attributes of an `IterationsPrinter`. -/
structure ItPrinter where
  verbose : Bool
  names : List String
  types : List ColType
  fmts : List ColFmt
  width : ℕ

/-- The texts of the fields; extra values are ignored, missing ones raise an `IndexError`. -/
def fieldTexts (N : NumText V) : List ColFmt → List V → Except Err (List Text)
  | [], _ => .ok []
  | _ :: _, [] => .error .indexError
  | f :: fs, v :: vs => do
    let l ← fieldTexts N fs vs
    .ok (f.apply N v :: l)

/-- `fmt_str.format(*vals)` with `fmt_str = "| " + str.join(" | ", fmts) + " |"`, lines 21, 56. -/
def formatLine (N : NumText V) (fmts : List ColFmt) (vals : List V) : Except Err Text := do
  let l ← fieldTexts N fmts vals
  .ok (['|', ' '] ++ joinText [' ', '|', ' '] l ++ [' ', '|'])

/-- `IterationsPrinter(*knames, verbose=verbose)`, lines 5-26; `dict(knames)` keeps the first position and the last type
of a repeated name. -/
def ItPrinter.init (N : NumText V) (knames : List (String × ColType)) (verbose : Bool) : Except Err ItPrinter := do
  let d : PyDict ColType := knames.foldl (fun d kv => PyDict.set d kv.1 kv.2) []
  let fmts := d.flatMap fun kv => colFmt kv.1 kv.2
  let line ← formatLine N fmts (d.map fun _ => N.zero)
  .ok ⟨verbose, d.map (·.1), d.map (·.2), fmts, line.length⟩

/-- `print_line`, lines 28-31. -/
def ItPrinter.printLine (p : ItPrinter) : List Text :=
  if p.verbose then [List.replicate p.width '-'] else []

/-- One field of the titles, lines 43-47. -/
def titleField (k : String) : ColType → Text
  | .int => [' '] ++ padRight 4 k.toList ++ [' ', '|']
  | .float => [' '] ++ padRight 9 k.toList ++ [' ', '|']
  | .other => []

/-- The line of titles, lines 41-49. -/
def ItPrinter.titles (p : ItPrinter) : Text :=
  ['|'] ++ (p.names.zip p.types).flatMap fun kt => titleField kt.1 kt.2

/-- A line with a message, lines 38-39 and 62-64: `ll + " " * (width - len(ll) - 1) + "|"` with `ll = "| " + msg`. -/
def ItPrinter.message (p : ItPrinter) (msg : Text) : Text :=
  let ll := ['|', ' '] ++ msg
  ll ++ List.replicate (p.width - ll.length - 1) ' ' ++ ['|']

/-- `print_header(msg)`, lines 33-50. -/
def ItPrinter.printHeader (p : ItPrinter) (msg : Option Text) : List Text :=
  if p.verbose then
    p.printLine ++ (match msg with | some m => [p.message m] ++ p.printLine | none => []) ++ [p.titles] ++ p.printLine
  else []

/-- `print_iteration(**args)`, lines 52-56. -/
def ItPrinter.printIteration (N : NumText V) (p : ItPrinter) (args : PyDict V) : Except Err (List Text) :=
  if p.verbose then do
    let vals ← p.names.mapM fun k => args.get k
    let l ← formatLine N p.fmts vals
    .ok [l]
  else .ok []

/-- `print_finished()`, lines 58-66; `elapsed` is the text `"Elapsed: ... seconds."`. -/
def ItPrinter.printFinished (p : ItPrinter) (elapsed : Text) : List Text :=
  if p.verbose then p.printLine ++ [p.message elapsed] ++ p.printLine ++ [[]] else []

/-- A whole run: the header, one line per pass, and the end. -/
def ItPrinter.run (N : NumText V) (p : ItPrinter) (msg : Text) (passes : List (PyDict V)) (elapsed : Text) :
    Except Err (List Text) := do
  let ls ← passes.mapM (p.printIteration N)
  .ok (p.printHeader (some msg) ++ ls.flatten ++ p.printFinished elapsed)

/-- The columns of `time_iteration`, `time_iteration.py:174-181`. -/
def tiColumns : List (String × ColType) :=
  [("N", .int), ("Error", .float), ("Gain", .float), ("Time", .float), ("nit", .int)]

/-- The line printed by `time_iteration`, `time_iteration.py:230`. -/
def tiLine (N Error Gain Time nit : V) : PyDict V :=
  [("N", N), ("Error", Error), ("Gain", Gain), ("Time", Time), ("nit", nit)]

/-- The columns of `improved_time_iteration`, `improved_time_iteration.py:281-292`. -/
def itiColumns : List (String × ColType) :=
  [("N", .int), ("f_x", .float), ("d_x", .float), ("Time_residuals", .float), ("Time_inversion", .float),
   ("Time_search", .float), ("Lambda_0", .float), ("N_invert", .int), ("N_search", .int)]

/-- The line printed by `improved_time_iteration`, `improved_time_iteration.py:499-509`. -/
def itiLine (N f_x d_x Time_residuals Time_inversion Time_search Lambda_0 N_invert N_search : V) : PyDict V :=
  [("N", N), ("f_x", f_x), ("d_x", d_x), ("Time_residuals", Time_residuals), ("Time_inversion", Time_inversion),
   ("Time_search", Time_search), ("Lambda_0", Lambda_0), ("N_invert", N_invert), ("N_search", N_search)]

/-- The columns of `value_iteration`, `value_iteration.py:102-111`. -/
def viColumns : List (String × ColType) :=
  [("N", .int), ("Error_V", .float), ("Gain_V", .float), ("Error_x", .float), ("Gain_x", .float), ("Eval_n", .int),
   ("Time", .float)]

/-- The line printed by `value_iteration`, `value_iteration.py:173-181`. -/
def viLine (N Error_V Gain_V Error_x Gain_x Eval_n Time : V) : PyDict V :=
  [("N", N), ("Error_V", Error_V), ("Gain_V", Gain_V), ("Error_x", Error_x), ("Gain_x", Gain_x), ("Eval_n", Eval_n),
   ("Time", Time)]

/-- What one pass of the loop of `egm` prints, `egm.py:100-121`: `print(it, i_m, i_M)` for every pair of nodes, whatever
`verbose`, then a line of the table when `verbose` is set. -/
def egmPrints (show3 : ℕ → ℕ → ℕ → Text) (row : ℕ → Text) (verbose : Bool) (nm : ℕ) (nInodes : ℕ → ℕ) (it : ℕ) :
    List Text :=
  ((List.range nm).flatMap fun i_m => (List.range (nInodes i_m)).map fun i_M => show3 it i_m i_M)
    ++ (if verbose then [row it] else [])

end Dolo
