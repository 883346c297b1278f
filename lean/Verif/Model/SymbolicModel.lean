import Mathlib.Data.List.Basic
import Mathlib.Data.Int.Basic
import Verif.Model.Calibration

/-!
# Model of `dolo/compiler/model.py` and `dolo/compiler/factories.py` 39-48, 99-111

What is modelled: the checks and the bookkeeping done by these files.  Parsing and printing of
expressions (`parse_string`, `sanitize`, `str_expression`, `list_symbols`, `time_shift`,
`stringify`) is done by the external package dolang: a parsed definition or equation is
represented by the parts the code looks at.  Strings that the code itself takes apart
(`split`, `strip`) are lists of characters.
-/

namespace Dolo

/-! ## `SymbolicModel.definitions`, model.py 130-252 (new style, lines 152-205) -/

/-- One line `name[date] = rhs` of a definitions block after parsing: the parameters and the
dated variables that `list_symbols(rhs)` reports, and the printed sides. -/
structure DefLine where
  name : String
  date : ℤ
  params : List String
  vars : List (String × ℤ)
  lhsText : String
  rhsText : String
  deriving DecidableEq

/-- model.py 173-198: the checks on one line, given the variables known so far. -/
def checkDef (params vars : List String) (d : DefLine) : Except Err Unit :=
  if d.name ∈ vars then .error (.exception "already defined")
  else if d.date ≠ 0 then .error (.exception "must be defined at date t")
  else if d.params.any fun p => decide (p ∈ vars) || !decide (p ∈ params) then
    .error (.exception "not a parameter")
  else if d.vars.any fun v => !decide (v.1 ∈ vars) then .error (.exception "not defined")
  else .ok ()

/-- model.py 166-202: the loop; `aux` and `defs` are the accumulated `auxiliaries` and
`definitions`. -/
def checkDefs (params : List String) : List DefLine → List String → List String →
    PyDict String → Except Err (List String × PyDict String)
  | [], _, aux, defs => .ok (aux, defs)
  | d :: rest, vars, aux, defs => do
      checkDef params vars d
      checkDefs params rest (vars ++ [d.name]) (aux ++ [d.name]) (defs.set d.lhsText d.rhsText)

/-- model.py 139-142 and 33-40: all symbols that are not parameters. -/
def variablesOf (symbols : PyDict (List String)) : List String :=
  (symbols.filter fun gs => decide (gs.1 ≠ "parameters")).flatMap (·.2)

/-- The part of a model's data and caches that `symbols` and `definitions` use. -/
structure SymState where
  /-- `self.data["symbols"]` -/
  rawSymbols : PyDict (List String)
  /-- `self.data["definitions"]` when present -/
  rawDefs : Option (List DefLine)
  /-- `self.__symbols__` -/
  symbols : Option (PyDict (List String))
  /-- `self.__definitions__` -/
  defs : Option (PyDict String)
  deriving DecidableEq

/-- model.py 137-205: the body of the property `definitions`, once `self.symbols` (line 138) has
returned and `self.__symbols__` is `syms`.  The result is stored in the two caches. -/
def defsBody (st : SymState) (syms : PyDict (List String)) :
    Except Err (PyDict String) × SymState :=
  match st.rawDefs with
  | none => (.ok [], { st with defs := some [] })
  | some lines =>
    match syms.get "parameters" with
    | .error e => (.error e, st)
    | .ok params =>
      match checkDefs params lines (variablesOf syms) [] [] with
      | .error e => (.error e, st)
      | .ok (aux, defs) =>
        (.ok defs, { st with symbols := some (syms.set "auxiliaries" aux), defs := some defs })

/-- model.py 13-30: the property `symbols`.  Line 25 stores the declared symbols, line 28 reads
`self.definitions`; inside that call `self.symbols` returns at once, so the recursion stops
after one level. -/
def readSymbols (st : SymState) : Except Err (PyDict (List String)) × SymState :=
  match st.symbols with
  | some s => (.ok s, st)
  | none =>
    let st1 := { st with symbols := some st.rawSymbols }
    match st1.defs with
    | some _ => (.ok st.rawSymbols, st1)
    | none =>
      match defsBody st1 st.rawSymbols with
      | (.error e, st2) => (.error e, st2)
      | (.ok _, st2) => (.ok (st2.symbols.getD st.rawSymbols), st2)

/-- model.py 130-252: the property `definitions`. -/
def readDefinitions (st : SymState) : Except Err (PyDict String) × SymState :=
  match st.defs with
  | some d => (.ok d, st)
  | none =>
    match readSymbols st with
    | (.error e, st1) => (.error e, st1)
    | (.ok syms, st1) => defsBody st1 syms

/-! ## `SymbolicModel.equations`, model.py 72-105 -/

/-- One arbitrage equation: its printed form, and its condition `lb <= v[t] <= ub` if it is a
`double_complementarity`. -/
structure ArbEq where
  text : String
  comp : Option (String × (String × ℤ) × String)

/-- What the loop of lines 77-101 accumulates. -/
structure ArbAcc where
  ll : List String
  lb : List String
  ub : List String
  withComp : Bool

/-- model.py 77-101, one turn with index `i`. -/
def arbStep (controls : List String) (acc : ArbAcc) (i : ℕ) (eq : ArbEq) : Except Err ArbAcc :=
  match eq.comp with
  | some (lb, vt, ub) => do
      let ctl ← pyGet controls i
      if vt ≠ (ctl, 0) then .error (.exception "Incorrect variable in complementarity")
      else pure ⟨acc.ll ++ [eq.text], acc.lb ++ [lb], acc.ub ++ [ub], true⟩
  | none => pure ⟨acc.ll ++ [eq.text], acc.lb ++ ["-inf"], acc.ub ++ ["inf"], acc.withComp⟩

/-- model.py 77-101: the loop over `enumerate(eq_list)`. -/
def arbLoop (controls : List String) : ℕ → List ArbEq → ArbAcc → Except Err ArbAcc
  | _, [], acc => .ok acc
  | i, eq :: eqs, acc => do
      let acc ← arbStep controls acc i eq
      arbLoop controls (i + 1) eqs acc

/-- model.py 72-105: the entries written for the group `arbitrage`. -/
def arbitrageEquations (controls : List String) (eqs : List ArbEq) :
    Except Err (PyDict (List String)) := do
  let acc ← arbLoop controls 0 eqs ⟨[], [], [], false⟩
  pure (if acc.withComp then
    [("arbitrage", acc.ll), ("arbitrage_lb", acc.lb), ("arbitrage_ub", acc.ub)]
    else [("arbitrage", acc.ll)])

/-! ## Strings taken apart -/

/-- `s.split(sep)` for a one-character separator. -/
def splitOn1 (sep : Char) : List Char → List (List Char)
  | [] => [[]]
  | c :: cs =>
    if c = sep then [] :: splitOn1 sep cs
    else match splitOn1 sep cs with
      | [] => [[c]]
      | w :: ws => (c :: w) :: ws

/-- `s.strip()`, for the white space that occurs in one line. -/
def stripWs (s : List Char) : List Char :=
  let ws := fun c => decide (c = ' ') || decide (c = '\t') || decide (c = '\n')
  ((s.dropWhile ws).reverse.dropWhile ws).reverse

/-! ## `get_exogenous`, model.py 388-424 (keyed section, lines 407-424) -/

/-- model.py 411-415: the symbols listed by the keys of the section. -/
def exoSymbols (keys : List (List Char)) : List (List Char) :=
  keys.flatMap fun k => (splitOn1 ',' k).map stripWs

/-- model.py 407-424: the check on the order, then the processes in the order of the keys. -/
def getExogenous {P : Type} (syms : List (List Char)) (section_ : List (List Char × P)) :
    Except Err (List P) :=
  if syms ≠ exoSymbols (section_.map (·.1)) then .error (.exception "must match declaration order")
  else .ok (section_.map (·.2))

/-! ## `get_calibration`, model.py 281-341 -/

/-- model.py 306-312: `initial_values`. -/
def initialValues {V : Type} (zero nan : V) : PyDict V :=
  [("exogenous", zero), ("expectations", zero), ("values", zero), ("controls", nan),
    ("states", nan)]

/-- model.py 315-319: the keys of `initialized_from_model`. -/
def initializedFromModel : List String := ["values", "expectations", "direct_responses"]

/-- model.py 304-341: the dict passed to the triangular solver.  `user` are the entries read
from the calibration section, `defs` the definitions with timing removed, both as expressions
`V`. -/
def fullCalibration {V : Type} (zero nan : V) (symbols : PyDict (List String)) (user : PyDict V)
    (defs : PyDict V) : PyDict V :=
  let c1 := defs.foldl (fun c kv => if c.has kv.1 then c else c.set kv.1 kv.2) user
  symbols.foldl (fun c gs =>
    if gs.1 ∈ initializedFromModel then c
    else
      let default := ((initialValues zero nan).get? gs.1).getD nan
      gs.2.foldl (fun c s => if c.has s then c else c.set s default) c) c1

/-! ## Caches: `Model`, model.py 530-646, and `get_domain`, 347-386 -/

/-- The data of a model.  `V` are the expressions of the calibration, `W` the pairs of bounds of
the domain section, `Q` everything `functions` is compiled from. -/
structure MData (V W Q : Type) where
  states : List String
  /-- `data["calibration"]` -/
  calibration : Option (PyDict V)
  /-- `data["domain"]` -/
  domain : Option (PyDict W)
  /-- `options:grid:min` and `options:grid:max`, zipped state by state (line 362-365); `none` if
  absent. -/
  gridBounds : Option (List W)
  eqs : Q

/-- The evaluators: `get_calibration` from the calibration section (triangular solver),
evaluation of the domain and exogenous sections in a calibration, compilation. -/
structure MEval (V W Q C B X F : Type) where
  calib : PyDict V → Except Err C
  bounds : PyDict W → C → Except Err (PyDict B)
  exo : C → Except Err X
  compile : Q → Except Err F

/-- model.py 352-368: the domain section after the clean-up, and what is left of it in
`self.data` (a missing section is a temporary dict, line 352).  The clean-up removes the keys
that are not states.  (Simplification: removing keys while iterating over them works.) -/
def cleanDomain {V W Q : Type} (d : MData V W Q) : PyDict W × Option (PyDict W) :=
  let present := d.domain.isSome
  let sd := (d.domain.getD []).filter fun kv => decide (kv.1 ∈ d.states)
  let sd' := if sd.isEmpty && !d.states.isEmpty then
      match d.gridBounds with
      | some b => d.states.zip b
      | none => sd
    else sd
  (sd', if present then some sd' else none)

/-- model.py 347-386 `get_domain`. -/
def getDomain {V W Q C B X F : Type} (ev : MEval V W Q C B X F) (d : MData V W Q) :
    Except Err (Option (PyDict B)) × MData V W Q :=
  match ev.calib (d.calibration.getD []) with
  | .error e => (.error e, d)
  | .ok c =>
    let cd := cleanDomain d
    let d' := { d with domain := cd.2 }
    if cd.1.isEmpty then (.ok none, d')
    else if cd.1.length < d.states.length then (.error (.exception "Missing domain"), d')
    else match ev.bounds cd.1 c with
      | .error e => (.error e, d')
      | .ok b => (.ok (some b), d')

/-- A `Model`: its data and its caches. -/
structure MState (V W Q C B X F : Type) where
  data : MData V W Q
  calibration : Option C
  /-- `__domain__`: a computed domain that is `None` (line 371) is not distinguished from one not
  computed yet -/
  domain : Option (PyDict B)
  exogenous : Option X
  functions : Option F

variable {V W Q C B X F : Type}

/-- A model just built from data (`check=False`). -/
def MState.fresh (d : MData V W Q) : MState V W Q C B X F := ⟨d, none, none, none, none⟩

/-- model.py 569-577. -/
def MState.readCalibration (ev : MEval V W Q C B X F) (st : MState V W Q C B X F) :
    Except Err C × MState V W Q C B X F :=
  match st.calibration with
  | some c => (.ok c, st)
  | none =>
    match ev.calib (st.data.calibration.getD []) with
    | .error e => (.error e, st)
    | .ok c => (.ok c, { st with calibration := some c })

/-- model.py 579-583. -/
def MState.readExogenous (ev : MEval V W Q C B X F) (st : MState V W Q C B X F) :
    Except Err X × MState V W Q C B X F :=
  match st.exogenous with
  | some x => (.ok x, st)
  | none =>
    match ev.calib (st.data.calibration.getD []) with
    | .error e => (.error e, st)
    | .ok c =>
      match ev.exo c with
      | .error e => (.error e, st)
      | .ok x => (.ok x, { st with exogenous := some x })

/-- model.py 585-589. -/
def MState.readDomain (ev : MEval V W Q C B X F) (st : MState V W Q C B X F) :
    Except Err (Option (PyDict B)) × MState V W Q C B X F :=
  match st.domain with
  | some b => (.ok (some b), st)
  | none =>
    match getDomain ev st.data with
    | (.error e, d) => (.error e, { st with data := d })
    | (.ok r, d) => (.ok r, { st with data := d, domain := r })

/-- model.py 642-646. -/
def MState.readFunctions (ev : MEval V W Q C B X F) (st : MState V W Q C B X F) :
    Except Err F × MState V W Q C B X F :=
  match st.functions with
  | some f => (.ok f, st)
  | none =>
    match ev.compile st.data.eqs with
    | .error e => (.error e, st)
    | .ok f => (.ok f, { st with functions := some f })

/-- model.py 553-561 `set_changed`; the symbol and equation caches, which `all=True` resets in
addition, are a function of the data here. -/
def MState.setChanged (st : MState V W Q C B X F) : MState V W Q C B X F :=
  { st with domain := none, exogenous := none, calibration := none }

/-- `data["calibration"].update(kwargs)`. -/
def updateDict {α : Type} (d : PyDict α) (kw : PyDict α) : PyDict α :=
  kw.foldl (fun d kv => d.set kv.1 kv.2) d

/-- model.py 566-567: `set_changed(); self.data["calibration"].update(kwargs)`. -/
def MState.setCalibrationKw (st : MState V W Q C B X F) (kw : PyDict V) :
    Except Err Unit × MState V W Q C B X F :=
  let st := st.setChanged
  match st.data.calibration with
  | none => (.error .keyError, st)
  | some c => (.ok (), { st with data := { st.data with calibration := some (updateDict c kw) } })

/-- model.py 563-567 `set_calibration(*pargs, **kwargs)`: exactly one positional dict is passed on
as keywords first. -/
def MState.setCalibration (st : MState V W Q C B X F) (pargs : List (PyDict V)) (kw : PyDict V) :
    Except Err Unit × MState V W Q C B X F :=
  match pargs with
  | [p] =>
    match st.setCalibrationKw p with
    | (.error e, st) => (.error e, st)
    | (.ok _, st) => st.setCalibrationKw kw
  | _ => st.setCalibrationKw kw

/-! ## `CartesianDomain`, objects.py 21-46 -/

/-- objects.py 33-36 `states`: the keys of the dict, in insertion order. -/
def domainStates {K : Type} (b : PyDict (K × K)) : List String := b.map (·.1)

/-- objects.py 38-40 `min`: `[self[e][0] for e in self.states]`. -/
def domainMin {K : Type} (b : PyDict (K × K)) : Except Err (List K) :=
  (domainStates b).mapM fun e => do
    let v ← b.get e
    pure v.1

/-- objects.py 42-46 `max`: `[self[e][1] for e in self.states]`. -/
def domainMax {K : Type} (b : PyDict (K × K)) : Except Err (List K) :=
  (domainStates b).mapM fun e => do
    let v ← b.get e
    pure v.2

/-! ## factories.py -/

/-- One entry `[group, date, name]` of a recipe. -/
structure SpecEntry where
  group : String
  date : ℤ
  name : String
  deriving DecidableEq

/-- A recipe: the optional target and the arguments. -/
structure Spec where
  target : Option SpecEntry
  eqs : List SpecEntry
  deriving DecidableEq

/-- factories.py 39-48 `shift_spec`. -/
def shiftSpec (s : Spec) (k : ℤ) : Spec :=
  { target := s.target.map fun e => ⟨e.group, e.date + k, e.name⟩
    eqs := s.eqs.map fun e => if e.group ≠ "parameters" then ⟨e.group, e.date + k, e.name⟩ else e }

/-- factories.py 101-104: with a target, `eq.split("=")[1]` for each equation, paired with the
symbols of the target group (line 141, `dict(zip(targets, eqs))`). -/
def targetEquations (targets : List String) (eqs : List (List Char)) :
    Except Err (List (String × List Char)) := do
  let rhs ← eqs.mapM fun eq => pyGet (splitOn1 '=' eq) 1
  pure (targets.zip (rhs.map stripWs))

/-- factories.py 106-108: without a target, `"({1})-({0})".format(*eq.split("="))` if there is an
equal sign, the expression itself otherwise. -/
def residualText (eq : List Char) : List Char :=
  match splitOn1 '=' eq with
  | l :: r :: _ => ['('] ++ r ++ [')', '-', '('] ++ l ++ [')']
  | _ => eq

end Dolo
