import Mathlib.Data.List.Basic
import Verif.Model.Err
import Verif.Model.Calibration

/-!
# Model of `endo_grid`, `get_type` and `get_address`, `dolo/compiler/model.py:424-498`

The data of a model are the nodes made by `yaml.compose` (`model_import.py:12`).  A node has a tag: the one
written in the file (`!Cartesian`), or one of the default tags of YAML (`tag:yaml.org,2002:map` for a
mapping, `tag:yaml.org,2002:str` for a text, ...).  `eval_data` of a scalar or of a list without references
to the calibration is its value `α`, kept in the leaves.
-/

namespace Dolo

/-- A node of the data: a value, a list or a mapping. -/
inductive YNode (α : Type) where
  | leaf (tag : String) (v : α)
  | seq (tag : String) (items : List (YNode α))
  | map (tag : String) (fields : List (String × YNode α))

variable {α : Type}

/-- The tag given by PyYAML to a mapping without tag. -/
def mapTag : String := "tag:yaml.org,2002:map"

def YNode.tag : YNode α → String
  | .leaf t _ => t
  | .seq t _ => t
  | .map t _ => t

/-- `node.get(k)`; only mappings have this method. -/
def YNode.get (d : YNode α) (k : String) : Except Err (Option (YNode α)) :=
  match d with
  | .leaf _ _ => .error .attributeError
  | .seq _ _ => .error .attributeError
  | .map _ fields => .ok (PyDict.get? fields k)

/-- `str.strip("!")`. -/
def stripBang (s : String) : String :=
  String.ofList (((s.toList.dropWhile (· = '!')).reverse.dropWhile (· = '!')).reverse)

/-- Lines 474-480 `get_type(d)`: the tag of a node; `None` has neither a tag nor a method `get`. -/
def getType : Option (YNode α) → Except Err (Option String)
  | some d => .ok (some (stripBang d.tag))
  | none => .error .attributeError

/-- Lines 492-498: one address, already cut at `:`. -/
def getPath : YNode α → List String → Except Err (Option (YNode α))
  | d, [] => .ok (some d)
  | d, f :: fs => do
    match ← d.get f with
    | none => pure none
    | some d' => getPath d' fs

/-- Lines 485-491: a list of addresses; all are looked up, and the first that is found is returned. -/
def getAddress (data : YNode α) (addresses : List (List String)) : Except Err (Option (YNode α)) := do
  let found ← addresses.mapM (getPath data)
  pure ((found.filterMap id).head?)

/-- A grid. -/
inductive GridSpec (K : Type) where
  | uniform (min max : List K) (n : List ℕ)
  | nonUniform (nodes : List (List K))
  | smolyak (min max : List K) (mu : ℕ)

/-- Values in the section `options`. -/
inductive OptVal (K : Type) where
  | ints (l : List ℕ)
  | int (n : ℕ)
  | str (s : String)
  | vector (v : List K)

variable {K : Type}

/-- `orders` is passed to the grid as it is; something that is not a list of numbers is refused there. -/
def asInts : YNode (OptVal K) → Except Err (List ℕ)
  | .leaf _ (.ints l) => .ok l
  | _ => .error .typeError

def asInt : YNode (OptVal K) → Except Err ℕ
  | .leaf _ (.int n) => .ok n
  | _ => .error .typeError

/-- `grid_type.lower()` on what is found at an address. -/
def asStr : YNode (OptVal K) → Except Err String
  | .leaf _ (.str s) => .ok s
  | _ => .error .attributeError

def asVector : YNode (OptVal K) → Except Err (List K)
  | .leaf _ (.vector v) => .ok v
  | _ => .error .typeError

/-- Lines 437-443: the type of the grid. -/
def gridType (data : YNode (OptVal K)) : Except Err String := do
  let options := (← data.get "options").getD (.map mapTag [])
  match ← getType (← options.get "grid") with
  | some t => pure t
  | none =>
    match ← getAddress data [["options", "grid", "type"], ["options", "grid_type"]] with
    | some t => asStr t
    | none => .error (.exception "Missing grid geometry")

/-- Lines 446-470, for a type of grid. -/
def buildGrid (data : YNode (OptVal K)) (min max : List K) (gtype : String) : Except Err (GridSpec K) :=
  let t := gtype.toLower
  if t = "cartesian" ∨ t = "cartesiangrid" then do
    match ← getAddress data [["options", "grid", "n"], ["options", "grid", "orders"]] with
    | none => pure (.uniform min max (List.replicate min.length 20))
    | some o => do
      let n ← asInts o
      pure (.uniform min max n)
  else if t = "nonuniformcartesian" ∨ t = "nonuniformcartesiangrid" then do
    match ← getPath data ["options", "grid"] with
    | some (.seq _ items) => do
      let nodes ← items.mapM asVector
      pure (.nonUniform nodes)
    | _ => .error .typeError
  else if t = "smolyak" ∨ t = "smolyakgrid" then do
    match ← getAddress data [["options", "grid", "mu"]] with
    | none => pure (.smolyak min max 2)
    | some o => do
      let mu ← asInt o
      pure (.smolyak min max mu)
  else .error (.exception "Unknown grid type.")

/-- Lines 424-472 `endo_grid`; `domain` is the minimum and the maximum of `get_domain()`, `none` if this is
`None`. -/
def endoGrid (domain : Option (List K × List K)) (data : YNode (OptVal K)) : Except Err (GridSpec K) :=
  match domain with
  | none => .error .attributeError
  | some (min, max) => do
    let t ← gridType data
    buildGrid data min max t

end Dolo
