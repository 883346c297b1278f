import Mathlib.Data.List.Basic
import Verif.Model.Err

/-!
# Model of `dolo/compiler/misc.py` 5-87

`calibration_to_vector`, `calibration_to_dict`, `LoosyDict` and `CalibrationDict`.

A Python `dict` with string keys is an association list in insertion order.  NumPy arrays are
mutable objects: `CalibrationDict` is modelled on a heap of arrays, each with its `WRITEABLE`
flag, so that aliasing between the user's arrays and the stored ones is visible.
-/

namespace Dolo

/-- A Python `dict` with string keys, in insertion order. -/
abbrev PyDict (α : Type) := List (String × α)

/-- `d.get(k)`. -/
def PyDict.get? {α : Type} (d : PyDict α) (k : String) : Option α :=
  (d.find? fun kv => decide (kv.1 = k)).map (·.2)

/-- `d[k]`. -/
def PyDict.get {α : Type} (d : PyDict α) (k : String) : Except Err α :=
  match d.get? k with
  | some v => .ok v
  | none => .error .keyError

/-- `d[k] = v`: replaces in place or appends. -/
def PyDict.set {α : Type} (d : PyDict α) (k : String) (v : α) : PyDict α :=
  if d.any fun kv => decide (kv.1 = k) then d.map fun kv => if kv.1 = k then (k, v) else kv
  else d ++ [(k, v)]

/-- `k in d`. -/
def PyDict.has {α : Type} (d : PyDict α) (k : String) : Bool := d.any fun kv => decide (kv.1 = k)

/-! ## `LoosyDict`, misc.py 44-60 -/

/-- misc.py 44-52: a `dict` with a table of equivalent keys. -/
structure LoosyDict (α : Type) where
  store : PyDict α
  equivalences : PyDict String

/-- misc.py 54-60 `LoosyDict.__getitem__`. -/
def LoosyDict.getitem {α : Type} (d : LoosyDict α) (p : String) : Except Err α :=
  let k := match d.equivalences.get? p with
    | some k => k
    | none => p
  d.store.get k

/-- `d[k] = v`: `__setitem__` is not overridden, so the key is stored as given. -/
def LoosyDict.setitem {α : Type} (d : LoosyDict α) (k : String) (v : α) : LoosyDict α :=
  { d with store := d.store.set k v }

/-- `k in d`: `__contains__` is not overridden. -/
def LoosyDict.contains {α : Type} (d : LoosyDict α) (k : String) : Bool := d.store.has k

/-! ## Arrays on a heap -/

/-- One NumPy array: its `WRITEABLE` flag and its entries. -/
structure Arr (K : Type) where
  writeable : Bool
  data : List K

/-- The arrays alive in the process; an array is referred to by its position. -/
abbrev Heap (K : Type) := List (Arr K)

/-- The contents of an array. -/
def Heap.read {K : Type} (h : Heap K) (r : ℕ) : Option (List K) := h[r]?.map (·.data)

/-- What user code can do to arrays it holds: create one, or assign to an entry.  Assigning to
a read-only array raises `ValueError` and changes nothing. -/
inductive HeapOp (K : Type) where
  | alloc (data : List K)
  | assign (r i : ℕ) (v : K)

/-- One step of user code. -/
def HeapOp.run {K : Type} (h : Heap K) : HeapOp K → Heap K
  | .alloc data => h ++ [⟨true, data⟩]
  | .assign r i v => h.modify r fun a => if a.writeable then { a with data := a.data.set i v } else a

/-! ## `calibration_to_vector` and `calibration_to_dict` -/

/-- misc.py 5-18: `calibration_to_vector`, after the triangular system has been solved
(`solve_triangular_system` is in the external package dolang): `sol` is its solution, `nan` the
IEEE value used for missing symbols. -/
def calibrationToVector {K : Type} (nan : K) (symbols : PyDict (List String)) (sol : PyDict K) :
    PyDict (List K) :=
  symbols.map fun gs => (gs.1, gs.2.map fun s => (sol.get? s).getD nan)

/-- misc.py 31-32: the inner loop `for i, s in enumerate(syms): d[s] = values[i]`, started at
index `i`. -/
def flatGroup {K : Type} (values : List K) : ℕ → List String → PyDict K → Except Err (PyDict K)
  | _, [], d => .ok d
  | i, s :: syms, d => do
      let v ← pyGet values i
      flatGroup values (i + 1) syms (d.set s v)

/-- misc.py 21-34: `calibration_to_dict(symbols, calib)`, with the contents of the arrays. -/
def calibrationToDict {K : Type} (symbols : PyDict (List String)) :
    List (String × List K) → PyDict K → Except Err (PyDict K)
  | [], d => .ok d
  | (group, values) :: rest, d =>
    if group = "covariances" then calibrationToDict symbols rest d
    else do
      let syms ← symbols.get group
      let d ← flatGroup values 0 syms d
      calibrationToDict symbols rest d

/-! ## `CalibrationDict`, misc.py 63-87 -/

/-- misc.py 71-79: the attributes. -/
structure CalibObj (K : Type) where
  symbols : PyDict (List String)
  flat : PyDict K
  grouped : LoosyDict ℕ

/-- misc.py 41. -/
def equivalentSymbols : PyDict String := [("actions", "controls")]

/-- misc.py 71-79 `CalibrationDict.__init__(symbols, calib)`: `copy.deepcopy(calib)` puts fresh
copies of the arrays on the heap (one per entry; an array used for two groups is copied twice
here and once in Python, which read-only contents cannot tell apart), then
`v.setflags(write=False)`. -/
def mkCalib {K : Type} (h : Heap K) (symbols : PyDict (List String))
    (calib : List (String × ℕ)) : Except Err (CalibObj K × Heap K) := do
  let contents ← calib.mapM fun gr => do
    let a ← pyGet h gr.2
    pure (gr.1, a.data)
  let flat ← calibrationToDict symbols contents []
  let h' := h ++ contents.map fun gc => (⟨false, gc.2⟩ : Arr K)
  let refs := (List.range contents.length).map fun i => h.length + i
  pure (⟨symbols, flat, ⟨(contents.map (·.1)).zip refs, equivalentSymbols⟩⟩, h')

/-- A lookup key: a name or a tuple of keys. -/
inductive CKey where
  | name (p : String)
  | tuple (ps : List String)

/-- What a lookup of one name returns: a (reference to a) group vector, or a number. -/
inductive CVal (K : Type) where
  | arr (r : ℕ)
  | num (v : K)

/-- What a lookup returns. -/
inductive CRes (K : Type) where
  | one (v : CVal K)
  | many (l : List (CVal K))

/-- misc.py 84-87. -/
def CalibObj.getName {K : Type} (c : CalibObj K) (p : String) : Except Err (CVal K) :=
  if c.symbols.has p || c.grouped.equivalences.has p then do
    let r ← c.grouped.getitem p
    pure (.arr r)
  else do
    let v ← c.flat.get p
    pure (.num v)

/-- misc.py 81-87 `CalibrationDict.__getitem__` (tuples of names; deeper nesting of tuples is
the same recursion). -/
def CalibObj.getitem {K : Type} (c : CalibObj K) : CKey → Except Err (CRes K)
  | .name p => do
      let v ← c.getName p
      pure (.one v)
  | .tuple ps => do
      let l ← ps.mapM c.getName
      pure (.many l)

end Dolo
