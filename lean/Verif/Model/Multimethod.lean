import Mathlib.Data.List.Basic
import Mathlib.Data.List.Lex
import Mathlib.Data.List.Dedup
import Verif.Model.Err

/-!
# Model of `dolo/misc/multimethod.py` 102-201 (`signature`, `multimethod`)

Classes are ordinary classes: generic types (`subtype`, 53-99, and the slower `get_type`,
231-252) are not modelled, so that `signature(types)` is the tuple of types itself.  Pending
forward references (136-140, 203-211) are taken as evaluated.  Keyword arguments, docstrings,
binding (`__get__`) and `overload` (260-287) are not modelled.
-/

namespace Dolo

/-- What dispatch asks Python about classes. -/
structure Classes (Cls : Type) where
  /-- `issubclass(a, b)` -/
  sub : Cls → Cls → Bool
  /-- `a.mro()` -/
  mro : Cls → List Cls
  /-- the class `object` -/
  object : Cls

variable {Cls F : Type} [DecidableEq Cls] [DecidableEq F]

/-- multimethod.py 110-111 `signature.__le__`: `self <= other`; `map` stops at the shorter. -/
def sigLe (W : Classes Cls) (a b : List Cls) : Bool :=
  decide (a.length ≤ b.length) && (b.zip a).all fun ba => W.sub ba.1 ba.2

/-- multimethod.py 113-114 `signature.__lt__`. -/
def sigLt (W : Classes Cls) (a b : List Cls) : Bool := !decide (a = b) && sigLe W a b

/-- multimethod.py 116-121 `signature.__sub__`: `types - key`. -/
def sigDist (W : Classes Cls) (types key : List Cls) : List ℕ :=
  (types.zip key).map fun tc =>
    let mro := W.mro tc.1
    mro.idxOf (if tc.2 ∈ mro then tc.2 else W.object)

/-- One registered method: its signature, the `parents` attribute of that signature, and the
function. -/
structure Overload (Cls F : Type) where
  key : List Cls
  parents : List (List Cls)
  func : F

/-- A `multimethod`: the entries whose key is a `signature`, and the cached ones. -/
structure Multi (Cls F : Type) where
  methods : List (Overload Cls F)
  cache : List (List Cls × F)

/-- multimethod.py 154-157 `parents`. -/
def Multi.parentsOf (W : Classes Cls) (m : Multi Cls F) (types : List Cls) : List (List Cls) :=
  let ps := m.methods.filter fun p => sigLt W p.key types
  (ps.map (·.key)).filter fun k => !(ps.any fun p => decide (k ∈ p.parents))

/-- multimethod.py 169-172: the loop over the registered keys. -/
def relink (W : Classes Cls) (types : List Cls) (parents : List (List Cls)) (k : Overload Cls F) :
    Overload Cls F :=
  if sigLt W types k.key && (parents.isEmpty || parents.any fun p => decide (p ∈ k.parents)) then
    { k with parents := (k.parents.filter fun q => !decide (q ∈ parents)) ++ [types] }
  else k

/-- multimethod.py 165-176 `__setitem__`; when the signature is already registered the key of the
`dict` is kept, with its parents, and the function replaced. -/
def Multi.setitem (W : Classes Cls) (m : Multi Cls F) (types : List Cls) (func : F) :
    Multi Cls F :=
  let parents := m.parentsOf W types
  let methods := m.methods.map (relink W types parents)
  if methods.any fun k => decide (k.key = types) then
    ⟨methods.map fun k => if k.key = types then { k with func := func } else k, []⟩
  else ⟨methods ++ [⟨types, parents, func⟩], []⟩

/-- multimethod.py 181-183: one turn of the loop, for the key at position `i`. -/
def Multi.repair (W : Classes Cls) (types : List Cls) (m : Multi Cls F) (i : ℕ) : Multi Cls F :=
  { m with methods := m.methods.modify i fun k =>
      if types ∈ k.parents then { k with parents := m.parentsOf W k.key } else k }

/-- multimethod.py 178-184 `__delitem__`. -/
def Multi.delitem (W : Classes Cls) (m : Multi Cls F) (types : List Cls) :
    Except Err (Multi Cls F) :=
  if m.methods.any fun k => decide (k.key = types) then
    let m' : Multi Cls F := ⟨m.methods.filter fun k => !decide (k.key = types), []⟩
    .ok ((List.range m'.methods.length).foldl (Multi.repair W types) m')
  else .error .keyError

/-- The smallest of the distances, in the lexicographic order of tuples; `min(groups)`. -/
def minDist : List (List ℕ) → Option (List ℕ)
  | [] => none
  | d :: ds =>
    match minDist ds with
    | none => some d
    | some e => if e < d then some e else some d

/-- multimethod.py 191-197: the functions of the parents at the smallest distance. -/
def Multi.resolve (W : Classes Cls) (m : Multi Cls F) (types : List Cls) : Except Err F :=
  let ps := m.parentsOf W types
  let keys := match minDist (ps.map (sigDist W types)) with
    | none => []
    | some d => ps.filter fun k => decide (sigDist W types k = d)
  let funcs := (m.methods.filter fun k => decide (k.key ∈ keys)).map (·.func)
  match funcs.dedup with
  | [f] => .ok f
  | _ => .error .dispatchError

/-- Lookup in the underlying `dict`, which finds signatures and cached tuples. -/
def Multi.find (m : Multi Cls F) (types : List Cls) : Option F :=
  match m.methods.find? fun k => decide (k.key = types) with
  | some k => some k.func
  | none => m.cache.lookup types

/-- multimethod.py 186-201 `__call__` and `__missing__`: the function selected for arguments of the
given types, and the object afterwards (line 195 stores the answer). -/
def Multi.select (W : Classes Cls) (m : Multi Cls F) (types : List Cls) :
    Except Err F × Multi Cls F :=
  match m.find types with
  | some f => (.ok f, m)
  | none =>
    match m.resolve W types with
    | .ok f => (.ok f, { m with cache := m.cache ++ [(types, f)] })
    | .error e => (.error e, m)

end Dolo
