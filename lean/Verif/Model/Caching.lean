import Mathlib.Data.List.Basic
import Mathlib.Data.Int.Basic
import Verif.Model.Err

/-!
# Model of `dolo/misc/caching.py` 4-85, 144-154

`DiskDictionary` (104-138) is not modelled: it opens files in text mode, so that every assignment
raises and every lookup returns `None`.

Python's `hash` is modelled by the way it is computed on the values used here: on integers it is
the identity except `hash(-1) = -2` (CPython), on tuples and frozensets it is some function of the
hashes of the members.  Integers are those below CPython's hash modulus `2^61 - 1` in absolute
value; floats, booleans and other hashable objects are left out.
-/

namespace Dolo

/-- Values passed to cached functions. -/
inductive PyVal where
  | int (n : ℤ)
  | str (s : String)
  /-- a NumPy array of integers: its shape and its entries in C order -/
  | arr (shape : List ℕ) (data : List ℤ)
  | tuple (items : List PyVal)
  | list (items : List PyVal)
  /-- a dict with string keys: its keys and its values -/
  | dict (keys : List String) (vals : List PyVal)

/-- What `hashable` returns.  `unhashable` (an array, a list or a dict) occurs inside tuples, which
are returned as they are (line 147-148) without looking at their members. -/
inductive HVal where
  | int (n : ℤ)
  | str (s : String)
  | tuple (items : List HVal)
  | unhashable
  | frozen (keys : List String) (vals : List HVal)

mutual
/-- A value as it is (a member of a tuple). -/
def rawVal : PyVal → HVal
  | .int n => .int n
  | .str s => .str s
  | .arr _ _ => .unhashable
  | .tuple l => .tuple (rawVals l)
  | .list _ => .unhashable
  | .dict _ _ => .unhashable

/-- `rawVal` on each value of a list. -/
def rawVals : List PyVal → List HVal
  | [] => []
  | v :: vs => rawVal v :: rawVals vs
end

mutual
/-- caching.py 144-154 `hashable`: arrays are flattened (line 145-146), hashable objects, among
them all tuples, are returned as they are (147-148), mappings give a frozenset of items (149-151),
other iterables a tuple (152-153). -/
def hashable : PyVal → HVal
  | .arr _ d => .tuple (d.map .int)
  | .int n => .int n
  | .str s => .str s
  | .tuple l => .tuple (rawVals l)
  | .dict ks vs => .frozen ks (hashables vs)
  | .list l => .tuple (hashables l)

/-- `hashable` on each value of a list. -/
def hashables : List PyVal → List HVal
  | [] => []
  | v :: vs => hashable v :: hashables vs
end

/-- How CPython combines hashes; nothing is assumed about it. -/
structure Hasher where
  str : String → ℤ
  tuple : List ℤ → ℤ
  frozen : List String → List ℤ → ℤ

/-- `hash` of an integer: `-1` is reserved for errors, `hash(-1)` is `-2`. -/
def pyHashInt (n : ℤ) : ℤ := if n = -1 then -2 else n

mutual
/-- `hash(v)`; `TypeError` for a list, a dict or an array. -/
def pyHash (H : Hasher) : HVal → Except Err ℤ
  | .int n => .ok (pyHashInt n)
  | .str s => .ok (H.str s)
  | .tuple l => do
      let hs ← pyHashes H l
      pure (H.tuple hs)
  | .frozen ks vs => do
      let hs ← pyHashes H vs
      pure (H.frozen ks hs)
  | .unhashable => .error .typeError

/-- The hashes of the members of a tuple, in order. -/
def pyHashes (H : Hasher) : List HVal → Except Err (List ℤ)
  | [] => .ok []
  | v :: vs => do
      let h ← pyHash H v
      let hs ← pyHashes H vs
      pure (h :: hs)
end

/-- The arguments of a call. -/
structure Call where
  args : List PyVal
  knames : List String
  kvals : List PyVal

/-- caching.py 16-19 (and 60-62): `hash((hh, h2))`. -/
def callHash (H : Hasher) (c : Call) : Except Err ℤ :=
  pyHash H (.tuple [.tuple (hashables c.args), hashable (.dict c.knames c.kvals)])

/-! ## `memoized`, lines 4-37 -/

/-- caching.py 14-29 `memoized.__call__`: result, new cache, and the calls of `func` that were
made.  Line 19 is outside of the `try`, so that the `TypeError` of an unhashable argument is not
caught by lines 26-29. -/
def memoCall {R : Type} (H : Hasher) (func : Call → Except Err R) (cache : List (ℤ × R)) (c : Call) :
    Except Err R × List (ℤ × R) × List Call :=
  match callHash H c with
  | .error e => (.error e, cache, [])
  | .ok h =>
    match cache.lookup h with
    | some v => (.ok v, cache, [])
    | none =>
      match func c with
      | .error e => (.error e, cache, [c])
      | .ok v => (.ok v, (h, v) :: cache, [c])

/-- The cache after a history of calls. -/
def memoRun {R : Type} (H : Hasher) (func : Call → Except Err R) :
    List (ℤ × R) → List Call → List (ℤ × R)
  | cache, [] => cache
  | cache, c :: cs => memoRun H func (memoCall H func cache c).2.1 cs

/-! ## `cachedondisk`, lines 40-85 -/

/-- The directory `.cache`: file names are made of the function's name and the hash; contents are
bytes. -/
abbrev DiskCache := List ((String × ℤ) × List UInt8)

/-- The contents of a file. -/
def diskGet (d : DiskCache) (k : String × ℤ) : Option (List UInt8) := d.lookup k

/-- Replace the contents of a file. -/
def diskPut (d : DiskCache) (k : String × ℤ) (b : List UInt8) : DiskCache := (k, b) :: d

/-- `pickle.dumps` and `pickle.load`. -/
structure Pickle (R : Type) where
  dumps : R → List UInt8
  load : List UInt8 → Except Err R

/-- Lines 71-72: the states of the disk while the value is written: untouched, then truncated by
`open(..., "wb")`, then with a growing prefix of the pickle.  `none` is: not opened yet. -/
def diskDuring {R : Type} (P : Pickle R) (d : DiskCache) (k : String × ℤ) (v : R) :
    Option ℕ → DiskCache
  | none => d
  | some n => diskPut d k ((P.dumps v).take n)

/-- caching.py 57-77 `cachedondisk.__call__` for a function that returns `some v`, or `none` for
Python's `None`, which is not stored (line 69).  Opening a missing file raises `IOError` (line 67);
an exception of `pickle.load` other than `IOError` and `TypeError` is not caught; a `TypeError`
is (line 74-77, the function is called). -/
def diskCall {R : Type} (H : Hasher) (P : Pickle R) (fname : String)
    (func : Call → Except Err (Option R)) (d : DiskCache) (c : Call) :
    Except Err (Option R) × DiskCache :=
  match callHash H c with
  | .error e => (.error e, d)
  | .ok h =>
    match diskGet d (fname, h) with
    | some b =>
      match P.load b with
      | .ok v => (.ok (some v), d)
      | .error .typeError => (func c, d)
      | .error e => (.error e, d)
    | none =>
      match func c with
      | .error e => (.error e, d)
      | .ok none => (.ok none, d)
      | .ok (some v) => (.ok (some v), diskPut d (fname, h) (P.dumps v))

/-- The disk after a history of calls, possibly of several functions. -/
def diskRun {R : Type} (H : Hasher) (P : Pickle R) :
    DiskCache → List (String × (Call → Except Err (Option R)) × Call) → DiskCache
  | d, [] => d
  | d, (n, f, c) :: cs => diskRun H P (diskCall H P n f d c).2 cs

end Dolo
