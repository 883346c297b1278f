import Mathlib.Algebra.Field.Defs
import Mathlib.Data.Rat.Floor
import Mathlib.Data.Rat.Cast.Order
import Verif.Model.Err

/-!
# Cartesian products and uniform grids

Models `dolo/numeric/misc.py` (`cartesian`, `mlinspace`) and `dolo/numeric/grids.py`.
Arrays are lists, 2-d arrays are lists of rows.
-/

namespace Dolo

variable {α : Type _}

/-- `numpy.repeat(a, m)` (1-d): every entry repeated `m` times, in order. -/
def npRepeat (a : List α) (m : ℕ) : List α := a.flatMap fun x => List.replicate m x

/-- Body of `cartesian`, `dolo/numeric/misc.py:42-52`, for a non-empty list of arrays.

`cast` is what storing a value in `out` does to it: `out` has the dtype of the *first* array of the
outermost call (lines 40 and 44) and the recursive call writes in a view of the same `out`
(line 49), so the same `cast` is applied at every level.

* line 42/46: `n = prod(sizes)`, `m = n // arrays[0].size`
  (with size 0 numpy's integer `0 // 0` is `0`, as is Lean's);
* line 47: first column is `repeat(arrays[0], m)`;
* line 49: the remaining columns of the first `m` rows are the recursive product;
* lines 50-51: the first block of `m` rows is copied to each of the other `arrays[0].size - 1`
  blocks, i.e. the block is tiled `arrays[0].size` times. -/
def cartesianCore (cast : α → α) : List (List α) → List (List α)
  | [] => []
  | [a] => (npRepeat (a.map cast) (a.length / a.length)).map fun x => [x]
  | a :: b :: rest =>
    let sub := cartesianCore cast (b :: rest)
    let n := ((a :: b :: rest).map List.length).prod
    let m := n / a.length
    List.zipWith (fun x r => x :: r) (npRepeat (a.map cast) m)
      ((List.replicate a.length sub).flatten)

/-- The dtype of a numpy array: integer or floating point. -/
inductive DType where
  | int
  | float
  deriving DecidableEq, Repr

/-- Storing the number `q` in an array of the given dtype: integer arrays truncate toward zero. -/
def DType.cast : DType → ℚ → ℚ
  | .float, q => q
  | .int, q => if 0 ≤ q then (⌊q⌋ : ℤ) else (⌈q⌉ : ℤ)

/-- A one-dimensional numpy array of numbers together with its dtype. -/
structure NArr where
  dtype : DType
  data : List ℚ

/-- `cartesian(arrays)` of `dolo/numeric/misc.py:4-52` (with `out=None`).
`arrays[0]` on line 40 raises `IndexError` for an empty list. -/
def cartesianND (arrays : List NArr) : Except Err (List (List ℚ)) :=
  match arrays with
  | [] => .error .indexError
  | a :: rest => .ok (cartesianCore a.dtype.cast ((a :: rest).map NArr.data))

/-- `cartesian(arrays)` on arrays that share one dtype (storing is then the identity); the case of
every use inside grids (`linspace` arrays) and `product_iid` (`range` arrays). -/
def cartesian (arrays : List (List α)) : Except Err (List (List α)) :=
  match arrays with
  | [] => .error .indexError
  | a :: rest => .ok (cartesianCore id (a :: rest))

variable {K : Type _} [Field K]

/-- `numpy.linspace(a, b, n)`: `n` equally spaced points, both ends included; `[a]` for `n = 1`,
empty for `n = 0`. -/
def linspace (a b : K) (n : ℕ) : List K :=
  (List.range n).map fun (i : ℕ) => if n ≤ 1 then a else a + (i : K) * ((b - a) / ((n : K) - 1))

/-- Line 59 of `dolo/numeric/misc.py`: one `linspace` per coordinate of `a`, indexing `b` and
`orders` (an index past the end of either raises `IndexError`; extra entries are ignored). -/
def linspaces (a b : List K) (orders : List ℕ) : Except Err (List (List K)) :=
  match a with
  | [] => .ok []
  | a0 :: as =>
    match b, orders with
    | b0 :: bs, n0 :: ns => do
      let rest ← linspaces as bs ns
      pure (linspace a0 b0 n0 :: rest)
    | _, _ => .error .indexError

/-- `mlinspace(a, b, orders)`, `dolo/numeric/misc.py:55-66`. -/
def mlinspace (a b : List K) (orders : List ℕ) : Except Err (List (List K)) := do
  let sl ← linspaces a b orders
  cartesian sl

/-- A `UniformCartesianGrid` object, `dolo/numeric/grids.py:104-121`. -/
structure UniformGrid (K : Type _) where
  min : List K
  max : List K
  n : List ℕ
  nodes : List (List K)

/-- `UniformCartesianGrid(min, max, n)`, `dolo/numeric/grids.py:108-121`.  With an empty `n`
(the default) line 116 builds a scalar `20`, which line 59 of `misc.py` cannot index; with an empty
`min` the product raises: both are `IndexError`. -/
def UniformGrid.mk' (min max : List K) (n : List ℕ) : Except Err (UniformGrid K) :=
  if n.length = 0 then .error .indexError
  else do
    let nodes ← mlinspace min max n
    pure { min := min, max := max, n := n, nodes := nodes }

/-- `UniformCartesianGrid.__add__`, `dolo/numeric/grids.py:126-135`.  As written, lines 132-133
concatenate `self.min` with `self.min` and `self.max` with `self.max`. -/
def UniformGrid.add (self g : UniformGrid K) : Except Err (UniformGrid K) :=
  let n := self.n ++ g.n
  let min := self.min ++ self.min
  let max := self.max ++ self.max
  UniformGrid.mk' min max n

/-- A `NonUniformCartesianGrid`, `dolo/numeric/grids.py:141-152` (the fields that matter here).
Its nodes come from `quantecon.cartesian` (line 151), the library routine with the same
row-major contract as `dolo.numeric.misc.cartesian`. -/
structure NonUniformGrid (K : Type _) where
  listOfNodes : List (List K)
  nodes : List (List K)

/-- `NonUniformCartesianGrid(list_of_nodes)`, `dolo/numeric/grids.py:145-152`.  `min(l)` of an empty
axis (line 147) raises `ValueError`. -/
def NonUniformGrid.mk' (l : List (List K)) : Except Err (NonUniformGrid K) :=
  if l.any List.isEmpty then .error .valueError
  else do
    let nodes ← cartesian l
    pure { listOfNodes := l, nodes := nodes }

/-- `NonUniformCartesianGrid.__add__`, `dolo/numeric/grids.py:154-158`. -/
def NonUniformGrid.add (self g : NonUniformGrid K) : Except Err (NonUniformGrid K) :=
  NonUniformGrid.mk' (self.listOfNodes ++ g.listOfNodes)

/-- `CartesianDomain.discretize(n)`, `dolo/compiler/objects.py:28-33`: `n` defaults to ten points
per state.  The bounds are read from the domain's `(min, max)` pairs in *its own key order*
(lines 36-46). -/
def domainDiscretize (bounds : List (K × K)) (n : Option (List ℕ)) :
    Except Err (UniformGrid K) :=
  let orders := n.getD (List.replicate bounds.length 10)
  UniformGrid.mk' (bounds.map Prod.fst) (bounds.map Prod.snd) orders

end Dolo
