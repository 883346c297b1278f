import Mathlib.Algebra.Field.Basic
import Verif.Model.Err

/-!
# Model of the finite-difference routines

`dolo/numeric/misc.py` 69-83, `dolo/numeric/optimize/newton.py` 167-190,
`dolo/compiler/misc.py` 88-123, `dolo/numeric/serial_operations.py` 6-63.

Exact arithmetic.  Vectors and matrices that go into the user's function are lists and lists of
rows; arrays that are filled in place are given by their shape and entries.
-/

namespace Dolo

variable {K : Type} [Field K]

/-- A two-dimensional array: shape and entries. -/
structure Arr2 (K : Type) where
  n : ℕ
  m : ℕ
  val : ℕ → ℕ → K

/-- A three-dimensional array: shape and entries. -/
structure Arr3 (K : Type) where
  n : ℕ
  m : ℕ
  l : ℕ
  val : ℕ → ℕ → ℕ → K

/-- numeric/misc.py 76-77: `delta = zeros(n); delta[i] = eps`. -/
def deltaVec (n i : ℕ) (eps : K) : List K := (List.replicate n 0).set i eps

/-- numeric/misc.py 75-80: the loop.  The assignment of a column of another length raises
(broadcasting a column of length one is left out). -/
def myJacobianLoop (f : List K → List K) (eps : K) (x : List K) :
    List ℕ → Arr2 K → Except Err (Arr2 K)
  | [], D => .ok D
  | i :: is, D =>
    let delta := deltaVec x.length i eps
    let y1 := f (List.zipWith (· + ·) x delta)
    let y2 := f (List.zipWith (· - ·) x delta)
    if y1.length = D.n ∧ y2.length = D.n then
      myJacobianLoop f eps x is
        { D with val := fun j i' =>
            if i' = i then (y1.getD j 0 - y2.getD j 0) / eps / 2 else D.val j i' }
    else .error .valueError

/-- numeric/misc.py 69-83 `MyJacobian(fun, eps)(x)`. -/
def myJacobian (f : List K → List K) (eps : K) (x : List K) : Except Err (Arr2 K) :=
  let y0 := f x
  myJacobianLoop f eps x (List.range x.length) ⟨y0.length, x.length, fun _ _ => 0⟩

/-! ## Vectorised functions: one row per point -/

/-- `xi = x.copy(); xi[:, i] += epsilon`. -/
def shiftCol (i : ℕ) (eps : K) (X : List (List K)) : List (List K) :=
  X.map fun row => row.modify i (· + eps)

/-- The entry `[n, j]` of a list of rows. -/
def rowAt (V : List (List K)) (n j : ℕ) : K := (V.getD n []).getD j 0

/-- newton.py 179-186: the loop over the columns. -/
def serialDiffLoop (f : List (List K) → List (List K)) (eps : K) (X V0 : List (List K)) :
    List ℕ → Arr3 K → Arr3 K
  | [], D => D
  | i :: is, D =>
    let Vi := f (shiftCol i eps X)
    serialDiffLoop f eps X V0 is
      { D with val := fun n j i' =>
          if i' = i then (rowAt Vi n j - rowAt V0 n j) / eps else D.val n j i' }

/-- newton.py 167-190 `SerialDifferentiableFunction(f, epsilon)(x)`.  The number of columns of a
list of rows is the length of its first row. -/
def serialDiff (f : List (List K) → List (List K)) (eps : K) (X : List (List K)) :
    Except Err (List (List K) × Arr3 K) :=
  let V0 := f X
  let N := V0.length
  if X.length = N then
    let nv := (V0.getD 0 []).length
    let nx := (X.getD 0 []).length
    .ok (V0, serialDiffLoop f eps X V0 (List.range nx) ⟨N, nv, nx, fun _ _ _ => 0⟩)
  else .error .assertionError

/-! ## compiler/misc.py -/

/-- compiler/misc.py 115-119: the loop over the columns of the `i`-th argument.  `dv` has shape
`(N, l_v, l_a)` with `l_v = len(v0) = N`; the right-hand side of line 119 has shape `(N, n_v)`:
it fits if `n_v = N`, is repeated if `n_v = 1`, and raises otherwise. -/
def numdiffCols (f : List (List (List K)) → List (List K)) (eps : K)
    (args : List (List (List K))) (V0 : List (List K)) (i : ℕ) :
    List ℕ → Arr3 K → Except Err (Arr3 K)
  | [], D => .ok D
  | j :: js, D =>
    let V := f (args.modify i (shiftCol j eps))
    let nv := (V0.getD 0 []).length
    if nv = D.m then
      numdiffCols f eps args V0 i js
        { D with val := fun n k j' =>
            if j' = j then (rowAt V n k - rowAt V0 n k) / eps else D.val n k j' }
    else if nv = 1 then
      numdiffCols f eps args V0 i js
        { D with val := fun n k j' =>
            if j' = j then (rowAt V n 0 - rowAt V0 n 0) / eps else D.val n k j' }
    else .error .valueError

/-- compiler/misc.py 111-120: the loop over the arguments. -/
def numdiffArgs (f : List (List (List K)) → List (List K)) (eps : K)
    (args : List (List (List K))) (V0 : List (List K)) : List ℕ → Except Err (List (Arr3 K))
  | [] => .ok []
  | i :: is => do
    let la := ((args.getD i []).getD 0 []).length
    let d ← numdiffCols f eps args V0 i (List.range la)
      ⟨V0.length, V0.length, la, fun _ _ _ => 0⟩
    let ds ← numdiffArgs f eps args V0 is
    pure (d :: ds)

/-- compiler/misc.py 102-123 `numdiff(fun, args)`. -/
def numdiff (f : List (List (List K)) → List (List K)) (eps : K) (args : List (List (List K))) :
    Except Err (List (List K) × List (Arr3 K)) := do
  let V0 := f args
  let ds ← numdiffArgs f eps args V0 (List.range args.length)
  pure (V0, ds)

/-! ## serial_operations.py -/

/-- `product(*[range(i) for i in dd])`. -/
def indexProduct : List ℕ → List (List ℕ)
  | [] => [[]]
  | d :: ds => (List.range d).flatMap fun i => (indexProduct ds).map (i :: ·)

/-- An array of shape `dd + (nobs,)`: its entries by multi-index and observation. -/
abbrev ObsArr (K : Type) := List ℕ → ℕ → K

/-- serial_operations.py 23-32: the loop; `ret[..., ind, :] = df`. -/
def numdiff1Loop (f : ObsArr K → ObsArr K) (dv : K) (x0 : ObsArr K) :
    List (List ℕ) → (List ℕ → List ℕ → ℕ → K) → (List ℕ → List ℕ → ℕ → K)
  | [], ret => ret
  | ind :: inds, ret =>
    let x : ObsArr K := fun a o => if a = ind then x0 a o + dv else x0 a o
    let x2 : ObsArr K := fun a o => if a = ind then x0 a o - dv else x0 a o
    let y := f x
    let y2 := f x2
    numdiff1Loop f dv x0 inds fun k a o =>
      if a = ind then (y k o - y2 k o) / dv / 2 else ret k a o

/-- serial_operations.py 6-34 `numdiff1(f, x0, dv)` for `x0` of shape `dd + (nobs,)`; `fobs` is
the last dimension of `f(x0)` (line 17).  The result by multi-index of the value, multi-index of
the argument, and observation. -/
def numdiff1 (f : ObsArr K → ObsArr K) (dv : K) (dd : List ℕ) (nobs fobs : ℕ) (x0 : ObsArr K) :
    Except Err (List ℕ → List ℕ → ℕ → K) :=
  if fobs = nobs then .ok (numdiff1Loop f dv x0 (indexProduct dd) fun _ _ _ => 0)
  else .error .assertionError

/-- A key made of `Ellipsis`, integers and a final slice: a Python tuple or a Python list. -/
inductive ItemKey
  | tuple (ind : List ℕ)
  | list (ind : List ℕ)

/-- `ret[key] = df` for an array of shape `f_shape + dd + (nobs,)`.  NumPy (`numpy >= 2.0.0`,
pyproject.toml 11) takes a tuple item by item; a list is turned into an array, which for a list with an
`Ellipsis` is an array of objects and raises. -/
def setItem (ret : List ℕ → List ℕ → ℕ → K) (key : ItemKey) (df : ObsArr K) :
    Except Err (List ℕ → List ℕ → ℕ → K) :=
  match key with
  | .tuple ind => .ok fun k a o => if a = ind then df k o else ret k a o
  | .list _ => .error .indexError

/-- serial_operations.py 53-61: the loop.  The function takes an array of shape `dd`.  `mkKey` builds
the key of line 61: `ItemKey.list` in the code, where line 60 (`obj = tuple(obj)`) is commented out. -/
def numdiff2Loop (mkKey : List ℕ → ItemKey) (f : (List ℕ → K) → ObsArr K) (dv : K) (x0 : List ℕ → K) :
    List (List ℕ) → (List ℕ → List ℕ → ℕ → K) → Except Err (List ℕ → List ℕ → ℕ → K)
  | [], ret => .ok ret
  | ind :: inds, ret =>
    let y := f fun a => if a = ind then x0 a + dv else x0 a
    let y2 := f fun a => if a = ind then x0 a - dv else x0 a
    (setItem ret (mkKey ind) fun k o => (y k o - y2 k o) / dv / 2) >>= fun ret' =>
      numdiff2Loop mkKey f dv x0 inds ret'

/-- serial_operations.py 37-63 `numdiff2(f, x0, dv)` for `x0` of shape `dd`, with the key of line 61 as a
parameter. -/
def numdiff2With (mkKey : List ℕ → ItemKey) (f : (List ℕ → K) → ObsArr K) (dv : K) (dd : List ℕ)
    (x0 : List ℕ → K) : Except Err (List ℕ → List ℕ → ℕ → K) :=
  numdiff2Loop mkKey f dv x0 (indexProduct dd) fun _ _ _ => 0

/-- serial_operations.py 37-63 `numdiff2(f, x0, dv)`. -/
def numdiff2 (f : (List ℕ → K) → ObsArr K) (dv : K) (dd : List ℕ) (x0 : List ℕ → K) :
    Except Err (List ℕ → List ℕ → ℕ → K) := numdiff2With ItemKey.list f dv dd x0

end Dolo
