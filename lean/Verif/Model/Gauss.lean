import Mathlib.Algebra.Order.Field.Basic
import Mathlib.Algebra.Order.Group.Abs
import Verif.Model.Err

/-!
# Gaussian elimination

Models `solve` and `serial_solve` of `dolo/numeric/serial_operations.py` (duplicated in
`dolo/numeric/optimize/newton.py`) and `dolo/algos/invert.py`.

A matrix under modification is a function `ℕ → ℕ → K` whose entries outside its shape are never read.
Loops over the rows to modify, which read only the pivot row and the row modified, are written as one
simultaneous update; the pivot row is not modified by them.  Division by a zero pivot does not happen for
invertible matrices (that is part of what is proved).
-/

namespace Dolo

variable {K : Type} [Field K] [LinearOrder K]

/-- Swapping rows `i` and `j` (`swaplines`, `dolo/algos/invert.py:21-26`; lines 86-89 of
`serial_operations.py`), all columns. -/
def swapRows {γ : Type} (i j : ℕ) (M : ℕ → γ) : ℕ → γ :=
  fun r => if r = i then M j else if r = j then M i else M r

/-! ### `dolo/numeric/serial_operations.py` -/

/-- `maxrow`, `dolo/numeric/serial_operations.py:82-85`. -/
def pivotRow (h : ℕ) (m : ℕ → ℕ → K) (y : ℕ) : ℕ :=
  (List.range' (y + 1) (h - (y + 1))).foldl
    (fun maxrow y2 => if |m y2 y| > |m maxrow y| then y2 else maxrow) y

/-- Lines 91-94: eliminate column `y` in the rows below, columns `y` to `w - 1`. -/
def eliminate (h w : ℕ) (m : ℕ → ℕ → K) (y : ℕ) : ℕ → ℕ → K := fun y2 x =>
  if y < y2 ∧ y2 < h ∧ y ≤ x ∧ x < w then m y2 x - m y x * (m y2 y / m y y) else m y2 x

/-- One pass of the first loop, lines 81-94. -/
def forwardStep (h w : ℕ) (m : ℕ → ℕ → K) (y : ℕ) : ℕ → ℕ → K :=
  eliminate h w (swapRows y (pivotRow h m y) m) y

/-- One pass of the second loop, lines 96-103. -/
def backwardStep (h w : ℕ) (m : ℕ → ℕ → K) (y : ℕ) : ℕ → ℕ → K := fun y2 x =>
  if y2 < y ∧ y ≤ x ∧ x < w then m y2 x - m y x * m y2 y / m y y
  else if y2 = y ∧ (x = y ∨ (h ≤ x ∧ x < w)) then m y x / m y y
  else m y2 x

/-- `solve(m, sol)`, `dolo/numeric/serial_operations.py:75-106`: `m` has `h` rows and `w` columns, the
solution is read in the last column. -/
def gaussSolve (h w : ℕ) (m : ℕ → ℕ → K) : ℕ → K :=
  let m := (List.range h).foldl (forwardStep h w) m
  let m := (List.range h).reverse.foldl (backwardStep h w) m
  fun y => m y (w - 1)

/-- `serial_solve(A, B, diagnose=False)`, lines 136-141, for `N` points: `M = concatenate([A, B[:,:,None]])`
then `solve` on every point. -/
def serialSolve (n : ℕ) (points : List ((ℕ → ℕ → K) × (ℕ → K))) : List (ℕ → K) :=
  points.map fun (A, b) => gaussSolve n (n + 1) fun i j => if j < n then A i j else b i

/-! ### `dolo/algos/invert.py` -/

/-- The shapes `B` may have: a vector, a matrix with `p` columns, a tensor whose trailing dimensions have
`p` entries in total. -/
inductive RhsShape
  | vector
  | matrix (p : ℕ)
  | tensor (p : ℕ)

/-- The number of columns of `B` that exist. -/
def RhsShape.columns : RhsShape → ℕ
  | .vector => 1
  | .matrix p => p
  | .tensor p => p

/-- The number of columns that `substract` and `divide` go through: for a matrix it is `M.shape[0] = n`, the
number of rows, lines 58-61 and 102-105. -/
def RhsShape.loop (n : ℕ) : RhsShape → ℕ
  | .vector => 1
  | .matrix _ => n
  | .tensor p => p

/-- `max_i`, `dolo/algos/invert.py:142-148`: the last row with the largest entry (`>=`).  The initial
`max_err = -1.0` is below every absolute value. -/
def invPivot (n : ℕ) (A : ℕ → ℕ → K) (i : ℕ) : ℕ :=
  ((List.range' i (n - i)).foldl
    (fun (s : K × ℕ) i0 => if |A i0 i| ≥ s.1 then (|A i0 i|, i0) else s) (-1, 0)).2

/-- `divide(i, c, M)` on the first `cols` columns. -/
def divideRow (cols i : ℕ) (c : K) (M : ℕ → ℕ → K) : ℕ → ℕ → K := fun r x =>
  if r = i ∧ x < cols then M r x / c else M r x

/-- `substract(i0, i, f i0, M)` for the rows `i0` such that `rows i0`, on the first `cols` columns. -/
def subtractRows (cols i : ℕ) (rows : ℕ → Bool) (f : ℕ → K) (M : ℕ → ℕ → K) : ℕ → ℕ → K := fun r x =>
  if rows r ∧ x < cols then M r x - f r * M i x else M r x

/-- One pass of the first loop of `invert`, lines 138-159. -/
def invForward (n cols : ℕ) (s : (ℕ → ℕ → K) × (ℕ → ℕ → K)) (i : ℕ) : (ℕ → ℕ → K) × (ℕ → ℕ → K) :=
  let p := invPivot n s.1 i
  let A := swapRows i p s.1
  let B := swapRows i p s.2
  let c := A i i
  let A := divideRow n i c A
  let B := divideRow cols i c B
  let rows : ℕ → Bool := fun r => decide (i < r) && decide (r < n)
  let f := fun r => A r i
  (subtractRows n i rows f A, subtractRows cols i rows f B)

/-- One pass of the second loop, lines 161-165. -/
def invBackward (n cols : ℕ) (s : (ℕ → ℕ → K) × (ℕ → ℕ → K)) (i : ℕ) : (ℕ → ℕ → K) × (ℕ → ℕ → K) :=
  let rows : ℕ → Bool := fun r => decide (r < i)
  let f := fun r => s.1 r i
  (subtractRows n i rows f s.1, subtractRows cols i rows f s.2)

/-- `invert(A, B)`, `dolo/algos/invert.py:133-166`: the final contents of `A` and `B`.  When a matrix `B` has
fewer columns than rows, the loops of `substract` and `divide` leave the array; reported as an error. -/
def invert (n : ℕ) (shape : RhsShape) (A B : ℕ → ℕ → K) :
    Except Err ((ℕ → ℕ → K) × (ℕ → ℕ → K)) :=
  if shape.columns < shape.loop n then .error .indexError
  else
    let cols := shape.loop n
    let s := (List.range n).foldl (invForward n cols) (A, B)
    .ok ((List.range n).reverse.foldl (invBackward n cols) s)

/-- `invert_gu(A)`, lines 172-184: `invert(A, eye(n))`. -/
def invertGu (n : ℕ) (A : ℕ → ℕ → K) : Except Err (ℕ → ℕ → K) := do
  let (_, B) ← invert n (.matrix n) A (fun i j => if i = j then 1 else 0)
  pure B

/-- `solve_gu(A, V)`, lines 187-196: `invert(A, V)` with a vector, modified in place. -/
def solveGu (n : ℕ) (A : ℕ → ℕ → K) (v : ℕ → K) : Except Err (ℕ → K) := do
  let (_, B) ← invert n .vector A (fun i _ => v i)
  pure fun i => B i 0

end Dolo
