import Mathlib.Algebra.Field.Basic
import Mathlib.Algebra.BigOperators.Group.List.Basic
import Verif.Model.Err

/-!
# Model of `dolo/numeric/filters.py`

Exact arithmetic.  `spla.spsolve` is a parameter.
-/

namespace Dolo

variable {K : Type} [Field K]

/-- `M[r, a:a+len(vals)] = vals` on a `T × T` matrix (`lil_matrix`): `IndexError` if the row does
not exist, `ValueError` if the slice is shorter than `vals`. -/
def setSlice (T : ℕ) (r a : ℕ) (vals : List K) (M : ℕ → ℕ → K) : Except Err (ℕ → ℕ → K) :=
  if ¬ r < T then .error .indexError
  else if ¬ a + vals.length ≤ T then .error .valueError
  else .ok fun i j =>
    if i = r ∧ a ≤ j ∧ j < a + vals.length then vals.getD (j - a) 0 else M i j

/-- filters.py 55. -/
def hpFirstLast (lam : K) : List K := [1 + lam, -2 * lam, lam]

/-- filters.py 56. -/
def hpSecond (lam : K) : List K := [-2 * lam, 1 + 5 * lam, -4 * lam, lam]

/-- filters.py 57. -/
def hpMiddle (lam : K) : List K := [lam, -4 * lam, 1 + 6 * lam, -4 * lam, lam]

/-- filters.py 70-71: the loop over the middle rows (given as a list). -/
def hpMiddleRows (T : ℕ) (lam : K) : List ℕ → (ℕ → ℕ → K) → Except Err (ℕ → ℕ → K)
  | [], M => .ok M
  | i :: is, M => do
    let M' ← setSlice T i (i - 2) (hpMiddle lam) M
    hpMiddleRows T lam is M'

/-- filters.py 49-71: the matrix `big_Lambda` of a series of length `T`.  A negative slice bound
`-4:` starts at `T - 4`, or at `0` if that is negative (as natural subtraction does). -/
def hpMatrix (T : ℕ) (lam : K) : Except Err (ℕ → ℕ → K) := do
  let M0 : ℕ → ℕ → K := fun i j => if i = j then 1 else 0
  let M1 ← setSlice T 0 0 (hpFirstLast lam) M0
  let M2 ← setSlice T 1 0 (hpSecond lam) M1
  let M3 ← setSlice T (T - 2) (T - 4) (hpSecond lam).reverse M2
  let M4 ← setSlice T (T - 1) (T - 3) (hpFirstLast lam).reverse M3
  hpMiddleRows T lam ((List.range (T - 4)).map (· + 2)) M4

/-- filters.py 8-80 `hp_filter` for a vector: trend and cycle.  `solve M y` is `spsolve`. -/
def hpFilter (solve : (ℕ → ℕ → K) → List K → List K) (y : List K) (lam : K) :
    Except Err (List K × List K) := do
  let M ← hpMatrix y.length lam
  let t := solve M y
  pure (t, List.zipWith (· - ·) y t)

/-- filters.py 40-44: `hp_filter` for a matrix, row by row.  Line 41 does not pass `lam` on. -/
def hpFilter2 (solve : (ℕ → ℕ → K) → List K → List K) (data : List (List K)) (_lam : K) :
    Except Err (List (List K) × List (List K)) := do
  let resp ← data.mapM fun e => hpFilter solve e 1600
  pure (resp.map (·.1), resp.map (·.2))

/-! ## Band-pass filter -/

/-- filters.py 110-115: the weights before line 117; `c` is the central weight (line 111) and
`w j` is `1/(π j) (sin(high_w j) - sin(low_w j))` for `j = 1..k` (line 113).  Line 114 fills the
right half, line 115 the left half with the same weights reversed. -/
def bpRaw (k : ℕ) (c : K) (w : ℕ → K) : List K :=
  ((List.range k).map fun j => w (j + 1)).reverse ++ [c] ++ (List.range k).map fun j => w (j + 1)

/-- filters.py 117: subtract the mean. -/
def bpWeights (k : ℕ) (c : K) (w : ℕ → K) : List K :=
  let b := bpRaw k c w
  b.map fun x => x - b.sum / (b.length : K)

/-- `fftconvolve(b, data, mode="valid")` for `data` at least as long as `b`: the entries of the
convolution in which the two overlap completely. -/
def convolveValid (b data : List K) : List K :=
  (List.range (data.length + 1 - b.length)).map fun n =>
    ((List.range b.length).map fun i => b.getD (b.length - 1 - i) 0 * data.getD (n + i) 0).sum

/-- filters.py 83-119 `bandpass_filter`. -/
def bandpassFilter (k : ℕ) (c : K) (w : ℕ → K) (data : List K) : List K :=
  convolveValid (bpWeights k c w) data

end Dolo
