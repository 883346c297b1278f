import Mathlib.Algebra.Order.Floor.Ring
import Mathlib.Algebra.BigOperators.Group.Finset.Basic
import Mathlib.Algebra.Order.Field.Basic
import Verif.Model.Err

/-!
# Ergodic distributions

Models `dolo/algos/ergodic.py`.  Array rows are lists; `numpy.linalg.solve` is a parameter.
-/

namespace Dolo

variable {K : Type} [Field K] [LinearOrder K] [FloorRing K]

/-- `q0 = min(max(0, floor_divide(x0, δ0)), n0 - 2)`, `dolo/algos/ergodic.py:35-37`, for `n0 ≥ 2`.  The
position `x0` has been clamped to `[0, 1]`. -/
def trembleCell (n0 : ℕ) (x0 : K) : ℕ :=
  let δ0 : K := 1 / ((n0 : K) - 1)
  let q0 : ℤ := ⌊x0 / δ0⌋
  let q0 := max 0 q0
  let q0 := min q0 ((n0 : ℤ) - 2)
  q0.toNat

/-- The clamped position `min(max(x0, 0), 1)`, line 34. -/
def clamp01 (x0 : K) : K := min (max x0 0) 1

/-- The loop body of `trembling_hand` for `A.ndim == 2`, lines 33-44: one row `A[n, :]` of length
`n0 ≥ 2`, position `x`, weight `w`. -/
def tremble1 (A : List K) (x w : K) : List K :=
  let n0 := A.length
  let δ0 : K := 1 / ((n0 : K) - 1)
  let x0 := clamp01 x
  let q0 := trembleCell n0 x0
  let lam0 := x0 / δ0 - (q0 : K)
  let A := A.modify q0 (· + (1 - lam0) * w)
  A.modify (q0 + 1) (· + lam0 * w)

/-- `A[i, j] += v`. -/
def addAt2 (A : List (List K)) (i j : ℕ) (v : K) : List (List K) :=
  A.modify i fun row => row.modify j (· + v)

/-- The loop body of `trembling_hand` for `A.ndim == 3`, lines 76-97: one slice `A[n, :, :]`. -/
def tremble2 (n0 n1 : ℕ) (A : List (List K)) (x : K × K) (w : K) : List (List K) :=
  let δ0 : K := 1 / ((n0 : K) - 1)
  let δ1 : K := 1 / ((n1 : K) - 1)
  let x0 := clamp01 x.1
  let q0 := trembleCell n0 x0
  let x1 := clamp01 x.2
  let q1 := trembleCell n1 x1
  let lam0 := (x0 - (q0 : K) * δ0) / δ0
  let lam1 := (x1 - (q1 : K) * δ1) / δ1
  let A := addAt2 A q0 q1 ((1 - lam0) * (1 - lam1) * w)
  let A := addAt2 A q0 (q1 + 1) ((1 - lam0) * lam1 * w)
  let A := addAt2 A (q0 + 1) q1 (lam0 * (1 - lam1) * w)
  addAt2 A (q0 + 1) (q1 + 1) (lam0 * lam1 * w)

/-- `trembling_hand(A, x, w)` on a two-dimensional `A`, lines 26-44: row `n` receives the weight of
`x[n, 0]`.  A single grid point (`n0 = 1`) divides by zero. -/
def tremblingHand1 (A : List (List K)) (xs : List K) (w : K) : Except Err (List (List K)) :=
  if A.any fun row => row.length ≤ 1 then .error .zeroDivision
  else .ok (List.zipWith (fun row x => tremble1 row x w) A xs)

/-- The renormalisation `S = (S - a) / (b - a)`, lines 175 and 241, for one coordinate. -/
def renormalise (a b s : K) : K := (s - a) / (b - a)

section matrix

variable {ρ α : Type}

/-- Construction of the transition matrix for a Markov chain, lines 166-184.  `tr`, `zero` and `flat` are the
loop body of `trembling_hand`, a slice of zeros and its flattening; `S i_m i_M n` the renormalised target
of grid point `n`.  Slices `Π[i_m, i_M, n, ...]` receive one weight each; after
`reshape / swapaxes(1, 2) / reshape` row `(i_m, n)` is the concatenation over `i_M` of the flattened
slices. -/
def ergodicMatrixMC (tr : ρ → α → K → ρ) (zero : ρ) (flat : ρ → List K) (weights : List (List K))
    (S : ℕ → ℕ → ℕ → α) (Ns : ℕ) : List (List K) :=
  weights.zipIdx.flatMap fun (ws, i_m) => (List.range Ns).map fun n =>
    ws.zipIdx.flatMap fun (w, i_M) => flat (tr zero (S i_m i_M n) w)

/-- Construction of the transition matrix for an iid process, lines 225-245: slice `Π[n, ...]` receives the
weights of all the integration nodes one after the other. -/
def ergodicMatrixIID (tr : ρ → α → K → ρ) (zero : ρ) (flat : ρ → List K) (weights : List K)
    (S : ℕ → ℕ → α) (Ns : ℕ) : List (List K) :=
  (List.range Ns).map fun n =>
    flat (weights.zipIdx.foldl (fun A p => tr A (S p.2 n) p.1) zero)

end matrix

/-- `A = Π.T - np.eye(N); A[-1, :] = 1.0`, lines 191-192 and 253-254. -/
def ergodicSystem {N : ℕ} (P : Fin N → Fin N → K) (i j : Fin N) : K :=
  if i.val + 1 = N then 1 else P j i - (if i = j then 1 else 0)

/-- `B = np.zeros(N); B[-1] = 1.0`, lines 189-190 and 251-252. -/
def ergodicRhs (N : ℕ) (i : Fin N) : K := if i.val + 1 = N then 1 else 0

/-- `μ = np.linalg.solve(A, B)`, lines 193 and 255.  `B[-1]` fails for `N = 0`. -/
def ergodicMu {N : ℕ} (solve : (Fin N → Fin N → K) → (Fin N → K) → Except Err (Fin N → K))
    (P : Fin N → Fin N → K) : Except Err (Fin N → K) :=
  if N = 0 then .error .indexError else solve (ergodicSystem P) (ergodicRhs N)

/-- A list of rows as a square array. -/
def asSquare (P : List (List K)) (i j : Fin P.length) : K := (P[i.val].getD j.val 0)

end Dolo
