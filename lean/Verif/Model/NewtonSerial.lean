import Verif.Model.Newton
import Verif.Model.NumDiff

/-!
# Serial Newton iterations with numerical derivatives and with bounds

The way `time_iteration` calls `newton` and `ncpsolve` (`dolo/algos/time_iteration.py`): the function is wrapped
in `SerialDifferentiableFunction` (`dolo/numeric/optimize/newton.py:167-190`, modelled by `serialDiff` on lists of
rows) and handed to `newton` or to `ncpsolve` with `jactype="serial"`.  Exact arithmetic.
-/

namespace Dolo

section

variable {K : Type} [Field K] [LinearOrder K]

/-- An array with `N` rows and `n` columns as a list of rows. -/
def rowsOf (N n : ℕ) (x : ℕ → ℕ → K) : List (List K) :=
  (List.range N).map fun p => (List.range n).map fun i => x p i

/-- `SerialDifferentiableFunction(g, epsilon)` on arrays with `N` rows and `n` columns.  The assertion of line 175
is not followed further: where it fails the value is zero, and the claims are about functions that return `N`
rows. -/
def diffFun (N n : ℕ) (g : List (List K) → List (List K)) (eps : K) (x : ℕ → ℕ → K) :
    (ℕ → ℕ → K) × (ℕ → ℕ → ℕ → K) :=
  (serialDiff g eps (rowsOf N n x)).toOption.elim (fun _ _ => 0, fun _ _ _ => 0) fun r => (rowAt r.1, r.2.val)

end

noncomputable section

/-- `fcmp(z)` inside `ncpsolve` with serial storage, `dolo/numeric/optimize/ncpsolve.py:13-23` and 30-105: every
entry is smoothed on its own, `Jnew[p, i, j] = ff[p, i] * J[p, i, j] - xxx[p, i, j]` with `xxx` diagonal. -/
def serialFcmp (f : (ℕ → ℕ → ℝ) → (ℕ → ℕ → ℝ) × (ℕ → ℕ → ℕ → ℝ)) (a b : ℕ → ℕ → Option ℝ) (z : ℕ → ℕ → ℝ) :
    (ℕ → ℕ → ℝ) × (ℕ → ℕ → ℕ → ℝ) :=
  let val := fun p i => -(f z).1 p i
  let dval := fun p i j => -(f z).2 p i j
  let pval := fun p i => ncpPval (z p i) (val p i) (a p i)
  let fxnew := fun p i => ncpFxnew (z p i) (pval p i) (b p i)
  let dp := fun p i => ncpDp (z p i) (val p i) (a p i)
  let dm := fun p i => ncpDm (z p i) (pval p i) (b p i)
  let ff := fun p i => (dm p i).1 * (dp p i).1
  let xx := fun p i => (dm p i).1 * (dp p i).2 + (dm p i).2
  (fxnew, fun p i j => ff p i * dval p i j - if i = j then xx p i else 0)

/-- `ncpsolve(f, a, b, x, tol, maxit, jactype="serial")` on `N` points of dimension `n`. -/
def serialNcpsolve (N n : ℕ) (f : (ℕ → ℕ → ℝ) → (ℕ → ℕ → ℝ) × (ℕ → ℕ → ℕ → ℝ)) (a b : ℕ → ℕ → Option ℝ)
    (tol : ℝ) (maxit : ℕ) (x : ℕ → ℕ → ℝ) : NewtonResult (ℕ → ℕ → ℝ) :=
  newton (serialProblem N n (serialFcmp f a b)) tol maxit x

end

end Dolo
