import Verif.Model.Gauss
import Verif.Model.Complementarity

/-!
# Newton iterations

Models `newton` of `dolo/numeric/optimize/newton.py` and `ncpsolve` of `dolo/numeric/optimize/ncpsolve.py`.
Points, residuals, Jacobians and steps are of arbitrary types; the function, the linear solver and the norm
`abs(v).max()` are parameters.  Further down they are instantiated with the serial storage.  The warning
is the Boolean `warned` of the result.  Not modelled: the messages printed when `verbose` is set.
-/

namespace Dolo

section

variable {K X V J D : Type} [Field K] [LinearOrder K]

/-- What `newton` needs to know about its problem. -/
structure NewtonProblem (K X V J D : Type) where
  /-- `f(x)`, residual and Jacobian -/
  f : X → V × J
  /-- `abs(v).max()` -/
  norm : V → K
  /-- `solve(dv, v)` -/
  solve : J → V → D
  /-- `x - dx * t` -/
  sub : X → D → K → X

/-- `x - dx * (2 ** (-bck))`, `dolo/numeric/optimize/newton.py:142`. -/
def NewtonProblem.trial (P : NewtonProblem K X V J D) (x : X) (dx : D) (bck : ℕ) : X :=
  P.sub x dx (1 / 2 ^ bck)

/-- The value of `bck` when the loop `for bck in range(maxbacksteps)` of lines 141-146 is left, with `k + 1`
values left to try, the current one being `bck`: the first with a smaller error, or the last one. -/
def backSteps (better : ℕ → Bool) : ℕ → ℕ → ℕ
  | 0, bck => bck
  | k + 1, bck => if better bck then bck else backSteps better k (bck + 1)

/-- The point `xx` reached by lines 137-148 (`maxbacksteps = 30`). -/
def NewtonProblem.next (P : NewtonProblem K X V J D) (x : X) : X :=
  let v := (P.f x).1
  let dv := (P.f x).2
  let error_0 := P.norm v
  let dx := P.solve dv v
  let bck := backSteps (fun b => decide (P.norm (P.f (P.trial x dx b)).1 < error_0)) 29 0
  P.trial x dx bck

/-- What `newton` returns, and whether it warned. -/
structure NewtonResult (X : Type) where
  x : X
  it : ℕ
  warned : Bool

/-- The loop of lines 113-151; the first argument is `maxit - it`. -/
def newtonLoop (P : NewtonProblem K X V J D) (tol : K) : ℕ → ℕ → X → NewtonResult X
  | 0, it, x => ⟨x, it, true⟩
  | k + 1, it, x =>
    let error_0 := P.norm (P.f x).1
    if error_0 < tol then ⟨x, it, false⟩
    else newtonLoop P tol k (it + 1) (P.next x)

/-- `newton(f, x, tol, maxit)`, `dolo/numeric/optimize/newton.py:84-157`. -/
def newton (P : NewtonProblem K X V J D) (tol : K) (maxit : ℕ) (x : X) : NewtonResult X :=
  newtonLoop P tol maxit 0 x

/-! ### Serial storage -/

/-- `abs(v).max()` for an array with `N` rows and `n` columns; absolute values are not negative, so the
maximum may start from zero. -/
def maxAbs (N n : ℕ) (v : ℕ → ℕ → K) : K :=
  ((List.range N).flatMap fun p => (List.range n).map fun i => |v p i|).foldl max 0

/-- `serial_solve(dv, v)` for arrays of `N` points, see `serialSolve`. -/
def serialStep (N n : ℕ) (dv : ℕ → ℕ → ℕ → K) (v : ℕ → ℕ → K) : ℕ → ℕ → K :=
  let sol := serialSolve n ((List.range N).map fun p => (dv p, v p))
  fun p => (sol[p]?).getD 0

/-- `newton(f, x)` with `jactype="serial"` on `N` points of dimension `n`. -/
def serialProblem (N n : ℕ) (f : (ℕ → ℕ → K) → (ℕ → ℕ → K) × (ℕ → ℕ → ℕ → K)) :
    NewtonProblem K (ℕ → ℕ → K) (ℕ → ℕ → K) (ℕ → ℕ → ℕ → K) (ℕ → ℕ → K) where
  f := f
  norm := maxAbs N n
  solve := serialStep N n
  sub x dx t := fun p i => x p i - dx p i * t

end

/-! ### ncpsolve -/

noncomputable section

/-- `ncpsolve(f, a, b, x, tol, maxit, jactype)`, `dolo/numeric/optimize/ncpsolve.py:10-27`, for one problem of
size `n`, with the linear solver and the norm as parameters. -/
def ncpsolve {n : ℕ} {D : Type} (f : (Fin n → ℝ) → (Fin n → ℝ) × (Fin n → Fin n → ℝ))
    (a b : Fin n → Option ℝ) (jactype : JacType) (norm : (Fin n → ℝ) → ℝ)
    (solve : (Fin n → Fin n → ℝ) → (Fin n → ℝ) → D) (sub : (Fin n → ℝ) → D → ℝ → (Fin n → ℝ))
    (tol : ℝ) (maxit : ℕ) (x : Fin n → ℝ) : NewtonResult (Fin n → ℝ) :=
  newton ⟨ncpFcmp f a b jactype, norm, solve, sub⟩ tol maxit x

end

end Dolo
