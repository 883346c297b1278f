import Verif.Model.Newton
import Verif.Model.SerialOps

/-!
# Newton iterations with linear solvers that raise

`newton` of `dolo/numeric/optimize/newton.py` as in `Model/Newton.lean`, but the linear solver may raise; nothing in
`newton` (nor in `ncpsolve`, nor in `time_iteration`) catches the exception.  With `jactype="serial"` the solver is
`serial_solve(dv, v)` with its default `diagnose=True` (lines 53-68, the same text as
`dolo/numeric/serial_operations.py:119-134`), where `numpy.linalg.solve` is a parameter.
-/

namespace Dolo

section

variable {K X V J D E : Type} [Field K] [LinearOrder K]

/-- What `newton` needs to know about its problem; `solve(dv, v)` may raise. -/
structure RaisingProblem (K X V J D E : Type) where
  /-- `f(x)`, residual and Jacobian -/
  f : X → V × J
  /-- `abs(v).max()` -/
  norm : V → K
  /-- `solve(dv, v)` -/
  solve : J → V → Except E D
  /-- `x - dx * t` -/
  sub : X → D → K → X

/-- The point `xx` reached by lines 137-148, or the exception of line 137. -/
def RaisingProblem.next (P : RaisingProblem K X V J D E) (x : X) : Except E X := do
  let v := (P.f x).1
  let dv := (P.f x).2
  let error_0 := P.norm v
  let dx ← P.solve dv v
  let bck := backSteps (fun b => decide (P.norm (P.f (P.sub x dx (1 / 2 ^ b))).1 < error_0)) 29 0
  pure (P.sub x dx (1 / 2 ^ bck))

/-- The loop of lines 113-151; the first argument is `maxit - it`. -/
def newtonLoopE (P : RaisingProblem K X V J D E) (tol : K) : ℕ → ℕ → X → Except E (NewtonResult X)
  | 0, it, x => .ok ⟨x, it, true⟩
  | k + 1, it, x =>
    let error_0 := P.norm (P.f x).1
    if error_0 < tol then .ok ⟨x, it, false⟩
    else do
      let xx ← P.next x
      newtonLoopE P tol k (it + 1) xx

/-- `newton(f, x, tol, maxit)`, `dolo/numeric/optimize/newton.py:84-157`. -/
def newtonE (P : RaisingProblem K X V J D E) (tol : K) (maxit : ℕ) (x : X) : Except E (NewtonResult X) :=
  newtonLoopE P tol maxit 0 x

/-- `serial_solve(dv, v)` with `diagnose=True` for arrays of `N` points with `n` equations. -/
def serialStepE (solve : VecSolver K) (N n : ℕ) (dv : ℕ → ℕ → ℕ → K) (v : ℕ → ℕ → K) :
    Except (SolveErr K) (ℕ → ℕ → K) := do
  let sol ← serialSolveDiagnose solve n ((List.range N).map dv) ((List.range N).map v)
  pure fun p => (sol[p]?).getD 0

/-- `newton(f, x)` with `jactype="serial"` on `N` points of dimension `n`. -/
def serialProblemE (solve : VecSolver K) (N n : ℕ) (f : (ℕ → ℕ → K) → (ℕ → ℕ → K) × (ℕ → ℕ → ℕ → K)) :
    RaisingProblem K (ℕ → ℕ → K) (ℕ → ℕ → K) (ℕ → ℕ → ℕ → K) (ℕ → ℕ → K) (SolveErr K) where
  f := f
  norm := maxAbs N n
  solve := serialStepE solve N n
  sub x dx t := fun p i => x p i - dx p i * t

end

end Dolo
