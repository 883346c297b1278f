import Mathlib.Data.List.FinRange
import Verif.Model.PFSolve

/-!
# The bounds in `deterministic_solve`

`dolo/algos/perfect_foresight.py` 207-227: the bounds of the controls are evaluated along the initial guess, and a test is
made that they are constant.  Floating point numbers are real numbers here, with the two infinities and `nan`.
-/

namespace Dolo

noncomputable section

/-- Values of a bound function. -/
inductive XF where
  | nan
  | ninf
  | fin (x : ℝ)
  | pinf

/-- `a - b`. -/
def XF.sub : XF → XF → XF
  | .nan, _ => .nan
  | _, .nan => .nan
  | .ninf, .ninf => .nan
  | .ninf, _ => .ninf
  | .pinf, .pinf => .nan
  | .pinf, _ => .pinf
  | .fin _, .ninf => .pinf
  | .fin _, .pinf => .ninf
  | .fin a, .fin b => .fin (a - b)

/-- `a > b`; comparisons with `nan` are false. -/
def XF.gt : XF → XF → Prop
  | .nan, _ => False
  | _, .nan => False
  | .ninf, _ => False
  | .pinf, .pinf => False
  | .pinf, _ => True
  | .fin _, .ninf => True
  | .fin _, .pinf => False
  | .fin a, .fin b => b < a

open Classical in
/-- `np.maximum`: `nan` wins. -/
def XF.npMax2 (a b : XF) : XF := if a = .nan then .nan else if b = .nan then .nan else if b.gt a then b else a

open Classical in
/-- `np.minimum`: `nan` wins. -/
def XF.npMin2 (a b : XF) : XF := if a = .nan then .nan else if b = .nan then .nan else if a.gt b then b else a

/-- `a.max()` of an array with first entry `a` and further entries `l`. -/
def npMax (a : XF) (l : List XF) : XF := l.foldl XF.npMax2 a

/-- `a.min()`. -/
def npMin (a : XF) (l : List XF) : XF := l.foldl XF.npMin2 a

open Classical in
/-- Python's `max(iterable)`: the first element is kept until a later one compares greater. -/
def pyMaxF : List XF → Except Err XF
  | [] => .error .valueError
  | a :: l => .ok (l.foldl (fun m v => if v.gt m then v else m) a)

/-- `b.max(axis=0) - b.min(axis=0)` for one control: the rows are the dates `0, ..., T`. -/
def spread (T : ℕ) (col : ℕ → XF) : XF :=
  let rest := (List.range T).map fun t => col (t + 1)
  (npMax (col 0) rest).sub (npMin (col 0) rest)

/-- `max(b.max(axis=0) - b.min(axis=0))`, perfect_foresight.py 215-216. -/
def boundTest {nx : ℕ} (T : ℕ) (b : ℕ → Fin nx → XF) : Except Err XF :=
  pyMaxF ((List.finRange nx).map fun k => spread T fun t => b t k)

/-- The message of lines 218-219. -/
def boundsMessage : String :=
  "Not implemented: perfect foresight solution requires that controls have constant bounds."

open Classical in
/-- perfect_foresight.py 215-220. -/
def checkBounds {nx : ℕ} (T : ℕ) (lb ub : ℕ → Fin nx → XF) : Except Err Unit := do
  let test1 ← boundTest T lb
  let test2 ← boundTest T ub
  if test1.gt (.fin (1 / 10 ^ 8)) ∨ test2.gt (.fin (1 / 10 ^ 8)) then .error (.exception boundsMessage)
  else pure ()

/-- A bound as `ncpsolve` sees it (ncpsolve.py 34-35, with `BIG` in `ncpLower` and `ncpUpper`).  Lower bounds `inf`, upper
bounds `-inf` and `nan` are not distinguished from the absence of a bound here. -/
def XF.finite? : XF → Option ℝ
  | .fin x => some x
  | _ => none

variable {S E : Type} {nx : ℕ} [Fintype S] [DecidableEq S]

/-- perfect_foresight.py 143-303 with the default guess and `solver="ncpsolve"`.  `bounds` are the functions
`model.x_bounds`, if there are any.  They are evaluated at the exogenous path and at the states of the guess (line 208-209),
tested, and handed to the solver as arrays. -/
def pfSolve (M : PFModel ℝ S (Fin nx) E) (d : PFDiff S (Fin nx) E)
    (spsolve : (ℕ → S ⊕ Fin nx → ℕ → S ⊕ Fin nx → ℝ) → (ℕ → S ⊕ Fin nx → ℝ) → ℕ → S ⊕ Fin nx → ℝ)
    (bounds : Option (((E → ℝ) → (S → ℝ) → Fin nx → XF) × ((E → ℝ) → (S → ℝ) → Fin nx → XF))) (ignore_constraints : Bool)
    (T : ℕ) (given keep : Bool) (eps : ℕ → E → ℝ) (s0 : Option (S → ℝ)) (m0 : Option (E → ℝ)) (tol : ℝ) (maxit : ℕ) :
    Except Err (List (ℤ × (S ⊕ Fin nx → ℝ) × (E → ℝ)) × Bool) := do
  let (_, _, s1) ← pfStart M T given eps s0 m0
  match bounds, ignore_constraints with
  | some (lbF, ubF), false =>
    let lb := fun t => lbF (eps t) (stOf (pfGuess M T s1) t)
    let ub := fun t => ubF (eps t) (stOf (pfGuess M T s1) t)
    checkBounds T lb ub
    pfSolveNcp M d spsolve T given keep eps s0 m0 (fun t k => (lb t k).finite?) (fun t k => (ub t k).finite?) tol maxit
  | _, _ => pfSolveFree M d spsolve T given keep eps s0 m0 tol maxit

end

end Dolo
