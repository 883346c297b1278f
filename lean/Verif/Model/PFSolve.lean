import Mathlib.Data.Finset.Fold
import Mathlib.Data.Fintype.Sum
import Mathlib.Data.Fintype.Prod
import Mathlib.Data.Fin.Basic
import Verif.Model.PerfectForesight
import Verif.Model.Newton

/-!
# The solvers called by `deterministic_solve`

`dolo/algos/perfect_foresight.py` 219-276: the stacked residuals of `det_residual` are handed to `newton` or to `ncpsolve`
with `jactype="sparse"`.  The unknowns are kept as a path `ℕ → S ⊕ X → ℝ` (the `ravel` and `reshape` of the code only
rename indices); only the first `N` periods matter.  `scipy.sparse.linalg.spsolve` is a parameter.
-/

namespace Dolo

noncomputable section

variable {S X E : Type}

/-- The derivatives that the model functions return with `diff=True` (perfect_foresight.py 348-349); those with respect to
the exogenous variables are dropped by the code. -/
structure PFDiff (S X E : Type) where
  g_s : (E → ℝ) → (S → ℝ) → (X → ℝ) → (E → ℝ) → S → S → ℝ
  g_x : (E → ℝ) → (S → ℝ) → (X → ℝ) → (E → ℝ) → S → X → ℝ
  f_s : (E → ℝ) → (S → ℝ) → (X → ℝ) → (E → ℝ) → (S → ℝ) → (X → ℝ) → X → S → ℝ
  f_x : (E → ℝ) → (S → ℝ) → (X → ℝ) → (E → ℝ) → (S → ℝ) → (X → ℝ) → X → X → ℝ
  f_S : (E → ℝ) → (S → ℝ) → (X → ℝ) → (E → ℝ) → (S → ℝ) → (X → ℝ) → X → S → ℝ
  f_X : (E → ℝ) → (S → ℝ) → (X → ℝ) → (E → ℝ) → (S → ℝ) → (X → ℝ) → X → X → ℝ

/-- perfect_foresight.py 340-349: the blocks, evaluated at the rows of the guess and of the shocks. -/
def pfBlocks (d : PFDiff S X E) (guess : ℕ → S ⊕ X → ℝ) (m : ℕ → E → ℝ) : PFBlocks ℝ S X where
  SS_s i := d.g_s (m i) (stOf guess i) (ctOf guess i) (m (i + 1))
  SS_x i := d.g_x (m i) (stOf guess i) (ctOf guess i) (m (i + 1))
  R_s i := d.f_s (m i) (stOf guess i) (ctOf guess i) (m (i + 1)) (stOf guess (i + 1)) (ctOf guess (i + 1))
  R_x i := d.f_x (m i) (stOf guess i) (ctOf guess i) (m (i + 1)) (stOf guess (i + 1)) (ctOf guess (i + 1))
  R_S i := d.f_S (m i) (stOf guess i) (ctOf guess i) (m (i + 1)) (stOf guess (i + 1)) (ctOf guess (i + 1))
  R_X i := d.f_X (m i) (stOf guess i) (ctOf guess i) (m (i + 1)) (stOf guess (i + 1)) (ctOf guess (i + 1))

/-- The residual part of `det_residual`, for the solvers: they are called after line 229 has evaluated it once, so that it
does not raise any more. -/
def pfRes (M : PFModel ℝ S X E) (N : ℕ) (guess : ℕ → S ⊕ X → ℝ) (start : S → ℝ) (m : ℕ → E → ℝ) : ℕ → S ⊕ X → ℝ :=
  match detResidual M.g M.f N guess start m with
  | .ok r => r
  | .error _ => fun _ _ => 0

variable [Fintype S] [Fintype X] [DecidableEq S] [DecidableEq X]

/-- `abs(v).max()` over the stacked vector. -/
def pfNorm (N : ℕ) (v : ℕ → S ⊕ X → ℝ) : ℝ :=
  (Finset.univ : Finset (Fin N × (S ⊕ X))).fold max 0 fun ic => |v ic.1 ic.2|

/-- The problem of the call `newton(ff, v0, jactype="sparse")`, perfect_foresight.py 262-273 (`spsolve` in line 137 of
newton.py). -/
def pfNewton (M : PFModel ℝ S X E) (d : PFDiff S X E)
    (spsolve : (ℕ → S ⊕ X → ℕ → S ⊕ X → ℝ) → (ℕ → S ⊕ X → ℝ) → ℕ → S ⊕ X → ℝ) (N : ℕ) (start : S → ℝ) (m : ℕ → E → ℝ) :
    NewtonProblem ℝ (ℕ → S ⊕ X → ℝ) (ℕ → S ⊕ X → ℝ) (ℕ → S ⊕ X → ℕ → S ⊕ X → ℝ) (ℕ → S ⊕ X → ℝ) where
  f v := (pfRes M N v start m, detJac (pfBlocks d v m) N)
  norm := pfNorm N
  solve := spsolve
  sub x dx t := fun i c => x i c - dx i c * t

/-- `fcmp` of `ncpsolve(ff, lower_bound.ravel(), upper_bound.ravel(), ..., jactype="sparse")`, perfect_foresight.py 233-247
and ncpsolve.py 13-23, 73-86: the signs are reverted, then residuals and Jacobian are smoothed.  No entry of `lo` or `hi`
stands for an infinite bound. -/
def pfFcmp (M : PFModel ℝ S X E) (d : PFDiff S X E) (N : ℕ) (start : S → ℝ) (m : ℕ → E → ℝ)
    (lo hi : ℕ → S ⊕ X → Option ℝ) (v : ℕ → S ⊕ X → ℝ) : (ℕ → S ⊕ X → ℝ) × (ℕ → S ⊕ X → ℕ → S ⊕ X → ℝ) :=
  let val := fun i c => -pfRes M N v start m i c
  let dval := fun i c j c' => -detJac (pfBlocks d v m) N i c j c'
  let pval := fun i c => ncpPval (v i c) (val i c) (lo i c)
  let dp := fun i c => ncpDp (v i c) (val i c) (lo i c)
  let dm := fun i c => ncpDm (v i c) (pval i c) (hi i c)
  let ff := fun i c => (dm i c).1 * (dp i c).1
  let xx := fun i c => (dm i c).1 * (dp i c).2 + (dm i c).2
  (fun i c => ncpFxnew (v i c) (pval i c) (hi i c),
    fun i c j c' => ff i c * dval i c j c' - (if i = j ∧ c = c' then xx i c else 0))

/-- The problem solved by that call. -/
def pfNcp (M : PFModel ℝ S X E) (d : PFDiff S X E)
    (spsolve : (ℕ → S ⊕ X → ℕ → S ⊕ X → ℝ) → (ℕ → S ⊕ X → ℝ) → ℕ → S ⊕ X → ℝ) (N : ℕ) (start : S → ℝ) (m : ℕ → E → ℝ)
    (lo hi : ℕ → S ⊕ X → Option ℝ) :
    NewtonProblem ℝ (ℕ → S ⊕ X → ℝ) (ℕ → S ⊕ X → ℝ) (ℕ → S ⊕ X → ℕ → S ⊕ X → ℝ) (ℕ → S ⊕ X → ℝ) where
  f := pfFcmp M d N start m lo hi
  norm := pfNorm N
  solve := spsolve
  sub x dx t := fun i c => x i c - dx i c * t

/-- `lower_bound[:, n_s:] = lb`, the states having no bounds, perfect_foresight.py 211-214. -/
def pfBoundRows {K : Type} (b : ℕ → X → Option K) : ℕ → S ⊕ X → Option K := fun i => Sum.elim (fun _ => none) (b i)

/-- perfect_foresight.py 143-303 without constraints (or with `ignore_constraints`) and with the default guess: the table
and whether `newton` warned.  The call of line 273 passes neither `tol` nor `maxit`, so that the defaults of newton.py 84
are used: `tol=1e-6, maxit=5`. -/
def pfSolveFree (M : PFModel ℝ S X E) (d : PFDiff S X E)
    (spsolve : (ℕ → S ⊕ X → ℕ → S ⊕ X → ℝ) → (ℕ → S ⊕ X → ℝ) → ℕ → S ⊕ X → ℝ) (T : ℕ) (given keep : Bool)
    (eps : ℕ → E → ℝ) (s0 : Option (S → ℝ)) (m0 : Option (E → ℝ)) (_tol : ℝ) (_maxit : ℕ) :
    Except Err (List (ℤ × (S ⊕ X → ℝ) × (E → ℝ)) × Bool) := do
  let (s0', x0, s1) ← pfStart M T given eps s0 m0
  let _ ← detResidual M.g M.f (T + 1) (pfGuess M T s1) s1 eps
  let r := newton (pfNewton M d spsolve (T + 1) s1 eps) (1 / 10 ^ 6) 5 (pfGuess M T s1)
  pure (pfTable T given keep s0' x0 r.x eps, r.warned)

/-- The same with constraints and `solver="ncpsolve"`, with the bounds `lb` and `ub` of the controls evaluated along the
guess; `tol` and `maxit` are passed on. -/
def pfSolveNcp (M : PFModel ℝ S X E) (d : PFDiff S X E)
    (spsolve : (ℕ → S ⊕ X → ℕ → S ⊕ X → ℝ) → (ℕ → S ⊕ X → ℝ) → ℕ → S ⊕ X → ℝ) (T : ℕ) (given keep : Bool)
    (eps : ℕ → E → ℝ) (s0 : Option (S → ℝ)) (m0 : Option (E → ℝ)) (lb ub : ℕ → X → Option ℝ) (tol : ℝ) (maxit : ℕ) :
    Except Err (List (ℤ × (S ⊕ X → ℝ) × (E → ℝ)) × Bool) := do
  let (s0', x0, s1) ← pfStart M T given eps s0 m0
  let _ ← detResidual M.g M.f (T + 1) (pfGuess M T s1) s1 eps
  let r := newton (pfNcp M d spsolve (T + 1) s1 eps (pfBoundRows lb) (pfBoundRows ub)) tol maxit (pfGuess M T s1)
  pure (pfTable T given keep s0' x0 r.x eps, r.warned)

end

end Dolo
