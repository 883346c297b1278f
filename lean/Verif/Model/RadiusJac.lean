import Mathlib.Analysis.SpecialFunctions.Sqrt
import Verif.Model.ItiOperator

/-!
# The convergence factors of `dolo/algos/improved_time_iteration.py`

`invert_jac` 174-204 with the ratio `lam` it returns, and `radius_jac` 207-242.  The arrays of shape
`(n_m, N, n_x)` are vectors with `n` entries; `L` is `d_filt_dx` (103-116, `Verif.Model.Loops`).  Arithmetic
is exact; a quotient `0 / 0` of numpy numbers is `nan`, here `none`.
-/

namespace Dolo

/-- `abs(m).max()` for an array with at least one entry. -/
noncomputable def supAbs {n : ℕ} (v : Fin n → ℝ) : ℝ := (List.ofFn fun i => |v i|).foldl max 0

/-- improved_time_iteration.py 216: `norm2 = lambda m: sqrt((m**2).sum())`. -/
noncomputable def norm2 {n : ℕ} (v : Fin n → ℝ) : ℝ := √((List.ofFn fun i => v i ^ 2).sum)

/-! ## invert_jac -/

/-- What the loop of `invert_jac` leaves: `tot`, `nn`, `lam`. -/
structure InvertRes (n : ℕ) where
  tot : Fin n → ℝ
  nn : ℕ
  lam : Option ℝ

/-- improved_time_iteration.py 190-201: `k` passes left, `nn` the number of the pass, `err_0` the size of
the last term. -/
noncomputable def invertLamLoop {n : ℕ} (L : (Fin n → ℝ) → Fin n → ℝ) (tol : ℝ) :
    ℕ → ℕ → (Fin n → ℝ) → (Fin n → ℝ) → ℝ → Option (InvertRes n) → Option (InvertRes n)
  | 0, _, _, _, _, last => last
  | k + 1, nn, ddx, tot, err_0, _ =>
    let ddx := L ddx
    let err := supAbs ddx
    let lam := if err_0 = 0 then none else some (err / err_0)
    let tot := tot + ddx
    let res : InvertRes n := ⟨tot, nn, lam⟩
    if err < tol then some res else invertLamLoop L tol k (nn + 1) ddx tot err (some res)

/-- improved_time_iteration.py 174-204 `invert_jac`; `d` is `solve_gu(dres, res)`.  Without a pass the name
`nn` is not defined. -/
noncomputable def invertJacLam {n : ℕ} (L : (Fin n → ℝ) → Fin n → ℝ) (tol : ℝ) (maxit : ℕ) (d : Fin n → ℝ) :
    Except Err (InvertRes n) :=
  match invertLamLoop L tol maxit 0 d d (supAbs d) none with
  | some r => .ok r
  | none => .error .nameError

/-! ## radius_jac -/

/-- What `radius_jac` returns. -/
structure RadiusRes where
  lam : Option ℝ
  lamMax : ℝ
  lambdas : List (Option ℝ)

/-- improved_time_iteration.py 234: `π[:, :, :] /= lam`.  `π` has the norm `lam`, so that a division by zero
is `0 / 0` in all entries. -/
noncomputable def divScalar {n : ℕ} (v : Fin n → ℝ) (c : ℝ) : Option (Fin n → ℝ) :=
  if c = 0 then none else some fun i => v i / c

/-- improved_time_iteration.py 231-241, `k` passes left.  All later arrays and norms of a `nan` array are
`nan`, and `max(lam_max, nan)` is `lam_max` in Python. -/
noncomputable def radiusLoop {n : ℕ} (L : (Fin n → ℝ) → Fin n → ℝ) :
    ℕ → Option (Fin n → ℝ) → Option ℝ → ℝ → List (Option ℝ) → RadiusRes
  | 0, _, lam, lamMax, lambdas => ⟨lam, lamMax, lambdas⟩
  | k + 1, π, lam, lamMax, lambdas =>
    let π := ((π.bind fun v => lam.bind fun l => divScalar v l)).map L
    let lam := π.map norm2
    let lamMax := lam.elim lamMax (max lamMax)
    radiusLoop L k π lam lamMax (lambdas ++ [lam])

/-- improved_time_iteration.py 207-242 `radius_jac` for the array `r` drawn in line 220. -/
noncomputable def radiusJac {n : ℕ} (L : (Fin n → ℝ) → Fin n → ℝ) (maxit : ℕ) (r : Fin n → ℝ) : RadiusRes :=
  radiusLoop L maxit (divScalar r (norm2 r)) (some 1) 0 []

end Dolo
