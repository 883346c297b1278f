import Verif.Model.Complementarity
import Verif.Model.ItiOperator

/-!
# A pass of `improved_time_iteration`

Models `dolo/algos/improved_time_iteration.py:363-515` with the arrays of all grid points.  The numerical derivatives of
lines 397-428 (`SerialDifferentiableFunction`, see C55) are parameters `dres` and `jres`; the solver of the small linear
systems (`solve_gu`, `solve_tensor`, see C24 and C118) and `scipy`'s `gmres` are parameters too.
-/

namespace Dolo

noncomputable section

/-- The arrays `res` (shape `(n_m, N, n_x)`), `dres` (shape `(n_m, N, n_x, n_x)`) and `jres` (shape
`(n_m, n_im, N, n_x, n_x)`). -/
structure ItiArrays where
  res : Table ℝ
  dres : ℕ → ℕ → ℕ → ℕ → ℝ
  jres : ℕ → ℕ → ℕ → ℕ → ℕ → ℝ

/-- `inplace(Phi, J)`, `dolo/algos/improved_time_iteration.py:32-40`. -/
def scaleJres (Phi : Table ℝ) (J : ℕ → ℕ → ℕ → ℕ → ℕ → ℝ) : ℕ → ℕ → ℕ → ℕ → ℕ → ℝ :=
  fun i_a i_b i_c i_d i_e => J i_a i_b i_c i_d i_e * Phi i_a i_c i_d

/-- `smooth(res, dres, jres, dx, pos)` on arrays, lines 43-61. -/
def smoothArrays (a : ItiArrays) (dx : ℕ → ℕ → ℕ → Option ℝ) (pos : ℝ) : ItiArrays where
  res i n k := itiH (a.res i n k) (dx i n k)
  dres i n k l := itiPhiA (a.res i n k) (dx i n k) * a.dres i n k l
    + (if k = l then itiPhiB (a.res i n k) (dx i n k) * pos else 0)
  jres := scaleJres (fun i n k => itiPhiA (a.res i n k) (dx i n k)) a.jres

/-- `res *= -1; dres *= -1; jres *= -1`. -/
def negArrays (a : ItiArrays) : ItiArrays where
  res i n k := a.res i n k * -1
  dres i n k l := a.dres i n k l * -1
  jres i j n k l := a.jres i j n k l * -1

/-- The model on its grid, with the options of `improved_time_iteration` that matter here.  `constrained` is
`complementarities`; `lb` and `ub` are the bounds at the grid points (lines 345-350), `none` for infinite ones. -/
structure ItiProblem where
  nm : ℕ
  nim : ℕ
  N : ℕ
  nx : ℕ
  f : (m s x M S X : ℕ → ℝ) → ℕ → ℝ
  g : (m s x M : ℕ → ℝ) → ℕ → ℝ
  s : ℕ → ℕ → ℝ
  interp : Table ℝ → ℕ → ℕ → (ℕ → ℝ) → ℕ → ℝ
  dp : DProc ℝ
  lb : ℕ → ℕ → ℕ → Option ℝ
  ub : ℕ → ℕ → ℕ → Option ℝ
  constrained : Bool
  dres : Table ℝ → ℕ → ℕ → ℕ → ℕ → ℝ
  jres : Table ℝ → ℕ → ℕ → ℕ → ℕ → ℕ → ℝ

/-- The linear solvers. -/
structure ItiSolvers where
  solve : (ℕ → ℕ → ℝ) → (ℕ → ℝ) → ℕ → ℝ
  gmres : ((ℕ → ℝ) → ℕ → ℝ) → (ℕ → ℝ) → ℝ → ℕ → ℝ

/-- The option `invmethod`; any other value than `"gmres"` means `iti`. -/
inductive InvMethod where
  | iti
  | gmres

/-- `euler_residuals(f, g, s, x, ddr, dprocess, parms)` with `ddr` interpolating `x`, lines 397-411. -/
def ItiProblem.raw (P : ItiProblem) (x : Table ℝ) : Table ℝ := residualsSimple P.f P.g P.s x (P.interp x) P.dp

/-- `res`, `dres`, `jres` after the treatment of complementarities, lines 397-438. -/
def ItiProblem.arrays (P : ItiProblem) (x : Table ℝ) : ItiArrays :=
  let a : ItiArrays := ⟨P.raw x, P.dres x, P.jres x⟩
  if P.constrained then
    let a := smoothArrays a (fun i n k => (P.lb i n k).map fun l => x i n k - l) 1
    let a := negArrays a
    let a := smoothArrays a (fun i n k => (P.ub i n k).map fun u => u - x i n k) (-1)
    negArrays a
  else a

/-- `err_0 = abs(res).max()`, line 440.  The error of the line search, lines 485-493, is the same function of the rule
(C29_same_residual). -/
def ItiProblem.err (P : ItiProblem) (x : Table ℝ) : ℝ := tableMax P.nm P.N P.nx (P.arrays x).res

/-- `jres` after `jres *= -1` and `solve_tensor` at all nodes, lines 442-450. -/
def premultiplied (S : ItiSolvers) (a : ItiArrays) : ℕ → ℕ → ℕ → ℕ → ℕ → ℝ :=
  fun i j n k q => S.solve (a.dres i n) (fun k => a.jres i j n k q * -1) k

/-- `fut_S` and `dumdr`: the interpolation of an array at the future states, lines 412-428, 596. -/
def ItiProblem.filt (P : ItiProblem) (x : Table ℝ) : Table ℝ → ℕ → ℕ → ℕ → ℕ → ℝ := fun π i j n l =>
  P.interp π i j (P.g (P.dp.node i) (P.s n) (x i n) (P.dp.inode i j)) l

/-- `tot`, lines 455-481.  Without a sweep (`smaxit=0`) `invert_jac` raises; this case is not modelled here
(see C30), the step is then taken to be zero. -/
def ItiProblem.tot (P : ItiProblem) (S : ItiSolvers) (method : InvMethod) (tol : ℝ) (smaxit : ℕ) (x : Table ℝ) :
    Table ℝ :=
  let a := P.arrays x
  let M := premultiplied S a
  let d : Table ℝ := fun i n => S.solve (a.dres i n) (a.res i n)
  match method with
  | .gmres => gmresStep S.gmres ⟨P.nm, P.nim, P.N, P.nx, M, P.filt x, false, 0⟩ d (P.err x)
  | .iti =>
    match invertJac (dFiltDx P.nim P.nx M (P.filt x)) (tableMax P.nm P.N P.nx) tol smaxit d with
    | .ok (tot, _) => tot
    | .error _ => fun _ _ _ => 0

/-- `new_x = x - tot * lam` with `lam = steps[b]` and `steps = 0.5 ** numpy.arange(maxbsteps)`, lines 343, 483-484. -/
def ItiProblem.trial (P : ItiProblem) (S : ItiSolvers) (method : InvMethod) (tol : ℝ) (smaxit : ℕ) (x : Table ℝ)
    (b : ℕ) : Table ℝ := fun i n k => x i n k - P.tot S method tol smaxit x i n k * (1 / 2) ^ b

/-- The array with the entries of a vector. -/
def reshape3 (nm N nx : ℕ) (v : Fin (nm * N * nx) → ℝ) : Table ℝ :=
  unravel3 nm N nx fun r => if h : r < nm * N * nx then v ⟨r, h⟩ else 0

/-- The vector with the entries of an array. -/
def flatten3 (nm N nx : ℕ) (t : Table ℝ) : Fin (nm * N * nx) → ℝ := fun r => ravel3 N nx t r

/-- `improved_time_iteration`, lines 363-538: the loop of `Verif.Model.Loops` with the passes described here.  The
controls at all grid points are given as a vector (`x.ravel()`). -/
def ItiProblem.run (P : ItiProblem) (S : ItiSolvers) (method : InvMethod) (tol : ℝ) (smaxit maxbsteps maxit : ℕ)
    (x0 : Fin (P.nm * P.N * P.nx) → ℝ) : Except Err (ITIResult (Fin (P.nm * P.N * P.nx) → ℝ) ℝ) :=
  improvedTimeIteration (fun v => P.err (reshape3 P.nm P.N P.nx v))
    (fun v b => flatten3 P.nm P.N P.nx (P.trial S method tol smaxit (reshape3 P.nm P.N P.nx v) b))
    maxbsteps tol maxit x0

end

end Dolo
