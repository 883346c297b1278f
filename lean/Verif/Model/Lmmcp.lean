import Mathlib.Algebra.BigOperators.Fin
import Verif.Model.Complementarity

/-!
# `lmmcp`: the whole algorithm

`dolo/numeric/extern/lmmcp.py:61-376`.  The merit function and the classification of indices are those of
`Verif.Model.Complementarity`.  The search directions (least-squares problems solved by `np.linalg.lstsq`, with the
regularisation chosen by a condition number) and the gradient `DPsix` are functions of the step number and of the
current point, and are parameters.  Floats are reals; an infinite bound is `none`.  Not modelled: printing, and the
options `Big` (kept at its default) and `eps1` (never used).
-/

namespace Dolo

noncomputable section

/-- The arguments of `lmmcp` that do not change, with the directions of both phases. -/
structure LmmcpProblem (n : ℕ) where
  F : (Fin n → ℝ) → Fin n → ℝ
  lb : Fin n → Option ℝ
  ub : Fin n → Option ℝ
  /-- `pLM` of step `k` of the preprocessor, lines 176-199 -/
  preDir : ℕ → (Fin n → ℝ) → Fin n → ℝ
  /-- `d` of the main algorithm at counter `k`, lines 284-302 -/
  mainDir : ℕ → (Fin n → ℝ) → Fin n → ℝ
  /-- `DPsix`, lines 121, 232 and 333 -/
  grad : (Fin n → ℝ) → Fin n → ℝ

/-- The options read, lines 53-60 and 66-74. -/
structure LmmcpOpts where
  eps2 : ℝ
  null : ℝ
  preprocess : Bool
  presteps : ℕ

/-- `defaults`, lines 53-60. -/
def lmmcpDefaults : LmmcpOpts := ⟨1 / 10 ^ 14, 1 / 10 ^ 8, true, 20⟩

variable {n : ℕ}

/-- `np.dot(Phix.T, Phix)` for `Phix = Phi(x, fun(x), lb, ub, lambda1, lambda2, n, Indexset)`; `lambda1 = 0.1`,
`lambda2 = 0.9`. -/
def lmmcpPhiSq (P : LmmcpProblem n) (x : Fin n → ℝ) : ℝ :=
  ∑ i, ((lmmcpPhi (x i) (P.F x i) (P.lb i) (P.ub i) (1 / 10) (9 / 10)).1 ^ 2
    + (lmmcpPhi (x i) (P.F x i) (P.lb i) (P.ub i) (1 / 10) (9 / 10)).2 ^ 2)

/-- `0.5 * np.dot(Phix.T, Phix)`, lines 117, 215, 314, 322. -/
def lmmcpPsi (P : LmmcpProblem n) (x : Fin n → ℝ) : ℝ := 1 / 2 * lmmcpPhiSq P x

/-- `np.maximum(lb, np.minimum(x, ub))`, line 82. -/
def lmmcpProject (P : LmmcpProblem n) (x : Fin n → ℝ) : Fin n → ℝ := fun i =>
  let y := match P.ub i with | none => x i | some u => min (x i) u
  match P.lb i with | none => y | some l => max l y

/-- The projected Levenberg-Marquardt step, lines 205-208. -/
def lmmcpBoxStep (P : LmmcpProblem n) (x p : Fin n → ℝ) (delta : ℝ) : Fin n → ℝ := fun i =>
  let lbnew := match P.lb i with | none => -delta | some l => max (min (l - x i) 0) (-delta)
  let ubnew := match P.ub i with | none => delta | some u => min (max (u - x i) 0) delta
  x i + max lbnew (min (p i) ubnew)

open Classical in
/-- The update of `delta`, lines 219-222; `deltamin = 1`, `sigma1 = 0.5`, `sigma2 = 2`, `eta = 0.95`. -/
def lmmcpDelta (normNew norm delta : ℝ) : ℝ :=
  if normNew ≤ 95 / 100 * norm then max 1 (2 * delta)
  else if normNew > 5 * (95 / 100) * norm then max 1 (1 / 2 * delta)
  else delta

open Classical in
/-- The preprocessor `while (k < presteps) & (Psix > eps2) & (normpLM > null)`, lines 169-233; the first argument
is `presteps - k`.  Returns `k`, `x` and `Psix`. -/
def lmmcpPre (P : LmmcpProblem n) (o : LmmcpOpts) : ℕ → ℕ → ℝ → ℝ → (Fin n → ℝ) → ℝ → ℕ × (Fin n → ℝ) × ℝ
  | 0, k, _, _, x, Psix => (k, x, Psix)
  | fuel + 1, k, delta, normpLM, x, Psix =>
    if Psix > o.eps2 ∧ normpLM > o.null then
      let k := k + 1
      let pLM := P.preDir k x
      let normpLM := √(∑ i, pLM i ^ 2)
      let xnew := lmmcpBoxStep P x pLM delta
      let Psixnew := lmmcpPsi P xnew
      let delta := lmmcpDelta (√(lmmcpPhiSq P xnew)) (√(lmmcpPhiSq P x)) delta
      lmmcpPre P o fuel k delta normpLM xnew Psixnew
    else (k, x, Psix)

open Classical in
/-- The line search `while (Psixnew > MaxPsi + const * t) & (t > tmin)`, lines 317-322; `beta = 0.55`,
`tmin = 1e-12`.  The first argument bounds the number of passes: 47 are enough, since `0.55 ^ 47 < 1e-12`. -/
def lmmcpSearch (P : LmmcpProblem n) (x d : Fin n → ℝ) (MaxPsi const : ℝ) :
    ℕ → ℝ → (Fin n → ℝ) → ℝ → ℝ × (Fin n → ℝ) × ℝ
  | 0, t, xnew, Psixnew => (t, xnew, Psixnew)
  | fuel + 1, t, xnew, Psixnew =>
    if Psixnew > MaxPsi + const * t ∧ t > 1 / 10 ^ 12 then
      let t := t * (55 / 100)
      let xnew := fun i => x i + t * d i
      lmmcpSearch P x d MaxPsi const fuel t xnew (lmmcpPsi P xnew)
    else (t, xnew, Psixnew)

/-- The variables of the main algorithm. -/
structure LmmcpState (n : ℕ) where
  k : ℕ
  kMain : ℕ
  x : Fin n → ℝ
  Psix : ℝ
  MaxPsi : ℝ
  aux : ℕ → ℝ
  kbest : ℕ
  xbest : Fin n → ℝ
  Psibest : ℝ

/-- `max(aux)`, `m = 10` entries. -/
def lmmcpMaxAux (aux : ℕ → ℝ) : ℝ := ((List.range 9).map fun j => aux (j + 1)).foldl max (aux 0)

open Classical in
/-- One pass of the main loop, lines 279-367; `sigma = 1e-4`, `kwatch = 20`. -/
def lmmcpStep (P : LmmcpProblem n) (s : LmmcpState n) : LmmcpState n :=
  let d := P.mainDir s.k s.x
  let xnew := fun i => s.x i + d i
  let const := 1 / 10 ^ 4 * ∑ i, P.grad s.x i * d i
  let r := lmmcpSearch P s.x d s.MaxPsi const 47 1 xnew (lmmcpPsi P xnew)
  let x := r.2.1
  let Psix := r.2.2
  let k := s.k + 1
  let kMain := s.kMain + 1
  let aux := fun j => if j = kMain % 10 then Psix else s.aux j
  let MaxPsi := if kMain ≤ 5 then Psix else lmmcpMaxAux aux
  if Psix < s.Psibest then
    ⟨k, kMain, x, Psix, MaxPsi, aux, k, x, Psix⟩
  else if k - s.kbest > 20 then
    ⟨k, kMain, s.xbest, s.Psibest, s.Psibest, aux, s.kbest, s.xbest, s.Psibest⟩
  else ⟨k, kMain, x, Psix, MaxPsi, aux, s.kbest, s.xbest, s.Psibest⟩

open Classical in
/-- `while (k < kmax) & (Psix > eps2)`, line 277; the first argument is `kmax - k`. -/
def lmmcpMain (P : LmmcpProblem n) (o : LmmcpOpts) : ℕ → LmmcpState n → LmmcpState n
  | 0, s => s
  | fuel + 1, s => if s.Psix > o.eps2 then lmmcpMain P o fuel (lmmcpStep P s) else s

/-- The main algorithm and the return, lines 275-376, from `k`, `x` and `Psix`; `x0` is the projected starting
point (`aux`, `MaxPsi` and the variables of the watchdog refer to it); `kmax = 500`. -/
def lmmcpFinish (P : LmmcpProblem n) (o : LmmcpOpts) (x0 : Fin n → ℝ) (k : ℕ) (x : Fin n → ℝ) (Psix : ℝ) :
    Except Err (Fin n → ℝ) :=
  let Psi0 := lmmcpPsi P x0
  let s := lmmcpMain P o (500 - k) ⟨k, 0, x, Psix, Psi0, fun j => if j = 0 then Psi0 else 0, 0, x0, Psi0⟩
  if s.k = 500 then .error (.exception "No convergence") else .ok s.x

open Classical in
/-- `lmmcp(fun, Dfun, x0, lb, ub, verbose, options)`, lines 61-376. -/
def lmmcp (P : LmmcpProblem n) (o : LmmcpOpts) (verbose : Bool) (x0 : Fin n → ℝ) : Except Err (Fin n → ℝ) :=
  let x := lmmcpProject P x0
  let Psix := lmmcpPsi P x
  if o.preprocess then
    let r := lmmcpPre P o o.presteps 0 5 1 x Psix
    if r.2.2 < o.eps2 then
      if verbose then .ok r.2.1
      else lmmcpFinish P o x r.1 r.2.1 r.2.2
    else lmmcpFinish P o x r.1 x Psix
  else lmmcpFinish P o x 0 x Psix

end

end Dolo
