import Mathlib.Analysis.Real.Sqrt
import Verif.Model.Err

/-!
# Complementarity: Fischer-Burmeister residuals

Models `dolo/algos/fb.py`, the smoothing steps of `dolo/algos/improved_time_iteration.py`,
`dolo/numeric/optimize/ncpsolve.py:smooth` and the merit function of
`dolo/numeric/extern/lmmcp.py`.  Floats are reals; an infinite bound is `none`.  Quotients `0/0` (NaN in
the code) only occur at the kinks, which the theorems on derivatives exclude.
-/

namespace Dolo

noncomputable section

/-! ### `dolo/algos/fb.py` -/

/-- `PhiFB(a, b)`, `dolo/algos/fb.py:17-18`. -/
def phiFB (a b : ℝ) : ℝ := a + b - √(a ^ 2 + b ^ 2)

/-- `smooth_FB(f, x, a, b)`, `dolo/algos/fb.py:22-23`. -/
def smoothFB (f x a b : ℝ) : ℝ := phiFB (-phiFB f (x - a)) (b - x)

/-- `PhiFB_(a, b)`, `dolo/algos/fb.py:27-36`: value and the two partial derivatives. -/
def phiFB' (a b : ℝ) : ℝ × ℝ × ℝ :=
  let sq := √(a ^ 2 + b ^ 2)
  let x := a + b - sq
  if sq ≠ 0 then (x, 1 - a / sq, 1 - b / sq) else (x, 0, 0)

/-- `smooth_FB_(f, x, a, b, df)`, `dolo/algos/fb.py:40-49`. -/
def smoothFB' (f x a b df : ℝ) : ℝ × ℝ :=
  let (v, dv_df, dv_dx) := phiFB' f (x - a)
  let P1 := v
  let dP1_dx := dv_df * df + dv_dx
  let (v, dv_df, dv_dx) := phiFB' (-P1) (b - x)
  (v, -dv_df * dP1_dx - dv_dx)

/-! ### `dolo/algos/improved_time_iteration.py` -/

/-- `dinf = dx > 100000`, `dolo/algos/improved_time_iteration.py:47`. -/
def dinf (dx : Option ℝ) : Prop :=
  match dx with
  | none => True
  | some d => d > 100000

open Classical in
/-- `H`, `smooth_nodiff(res, dx)`, `dolo/algos/improved_time_iteration.py:65-73` (also lines 49-50 and 53 of
`smooth`), for one entry. -/
def itiH (res : ℝ) (dx : Option ℝ) : ℝ :=
  if dinf dx then res
  else match dx with
    | none => res
    | some d => res + d - √(res ^ 2 + d ^ 2)

open Classical in
/-- `Phi_a`, lines 51 and 54. -/
def itiPhiA (res : ℝ) (dx : Option ℝ) : ℝ :=
  if dinf dx then 1
  else match dx with
    | none => 1
    | some d => 1 - res / √(res ^ 2 + d ^ 2)

open Classical in
/-- `Phi_b`, lines 52 and 55. -/
def itiPhiB (res : ℝ) (dx : Option ℝ) : ℝ :=
  if dinf dx then 0
  else match dx with
    | none => 0
    | some d => 1 - d / √(res ^ 2 + d ^ 2)

/-- Residuals of one grid point with their derivatives with respect to the controls at this point (`dres`)
and at one of the future points (`jres`). -/
structure ItiRes (n : ℕ) where
  res : Fin n → ℝ
  dres : Fin n → Fin n → ℝ
  jres : Fin n → Fin n → ℝ

/-- `smooth(res, dres, jres, dx, pos)`, `dolo/algos/improved_time_iteration.py:43-61`. -/
def itiSmooth {n : ℕ} (r : ItiRes n) (dx : Fin n → Option ℝ) (pos : ℝ) : ItiRes n where
  res i := itiH (r.res i) (dx i)
  dres i j := itiPhiA (r.res i) (dx i) * r.dres i j
    + (if i = j then itiPhiB (r.res i) (dx i) * pos else 0)
  jres i j := r.jres i j * itiPhiA (r.res i) (dx i)

/-- `res *= -1; dres *= -1; jres *= -1`. -/
def itiNeg {n : ℕ} (r : ItiRes n) : ItiRes n where
  res i := -r.res i
  dres i j := -r.dres i j
  jres i j := -r.jres i j

/-- The treatment of complementarities in `improved_time_iteration`, lines 430-438. -/
def itiComplement {n : ℕ} (r : ItiRes n) (x : Fin n → ℝ) (lb ub : Fin n → Option ℝ) : ItiRes n :=
  let r := itiSmooth r (fun i => (lb i).map fun l => x i - l) 1
  let r := itiNeg r
  let r := itiSmooth r (fun i => (ub i).map fun u => u - x i) (-1)
  itiNeg r

/-! ### `dolo/numeric/optimize/ncpsolve.py` -/

/-- How Jacobians are stored. -/
inductive JacType
  | serial | sparse | full

/-- `dainf = a <= -BIG`, `dolo/numeric/optimize/ncpsolve.py:34`. -/
def ncpLower (a : Option ℝ) : Option ℝ := a.filter fun l => ¬ (l ≤ -(10 ^ 20 : ℝ))

/-- `dbinf = b >= BIG`, line 35. -/
def ncpUpper (b : Option ℝ) : Option ℝ := b.filter fun u => ¬ (u ≥ (10 ^ 20 : ℝ))

/-- `pval`, lines 41-43: entries whose lower bound is infinite keep `fx`. -/
def ncpPval (x fx : ℝ) (a : Option ℝ) : ℝ :=
  match ncpLower a with
  | none => fx
  | some l => fx + √(fx ^ 2 + (l - x) ^ 2) + (l - x)

/-- `fxnew`, lines 45-49. -/
def ncpFxnew (x pval : ℝ) (b : Option ℝ) : ℝ :=
  match ncpUpper b with
  | none => pval
  | some u => pval - √(pval ^ 2 + (u - x) ^ 2) + (u - x)

/-- `(dpdy, dpdz)`, lines 51-55. -/
def ncpDp (x fx : ℝ) (a : Option ℝ) : ℝ × ℝ :=
  match ncpLower a with
  | none => (1, 0)
  | some l => (1 + fx / √(fx ^ 2 + (l - x) ^ 2), 1 + (l - x) / √(fx ^ 2 + (l - x) ^ 2))

/-- `(dmdy, dmdz)`, lines 57-61. -/
def ncpDm (x pval : ℝ) (b : Option ℝ) : ℝ × ℝ :=
  match ncpUpper b with
  | none => (1, 0)
  | some u => (1 - pval / √(pval ^ 2 + (u - x) ^ 2), 1 - (u - x) / √(pval ^ 2 + (u - x) ^ 2))

/-- `smooth(x, a, b, fx, J, jactype)`, `dolo/numeric/optimize/ncpsolve.py:30-105`, for one problem of size
`n` (for the serial storage, one point).  The branch `full` returns its arguments, line 94. -/
def ncpSmooth {n : ℕ} (x : Fin n → ℝ) (a b : Fin n → Option ℝ) (fx : Fin n → ℝ)
    (J : Fin n → Fin n → ℝ) (jactype : JacType) : (Fin n → ℝ) × (Fin n → Fin n → ℝ) :=
  let pval := fun i => ncpPval (x i) (fx i) (a i)
  let fxnew := fun i => ncpFxnew (x i) (pval i) (b i)
  let dp := fun i => ncpDp (x i) (fx i) (a i)
  let dm := fun i => ncpDm (x i) (pval i) (b i)
  let ff := fun i => (dm i).1 * (dp i).1
  let xx := fun i => (dm i).1 * (dp i).2 + (dm i).2
  let Jnew := fun i j => ff i * J i j - (if i = j then xx i else 0)
  match jactype with
  | .full => (fx, J)
  | .sparse => (fxnew, Jnew)
  | .serial => (fxnew, Jnew)

/-- `fcmp(z)` inside `ncpsolve`, `dolo/numeric/optimize/ncpsolve.py:13-23`: the sign of `f` is reverted. -/
def ncpFcmp {n : ℕ} (f : (Fin n → ℝ) → (Fin n → ℝ) × (Fin n → Fin n → ℝ)) (a b : Fin n → Option ℝ)
    (jactype : JacType) (z : Fin n → ℝ) : (Fin n → ℝ) × (Fin n → Fin n → ℝ) :=
  let val := fun i => -(f z).1 i
  let dval := fun i j => -(f z).2 i j
  ncpSmooth z a b val dval jactype

/-! ### `dolo/numeric/extern/lmmcp.py` -/

open Classical in
/-- `Indexset[i]`, `dolo/numeric/extern/lmmcp.py:88-98`, `Big = 1e10`: later assignments override earlier
ones.  An infinite lower (upper) bound is below `-Big` (above `Big`). -/
def lmmcpIndex (lb ub : Option ℝ) : ℕ :=
  let lbGt := match lb with | none => False | some l => l > -(10 ^ 10 : ℝ)
  let lbLt := match lb with | none => True | some l => l < -(10 ^ 10 : ℝ)
  let ubGt := match ub with | none => True | some u => u > (10 ^ 10 : ℝ)
  let ubLt := match ub with | none => False | some u => u < (10 ^ 10 : ℝ)
  if lbGt ∧ ubLt then 3
  else if lbLt ∧ ubLt then 2
  else if lbGt ∧ ubGt then 1
  else 0

/-- `phi_u` in `Phi3MCPPFB`, lines 385-390. -/
def lmmcpPhiU (x Fx ub : ℝ) : ℝ := √((ub - x) ^ 2 + Fx ^ 2) - ub + x + Fx

/-- The two entries `(y[i-1], y[n+i-1])` of `Phi3MCPPFB`, `dolo/numeric/extern/lmmcp.py:382-416`, for one
index.  The bounds that an index type does not use are irrelevant, see `lmmcpPhi`. -/
def lmmcpPhiEntry (x Fx lb ub lam1 lam2 : ℝ) (index : ℕ) : ℝ × ℝ :=
  let phi_u := lmmcpPhiU x Fx ub
  if index = 1 then
    (lam1 * (-x + lb - Fx + √((x - lb) ^ 2 + Fx ^ 2)), lam2 * max 0 (x - lb) * max 0 Fx)
  else if index = 2 then
    (-lam1 * phi_u, lam2 * max 0 (ub - x) * max 0 (-Fx))
  else if index = 0 then
    (-lam1 * Fx, -lam2 * Fx)
  else if index = 3 then
    (lam1 * (√((x - lb) ^ 2 + phi_u ^ 2) - x + lb - phi_u),
      lam2 * (max 0 (x - lb) * max 0 Fx + max 0 (ub - x) * max 0 (-Fx)))
  else (0, 0)

/-- The entries for one index with the bounds supplied by the user; infinite bounds are not used by the
types of index they lead to. -/
def lmmcpPhi (x Fx : ℝ) (lb ub : Option ℝ) (lam1 lam2 : ℝ) : ℝ × ℝ :=
  lmmcpPhiEntry x Fx (lb.getD 0) (ub.getD 0) lam1 lam2 (lmmcpIndex lb ub)

/-- Row `i` of the first block `H1` of `DPhi3MCPPFB`, lines 450-566, as the pair `(Da, Db)` with
`H1[i,:] = Da e_i + Db DFx[i,:]`, at points where neither `beta_l` nor `beta_u` is set (`null = 1e-8`). -/
def lmmcpD1 (x Fx lb ub : ℝ) (index : ℕ) : ℝ × ℝ :=
  let null : ℝ := 1 / 10 ^ 8
  if index = 0 then (0, -1)
  else if index = 1 then
    let denom1 := max null (√((x - lb) ^ 2 + Fx ^ 2))
    ((x - lb) / denom1 - 1, Fx / denom1 - 1)
  else if index = 2 then
    let denom1 := max null (√((ub - x) ^ 2 + Fx ^ 2))
    ((ub - x) / denom1 - 1, -Fx / denom1 - 1)
  else if index = 3 then
    let phi := -ub + x + Fx + √((ub - x) ^ 2 + Fx ^ 2)
    let denom1 := max null (√((x - lb) ^ 2 + phi ^ 2))
    let denom3 := max null (√((ub - x) ^ 2 + Fx ^ 2))
    let ci := (x - ub) / denom3 + 1
    let di := Fx / denom3 + 1
    let ai := (x - lb) / denom1 - 1
    let bi := phi / denom1 - 1
    (ai + bi * ci, bi * di)
  else (0, 0)

open Classical in
/-- Row `i` of the second block `H2` of `DPhi3MCPPFB`, as the pair `(a, b)` with
`H2[i,:] = a e_i + b DFx[i,:]`, lines 443-447, 458, 474-477, 493-498 and 547-563. -/
def lmmcpD2 (x Fx lb ub : ℝ) (index : ℕ) : ℝ × ℝ :=
  let null : ℝ := 1 / 10 ^ 8
  let alpha_l : Prop := x - lb ≥ -null ∧ Fx ≥ -null
  let alpha_u : Prop := ub - x ≥ -null ∧ Fx ≤ null
  if index = 0 then (0, -1)
  else if index = 1 then (if alpha_l then (Fx, x - lb) else (0, 0))
  else if index = 2 then (if alpha_u then (Fx, x - ub) else (0, 0))
  else if index = 3 then
    if alpha_l ∧ alpha_u then (2 * Fx, -lb - ub + 2 * x)
    else if alpha_l then (Fx, x - lb)
    else if alpha_u then (Fx, x - ub)
    else (0, 0)
  else (0, 0)

end

end Dolo
