import Verif.Model.NanLoops
import Verif.Model.Complementarity

/-!
# Smoothing of complementarity conditions in floating point numbers with infinities and `nan`

`Complementarity.lean` models `smooth` of `ncpsolve.py` and of `improved_time_iteration.py` with real numbers, where a
division by zero gives zero.  Here the same lines are modelled with the numbers `XF` of `PFBounds.lean`, where `0 / 0` is
`nan`.  Rounding and overflow are not modelled.  All denominators in these functions are square roots, so that a zero
denominator is never the float `-0`.
-/

namespace Dolo

noncomputable section

/-- `-a`. -/
def XF.neg : XF → XF
  | .nan => .nan
  | .ninf => .pinf
  | .pinf => .ninf
  | .fin a => .fin (-a)

open Classical in
/-- Infinity with the sign of `a`; `nan` for zero. -/
def XF.infSign (a : ℝ) : XF := if 0 < a then .pinf else if a < 0 then .ninf else .nan

/-- `a * b`. -/
def XF.mul : XF → XF → XF
  | .nan, _ => .nan
  | _, .nan => .nan
  | .fin a, .fin b => .fin (a * b)
  | .fin a, .pinf => .infSign a
  | .fin a, .ninf => .infSign (-a)
  | .pinf, .fin b => .infSign b
  | .ninf, .fin b => .infSign (-b)
  | .pinf, .pinf => .pinf
  | .ninf, .ninf => .pinf
  | .pinf, .ninf => .ninf
  | .ninf, .pinf => .ninf

open Classical in
/-- `a / b` where `b` is not `-0`. -/
def XF.div : XF → XF → XF
  | .nan, _ => .nan
  | _, .nan => .nan
  | .fin a, .fin b => if b = 0 then .infSign a else .fin (a / b)
  | .fin _, .pinf => .fin 0
  | .fin _, .ninf => .fin 0
  | .pinf, .fin b => if b < 0 then .ninf else .pinf
  | .ninf, .fin b => if b < 0 then .pinf else .ninf
  | .pinf, .pinf => .nan
  | .pinf, .ninf => .nan
  | .ninf, .pinf => .nan
  | .ninf, .ninf => .nan

open Classical in
/-- `sqrt(a)`. -/
def XF.sqrt : XF → XF
  | .nan => .nan
  | .ninf => .nan
  | .pinf => .pinf
  | .fin a => if a < 0 then .nan else .fin (√a)

/-- `a <= b`. -/
def XF.le (a b : XF) : Prop := a.lt b ∨ (a = b ∧ a ≠ .nan)

/-- `sqrt(a ** 2 + b ** 2)`. -/
def hypotF (a b : XF) : XF := ((a.mul a).add (b.mul b)).sqrt

/-! ### `dolo/numeric/optimize/ncpsolve.py` -/

/-- The three arrays computed by `smooth` from one entry of its arguments. -/
structure SmoothEntry where
  fxnew : XF
  ff : XF
  xx : XF

open Classical in
/-- `smooth(x, a, b, fx, J)`, `dolo/numeric/optimize/ncpsolve.py:32-63`, for one entry.  The assignments to the entries with
infinite bounds come after the arrays are computed. -/
def smoothF (x a b fx : XF) : SmoothEntry :=
  let dainf : Prop := a.le (.fin (-(10 ^ 20)))
  let dbinf : Prop := XF.le (.fin (10 ^ 20)) b
  let da := a.sub x
  let db := b.sub x
  let sq1 := hypotF fx da
  let pval := if dainf then fx else (fx.add sq1).add da
  let sq2 := hypotF pval db
  let fxnew := if dbinf then pval else (pval.sub sq2).add db
  let dpdy := if dainf then .fin 1 else XF.add (.fin 1) (fx.div sq1)
  let dpdz := if dainf then .fin 0 else XF.add (.fin 1) (da.div sq1)
  let dmdy := if dbinf then .fin 1 else XF.sub (.fin 1) (pval.div sq2)
  let dmdz := if dbinf then .fin 0 else XF.sub (.fin 1) (db.div sq2)
  ⟨fxnew, dmdy.mul dpdy, (dmdy.mul dpdz).add dmdz⟩

variable {ι : Type} [DecidableEq ι]

open Classical in
/-- The Jacobian returned by `smooth`, `dolo/numeric/optimize/ncpsolve.py:71-86` (sparse matrices: `diags([ff]) * J` only
has the entries that are stored in `J`, and `csc_matrix` stores the entries that are not zero) and 96-105 (one matrix per
point).  `jactype="full"` returns its arguments, line 94. -/
def smoothJac (jactype : JacType) (s : ι → SmoothEntry) (J : ι → ι → XF) : ι → ι → XF :=
  match jactype with
  | .sparse => fun i j =>
    let p := if J i j = .fin 0 then .fin 0 else (s i).ff.mul (J i j)
    if i = j then p.sub (s i).xx else p
  | .serial => fun i j => ((s i).ff.mul (J i j)).sub (if i = j then (s i).xx else .fin 0)
  | .full => J

/-- `fcmp(z)` in `ncpsolve`, `dolo/numeric/optimize/ncpsolve.py:13-23`. -/
def fcmpF (f : (ι → XF) → (ι → XF) × (ι → ι → XF)) (a b : ι → XF) (jactype : JacType) (z : ι → XF) :
    (ι → XF) × (ι → ι → XF) :=
  let val := fun i => ((f z).1 i).neg
  let dval := fun i j => ((f z).2 i j).neg
  let s := fun i => smoothF (z i) (a i) (b i) (val i)
  match jactype with
  | .full => (val, dval)
  | _ => (fun i => (s i).fxnew, smoothJac jactype s dval)

/-- `ncpsolve(f, a, b, x, tol, maxit, jactype)`, `dolo/numeric/optimize/ncpsolve.py:10-27`, as a problem for `newton`.  `solve`
stands for `serial_solve` or `spsolve`; `order` is the order of the entries in memory. -/
def ncpProblemF {n : ℕ} (order : Fin (n + 1) ≃ ι) (f : (ι → XF) → (ι → XF) × (ι → ι → XF)) (a b : ι → XF)
    (jactype : JacType) (solve : (ι → ι → XF) → (ι → XF) → ι → XF) : NewtonF n (ι → XF) (ι → ι → XF) (ι → XF) where
  f z := (fun k => (fcmpF f a b jactype z).1 (order k), (fcmpF f a b jactype z).2)
  solve J v := solve J fun i => v (order.symm i)
  trial x dx bck := fun i => (x i).sub ((dx i).mul (.fin ((2 : ℝ) ^ (-(bck : ℤ)))))

/-- `ncpsolve`. -/
def ncpsolveF {n : ℕ} (order : Fin (n + 1) ≃ ι) (f : (ι → XF) → (ι → XF) × (ι → ι → XF)) (a b : ι → XF)
    (jactype : JacType) (solve : (ι → ι → XF) → (ι → XF) → ι → XF) (tol : XF) (maxit : ℕ) (x : ι → XF) :
    NewtonResult (ι → XF) :=
  newtonF (ncpProblemF order f a b jactype solve) tol maxit x

/-! ### `dolo/algos/perfect_foresight.py` -/

section foresight

variable {S X E : Type} [DecidableEq S] [DecidableEq X]

/-- `det_residual(model, guess, start, final, shocks)`, `dolo/algos/perfect_foresight.py:332-409`, for `T + 1` rows with
`T > 0`: residuals and Jacobian.  `rows` are the rows of the Jacobian other than those of the terminal condition (lines
375-398); lines 401-402 write the latter. -/
def detResidualF (T : ℕ) (g : (E → XF) → (S → XF) → (X → XF) → (E → XF) → S → XF)
    (f : (E → XF) → (S → XF) → (X → XF) → (E → XF) → (S → XF) → (X → XF) → X → XF)
    (rows : (Fin (T + 1) × (S ⊕ X) → XF) → Fin (T + 1) × (S ⊕ X) → Fin (T + 1) × (S ⊕ X) → XF)
    (start : S → XF) (shocks : ℕ → E → XF) (guess : Fin (T + 1) × (S ⊕ X) → XF) :
    (Fin (T + 1) × (S ⊕ X) → XF) × (Fin (T + 1) × (S ⊕ X) → Fin (T + 1) × (S ⊕ X) → XF) :=
  let st := fun (t : Fin (T + 1)) a => guess (t, .inl a)
  let ct := fun (t : Fin (T + 1)) b => guess (t, .inr b)
  let res := fun (ic : Fin (T + 1) × (S ⊕ X)) =>
    match ic.2 with
    | .inl a =>
      if ic.1 = 0 then ((st 0 a).sub (start a)).neg
      else (g (shocks (ic.1 - 1 : ℕ)) (st (ic.1 - 1)) (ct (ic.1 - 1)) (shocks ic.1) a).sub (st ic.1 a)
    | .inr b =>
      if ic.1 = Fin.last T then ((ct (Fin.last T) b).sub (ct (Fin.last T - 1) b)).neg
      else f (shocks ic.1) (st ic.1) (ct ic.1) (shocks (ic.1 + 1 : ℕ)) (st (ic.1 + 1)) (ct (ic.1 + 1)) b
  let jac := fun (ic jc : Fin (T + 1) × (S ⊕ X)) =>
    match ic.2, jc.2 with
    | .inr b, .inr b' =>
      if ic.1 = Fin.last T ∧ jc.1 = Fin.last T then .fin (if b = b' then -1 else 0)
      else if ic.1 = Fin.last T ∧ jc.1 = Fin.last T - 1 then .fin (if b = b' then 1 else 0)
      else if ic.1 = Fin.last T then .fin 0
      else rows guess ic jc
    | .inr _, .inl _ => if ic.1 = Fin.last T then .fin 0 else rows guess ic jc
    | _, _ => rows guess ic jc
  (res, jac)

/-- `lower_bound[:, n_s:] = lb`, the states having the bound `inf`, perfect_foresight.py 210-213. -/
def boundRowsF (T : ℕ) (inf : XF) (b : ℕ → X → XF) : Fin (T + 1) × (S ⊕ X) → XF := fun ic =>
  match ic.2 with
  | .inl _ => inf
  | .inr k => b ic.1 k

/-- The call of `ncpsolve` in `deterministic_solve`, perfect_foresight.py 207-213 and 231-247. -/
def foresightF {n : ℕ} (T : ℕ) (order : Fin (n + 1) ≃ Fin (T + 1) × (S ⊕ X))
    (g : (E → XF) → (S → XF) → (X → XF) → (E → XF) → S → XF)
    (f : (E → XF) → (S → XF) → (X → XF) → (E → XF) → (S → XF) → (X → XF) → X → XF)
    (rows : (Fin (T + 1) × (S ⊕ X) → XF) → Fin (T + 1) × (S ⊕ X) → Fin (T + 1) × (S ⊕ X) → XF)
    (spsolve : (Fin (T + 1) × (S ⊕ X) → Fin (T + 1) × (S ⊕ X) → XF) → (Fin (T + 1) × (S ⊕ X) → XF) →
      Fin (T + 1) × (S ⊕ X) → XF)
    (start : S → XF) (shocks : ℕ → E → XF) (lb ub : ℕ → X → XF) (tol : XF) (maxit : ℕ)
    (guess : Fin (T + 1) × (S ⊕ X) → XF) : NewtonResult (Fin (T + 1) × (S ⊕ X) → XF) :=
  ncpsolveF order (detResidualF T g f rows start shocks) (boundRowsF T .ninf lb) (boundRowsF T .pinf ub) .sparse spsolve
    tol maxit guess

/-- The default guess, perfect_foresight.py 190-195 (`pfGuess`), as an array. -/
def guessF (T : ℕ) (M : PFModel ℝ S X E) (s1 : S → ℝ) : Fin (T + 1) × (S ⊕ X) → XF :=
  fun ic => .fin (pfGuess M T s1 ic.1 ic.2)

end foresight

/-! ### `dolo/algos/improved_time_iteration.py` -/

open Classical in
/-- `H, Phi_a, Phi_b` of `smooth(res, dres, jres, dx)`, `dolo/algos/improved_time_iteration.py:46-55`, for one entry. -/
def itiSmoothF (res dx : XF) : XF × XF × XF :=
  let dinf : Prop := dx.gt (.fin 100000)
  let sq := hypotF res dx
  let H := (res.add dx).sub sq
  let Phi_a := XF.sub (.fin 1) (res.div sq)
  let Phi_b := XF.sub (.fin 1) (dx.div sq)
  (if dinf then res else H, if dinf then .fin 1 else Phi_a, if dinf then .fin 0 else Phi_b)

end

end Dolo
