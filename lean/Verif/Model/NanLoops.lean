import Verif.Model.Loops
import Verif.Model.PFBounds

/-!
# The loops of the solvers on floating point arrays with infinities and `nan`

The models of `Loops.lean`, `Newton.lean` and `Egm.lean` use exact arithmetic, where every comparison is decided one
way or the other.  Here the numbers are `XF` (real numbers, the two infinities and `nan`), so that `err > tol` and
`err < tol` may both be false.  An array is a function on `Fin (n + 1)`, its entries in any order (`abs(v).max()` does not
depend on the shape; an array without entries is an error in the code and not modelled here).  The operations inside a
pass (model functions, interpolation, linear solves) are arbitrary functions on such arrays: nothing is assumed on when
they produce `nan`.  Rounding is still not modelled.
-/

namespace Dolo

noncomputable section

/-- `abs(a)`. -/
def XF.abs : XF → XF
  | .nan => .nan
  | .ninf => .pinf
  | .pinf => .pinf
  | .fin a => .fin |a|

/-- `a + b`. -/
def XF.add : XF → XF → XF
  | .nan, _ => .nan
  | _, .nan => .nan
  | .ninf, .pinf => .nan
  | .pinf, .ninf => .nan
  | .ninf, _ => .ninf
  | .pinf, _ => .pinf
  | .fin _, .ninf => .ninf
  | .fin _, .pinf => .pinf
  | .fin a, .fin b => .fin (a + b)

/-- `a < b`. -/
def XF.lt (a b : XF) : Prop := b.gt a

/-- An array of floats with at least one entry. -/
abbrev FArr (n : ℕ) := Fin (n + 1) → XF

/-- `abs(v).max()`: `np.max` propagates `nan`. -/
def absMaxF {n : ℕ} (v : FArr n) : XF := npMax (v 0).abs (List.ofFn fun i : Fin n => (v i.succ).abs)

/-- `abs(x - y).max()`. -/
def distF {n : ℕ} (x y : FArr n) : XF := absMaxF fun i => (x i).sub (y i)

/-! ### time_iteration -/

open Classical in
/-- The loop of `dolo/algos/time_iteration.py:192-230`, the first argument being `maxit - it`. -/
def tiLoopF {n : ℕ} (update : FArr n → FArr n) (tol : XF) :
    ℕ → ℕ → XF → FArr n → Option (FArr n) → ℕ × XF × Option (FArr n)
  | 0, it, err, _, last => (it, err, last)
  | k + 1, it, err, controls_0, last =>
    if err.gt tol then
      let controls := update controls_0
      tiLoopF update tol k (it + 1) (distF controls controls_0) controls (some controls)
    else (it, err, last)

open Classical in
/-- `time_iteration(..., details=True)`, lines 167-168, 192-253; `controls` is not defined when no pass was made. -/
def timeIterationF {n : ℕ} (update : FArr n → FArr n) (tol : XF) (maxit : ℕ) (x0 : FArr n) :
    Except Err (TIResult (FArr n) XF) :=
  match tiLoopF update tol maxit 0 (.fin 10) x0 none with
  | (it, err, some controls) => .ok ⟨controls, it, decide (err.lt tol), err⟩
  | (_, _, none) => .error .nameError

/-! ### newton -/

/-- What `newton` needs, with residuals that are arrays of floats. -/
structure NewtonF (n : ℕ) (X J D : Type) where
  f : X → FArr n × J
  /-- `solve(dv, v)` -/
  solve : J → FArr n → D
  /-- `x - dx * 2 ** (-bck)` -/
  trial : X → D → ℕ → X

variable {n : ℕ} {X J D : Type}

open Classical in
/-- `dolo/numeric/optimize/newton.py:137-148`. -/
def NewtonF.next (P : NewtonF n X J D) (x : X) : X :=
  let error_0 := absMaxF (P.f x).1
  let dx := P.solve (P.f x).2 (P.f x).1
  P.trial x dx (backSteps (fun b => decide ((absMaxF (P.f (P.trial x dx b)).1).lt error_0)) 29 0)

open Classical in
/-- `dolo/numeric/optimize/newton.py:113-151`; the first argument is `maxit - it`. -/
def newtonLoopF (P : NewtonF n X J D) (tol : XF) : ℕ → ℕ → X → NewtonResult X
  | 0, it, x => ⟨x, it, true⟩
  | k + 1, it, x =>
    if (absMaxF (P.f x).1).lt tol then ⟨x, it, false⟩ else newtonLoopF P tol k (it + 1) (P.next x)

/-- `dolo/numeric/optimize/newton.py:84-157`. -/
def newtonF (P : NewtonF n X J D) (tol : XF) (maxit : ℕ) (x : X) : NewtonResult X := newtonLoopF P tol maxit 0 x

/-! ### improved_time_iteration -/

open Classical in
/-- `dolo/algos/improved_time_iteration.py:363-513`; `res x` are the (smoothed) residuals at `x` and `trial x b` is
`x - tot * steps[b]`; `bsteps + 1` is `maxbsteps`. -/
def itiLoopF (res : X → FArr n) (trial : X → ℕ → X) (bsteps : ℕ) (tol : XF) :
    ℕ → ℕ → X → Option (ℕ × XF) → X × Option (ℕ × XF)
  | 0, _, x, last => (x, last)
  | k + 1, it, x, _ =>
    let err_0 := absMaxF (res x)
    let new_x := trial x (backSteps (fun b => decide ((absMaxF (res (trial x b))).lt err_0)) bsteps 0)
    if err_0.lt tol then (x, some (it, err_0))
    else itiLoopF res trial bsteps tol k (it + 1) new_x (some (it, err_0))

open Classical in
/-- `dolo/algos/improved_time_iteration.py:363-538`. -/
def improvedTimeIterationF (res : X → FArr n) (trial : X → ℕ → X) (bsteps : ℕ) (tol : XF) (maxit : ℕ) (x0 : X) :
    Except Err (ITIResult X XF) :=
  match itiLoopF res trial bsteps tol maxit 0 x0 none with
  | (x, some (it, err_0)) => .ok ⟨x, it, err_0, decide (err_0.lt tol)⟩
  | (_, none) => .error .nameError

/-! ### evaluate_policy and value_iteration -/

open Classical in
/-- `dolo/algos/value_iteration.py:325-340`, as `epLoop`. -/
def epLoopF (T : FArr n → FArr n) (tol : XF) :
    ℕ → ℕ → XF → FArr n → Option (FArr n) → EvalResult (FArr n) XF
  | 0, it, err, _, set => ⟨set, it, tol, err⟩
  | k + 1, it, err, values_0, set =>
    if err.gt tol then epLoopF T tol k (it + 1) (distF (T values_0) values_0) (T values_0) (some values_0)
    else ⟨set, it, tol, err⟩

/-- `evaluate_policy(..., details=True)`, `dolo/algos/value_iteration.py:306-364`. -/
def evaluatePolicyF (T : FArr n → FArr n) (tol : XF) (maxit : ℕ) (v0 : FArr n) (dr0 : Option (FArr n)) :
    EvalResult (FArr n) XF := epLoopF T tol maxit 0 (.fin 10) v0 dr0

/-- The variables of the loop of `value_iteration`. -/
structure ViState (n k : ℕ) where
  controls : FArr n
  values : FArr k
  err_x : XF
  err_v : XF
  it : ℕ

open Classical in
/-- `dolo/algos/value_iteration.py:114-171`; `evaluate it x v` are the values of the rule `x` (from the third pass on
computed from `v`) and `improve x v` the result of the maximisations. -/
def viLoopF {n k : ℕ} (evaluate : ℕ → FArr n → FArr k → FArr k) (improve : FArr n → FArr k → FArr n × FArr k)
    (tol tol_x : XF) : ℕ → ViState n k → ViState n k
  | 0, st => st
  | r + 1, st =>
    if st.err_v.gt tol ∨ st.err_x.gt tol_x then
      let values_0 := evaluate (st.it + 1) st.controls st.values
      let new := improve st.controls values_0
      viLoopF evaluate improve tol tol_x r
        ⟨new.1, new.2, distF new.1 st.controls, distF new.2 values_0, st.it + 1⟩
    else st

open Classical in
/-- `value_iteration(..., details=True)`, `dolo/algos/value_iteration.py:92-206`, with `tol_x = 1e-5` and `tol_v = 1e-7`
(lines 100-101); `controls` is not defined when no pass was made. -/
def valueIterationF {n k : ℕ} (evaluate : ℕ → FArr n → FArr k → FArr k)
    (improve : FArr n → FArr k → FArr n × FArr k) (tol : XF) (maxit : ℕ) (x0 : FArr n) (v0 : FArr k) :
    Except Err (VIResult (FArr n) (FArr k) XF) :=
  let tol_x := XF.fin (1 / 10 ^ 5)
  let tol_v := XF.fin (1 / 10 ^ 7)
  let st := viLoopF evaluate improve tol tol_x maxit ⟨x0, v0, .fin 100, .fin 100, 0⟩
  if st.it = 0 then .error .nameError
  else .ok ⟨st.controls, st.values, st.it, decide (st.err_x.lt tol_x), tol_x, st.err_x,
    decide (st.err_v.lt tol_v), tol_v, st.err_v⟩

/-! ### egm -/

/-- What the loop of `egm` leaves behind: the last number, `η`, and the arrays `xa0`, `sa0` used by `drfut`. -/
structure EgmOutF (n : ℕ) where
  it : ℕ
  η : XF
  xa0 : FArr n
  sa0 : FArr n

open Classical in
/-- `dolo/algos/egm.py:84-127`; `step it xa0 sa0` is the pair `xa`, `sa` of lines 86-114. -/
def egmLoopF (step : ℕ → FArr n → FArr n → FArr n × FArr n) (tol : XF) :
    ℕ → ℕ → FArr n → FArr n → Option XF → Except Err (EgmOutF n)
  | 0, it, xa0, sa0, prev =>
    match prev with
    | none => .error .nameError
    | some η => .ok ⟨it - 1, η, xa0, sa0⟩
  | r + 1, it, xa0, sa0, _ =>
    let new := step it xa0 sa0
    let η := if it > 1 then (distF new.1 xa0).add (distF new.2 sa0) else .fin 1
    if η.lt tol then .ok ⟨it, η, xa0, sa0⟩
    else egmLoopF step tol r (it + 1) new.1 new.2 (some η)

open Classical in
/-- `dolo/algos/egm.py:71-140`: the iteration number, `a_converged`, and the arrays behind the rule returned. -/
def egmF (step : ℕ → FArr n → FArr n → FArr n × FArr n) (tol : XF) (maxit : ℕ) :
    Except Err (EgmOutF n × Bool) := do
  let o ← egmLoopF step tol maxit 0 (fun _ => .fin 0) (fun _ => .fin 0) none
  pure (o, decide (o.η.lt tol))

end

end Dolo
