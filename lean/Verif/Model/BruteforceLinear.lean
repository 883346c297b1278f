import Verif.Model.Perturbation

/-!
# The linear solvers of `dolo/algos/bruteforce_lib.py` 518-668

`classical_perturbation`, `simple_max`, `newtonator` and `spectral_radius`.

All three solvers read global names that the module neither defines nor imports.  The model has these
names as the parameter `Names`; `moduleNames` is the module as it stands.  Under `nopython` compilation of
`newtonator` an unknown global is an error of the call too; it is modelled as `NameError`.

Matrices are Mathlib matrices, arithmetic is exact, `numpy.linalg.inv` and the random matrix of
`spectral_radius` are parameters.
-/

namespace Dolo

open Matrix

variable {K : Type} [Field K] [LinearOrder K]

/-- Which of the missing global names are defined. -/
structure BfNames where
  /-- `n_x` and `n_s`, the numbers of controls and states. -/
  sizes : Bool
  /-- `row_stack`, `column_stack` and `eye`. -/
  stacking : Bool

/-- bruteforce_lib.py 1-21, 287-299, 513-515: what the module imports. -/
def moduleNames : BfNames := ⟨false, false⟩

/-- `numpy.linalg.inv`. -/
abbrev MatInv (K : Type) := ∀ n : ℕ, Matrix (Fin n) (Fin n) K → Except Err (Matrix (Fin n) (Fin n) K)

/-- bruteforce_lib.py 553-561 `simple_max(T)`. -/
def simpleMax {p q : ℕ} (T : Matrix (Fin p) (Fin q) K) : K :=
  (List.finRange p).foldl (fun mm i => (List.finRange q).foldl (fun mm j =>
    if mm < |T i j| then |T i j| else mm) mm) 0

/-- `abs(res).max()`: `ValueError` for an array without entries. -/
def absMaxE {p q : ℕ} (T : Matrix (Fin p) (Fin q) K) : Except Err K :=
  if p = 0 ∨ q = 0 then .error .valueError else .ok (simpleMax T)

section
variable {ns nx : ℕ} (g_s : Matrix (Fin ns) (Fin ns) K) (g_x : Matrix (Fin ns) (Fin nx) K)
  (f_s : Matrix (Fin nx) (Fin ns) K) (f_x : Matrix (Fin nx) (Fin nx) K)
  (f_S : Matrix (Fin nx) (Fin ns) K) (f_X : Matrix (Fin nx) (Fin nx) K)

/-- bruteforce_lib.py 583-585 and 611: the residual, with `Y = X`. -/
def newtonatorRes (X : Matrix (Fin nx) (Fin ns) K) : Matrix (Fin nx) (Fin ns) K :=
  let K1 := f_s + f_S * g_s
  let K2 := f_x + f_S * g_x
  K1 + K2 * X + f_X * X * g_s + f_X * X * g_x * X

/-- bruteforce_lib.py 600-607: the inner loop. -/
def newtonatorInner (M : Matrix (Fin nx) (Fin nx) K) (C : Matrix (Fin ns) (Fin ns) K) (inner_tol : K) :
    ℕ → Matrix (Fin nx) (Fin ns) K → Matrix (Fin nx) (Fin ns) K → Matrix (Fin nx) (Fin ns) K
  | 0, _, direction => direction
  | n + 1, ddx, direction =>
    let ddx' := M * ddx * C
    let direction' := direction + ddx'
    if simpleMax ddx' < inner_tol then direction' else newtonatorInner M C inner_tol n ddx' direction'

/-- bruteforce_lib.py 591-610: the new `X`. -/
def newtonatorStep (inv : MatInv K) (X res : Matrix (Fin nx) (Fin ns) K) :
    Except Err (Matrix (Fin nx) (Fin ns) K) :=
  let K2 := f_x + f_S * g_x
  let A := K2 + f_X * X * g_x
  let B := f_X
  (inv nx A) >>= fun Ainv =>
    let C := g_s + g_x * X
    let M := -Ainv * B
    let ddx := Ainv * res
    .ok (X - newtonatorInner M C (1 / 10 ^ 12) 1000 ddx ddx)

/-- bruteforce_lib.py 587-612: the loop with `n` iterations left before `maxit`. -/
def newtonatorLoop (inv : MatInv K) :
    ℕ → K → Matrix (Fin nx) (Fin ns) K → Matrix (Fin nx) (Fin ns) K →
      Except Err (Matrix (Fin nx) (Fin ns) K)
  | 0, _, X, _ => .ok X
  | n + 1, err, X, res =>
    if 1 / 10 ^ 14 < err then
      (newtonatorStep g_s g_x f_x f_S f_X inv X res) >>= fun X' =>
        let res' := newtonatorRes g_s g_x f_s f_x f_S f_X X'
        (absMaxE res') >>= fun err' => newtonatorLoop inv n err' X' res'
    else .ok X

/-- bruteforce_lib.py 565-625 `newtonator(g_s, g_x, f_s, f_x, f_S, f_X)`; line 573 reads `n_x, n_s`. -/
def newtonator (names : BfNames) (inv : MatInv K) : Except Err (Matrix (Fin nx) (Fin ns) K) :=
  if names.sizes then
    newtonatorLoop g_s g_x f_s f_x f_S f_X inv 1000 1 0 (newtonatorRes g_s g_x f_s f_x f_S f_X 0)
  else .error .nameError

/-- `ddx.max()`. -/
def arrMaxE (T : Matrix (Fin nx) (Fin ns) K) : Except Err K :=
  pyMax ((List.finRange nx).flatMap fun i => (List.finRange ns).map fun j => T i j)

/-- bruteforce_lib.py 661-663: the list `errors`, `abs(ddx.max())` of `n` successive terms. -/
def radiusErrors (M : Matrix (Fin nx) (Fin nx) K) (C : Matrix (Fin ns) (Fin ns) K) :
    ℕ → Matrix (Fin nx) (Fin ns) K → Except Err (List K)
  | 0, _ => .ok []
  | n + 1, ddx =>
    let ddx' := M * ddx * C
    (arrMaxE ddx') >>= fun m => (radiusErrors M C n ddx') >>= fun es => .ok (|m| :: es)

/-- bruteforce_lib.py 628-668 `spectral_radius(g_s, g_x, f_s, f_x, f_S, f_X, X)`; `res` is the random
matrix of line 649.  Line 639 reads `n_x` even if `X` is given.  A vanishing denominator of line 667, which
numpy turns into an infinity or a `nan`, is `zeroDivision`. -/
def spectralRadiusBf (names : BfNames) (inv : MatInv K) (res : Matrix (Fin nx) (Fin ns) K)
    (X : Option (Matrix (Fin nx) (Fin ns) K)) : Except Err K :=
  if names.sizes then
    let X := X.getD 0
    let K2 := f_x + f_S * g_x
    let A := K2 + f_X * X * g_x
    (inv nx A) >>= fun Ainv =>
      let C := g_s + g_x * X
      let M := -Ainv * f_X
      (radiusErrors M C 1000 (Ainv * res)) >>= fun errors =>
        (pyGet errors 998) >>= fun e => (pyGet errors 999) >>= fun e' =>
          if e = 0 then .error .zeroDivision else .ok (e' / e)
  else .error .nameError

/-- bruteforce_lib.py 518-549 `classical_perturbation(g_s, g_x, f_s, f_x, f_S, f_X)`; line 523 reads
`row_stack`, `column_stack` and `eye`.  `qz A B crit` is `qzordered`. -/
def classicalPerturbation (names : BfNames) (solve : MatSolver K)
    (qz : Matrix (Fin ns ⊕ Fin nx) (Fin ns ⊕ Fin nx) K → Matrix (Fin ns ⊕ Fin nx) (Fin ns ⊕ Fin nx) K → K →
      QZ (Fin ns ⊕ Fin nx) K) :
    Except Err (Matrix (Fin nx) (Fin ns) K × List (WithTop K)) :=
  if names.stacking then
    let d := qz (pencilA f_S f_X) (pencilB g_s g_x f_s f_x) (1 - 1 / 10 ^ 8)
    (ruleFromQZ solve d) >>= fun C => .ok (C, eigList d)
  else .error .nameError

end

end Dolo
