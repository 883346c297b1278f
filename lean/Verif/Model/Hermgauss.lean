import Mathlib.Algebra.Order.Field.Basic
import Mathlib.Algebra.Order.Group.Abs
import Verif.Model.Err

/-!
# Model of `hermgauss`, `dolo/numeric/discretization/quadrature.py:10-54`

Arithmetic is exact.  The square root and the constant `1 / pi**0.25` are parameters, as are the two
fractional powers used in the starting values, `s6 = (2 n + 1) ** (-1/6)` and `c1 = n ** 0.426`.
-/

namespace Dolo

variable {K : Type} [Field K] [LinearOrder K]

/-- The numbers `hermgauss` takes from the numerical library. -/
structure HermEnv (K : Type) where
  sqrt : K → K
  pim4 : K
  /-- the threshold of line 45, `1e-14` -/
  tol : K

/-- quadrature.py 36-41: `(p1, p2)` after `j` turns of the recurrence at the point `z`. -/
def hermP (E : HermEnv K) (z : K) : ℕ → K × K
  | 0 => (E.pim4, 0)
  | j + 1 =>
    let p := hermP E z j
    (z * E.sqrt (2 / ((j : K) + 1)) * p.1 - E.sqrt ((j : K) / ((j : K) + 1)) * p.2, p.1)

/-- quadrature.py 33-48: the iterations for one root, from `z`; the first argument is the number of
iterations left.  Returns `z` and `pp`.  Division by `pp = 0` gives infinities and then `nan`, with
which the test of line 45 never succeeds, so that line 48 raises; it also raises if the test succeeds
at the last iteration. -/
def hermNewton (E : HermEnv K) (n : ℕ) : ℕ → K → Except Err (K × K)
  | 0, _ => .error (.exception "Failure to converge")
  | k + 1, z =>
    let p := hermP E z n
    let pp := E.sqrt (2 * (n : K)) * p.2
    if pp = 0 then .error (.exception "Failure to converge")
    else
      let z' := z - p.1 / pp
      if |z' - z| < E.tol then
        if k = 0 then .error (.exception "Failure to converge") else .ok (z', pp)
      else hermNewton E n k z'

/-- quadrature.py 22-31: starting value for the root number `i`; `z` is the previous root and `x` the
array of nodes found so far.  (Line 25 divides by `z`: zero gives an infinity, from which the
iterations fail.) -/
def hermStart (E : HermEnv K) (s6 c1 : K) (n i : ℕ) (z : K) (x : ℕ → K) : Except Err K :=
  match i with
  | 0 => .ok (E.sqrt (2 * (n : K) + 1) - 185575 / 100000 * s6)
  | 1 => if z = 0 then .error (.exception "Failure to converge")
    else .ok (z - 114 / 100 * c1 / z)
  | 2 => .ok (186 / 100 * z + 86 / 100 * x 0)
  | 3 => .ok (191 / 100 * z + 91 / 100 * x 1)
  | i + 4 => .ok (2 * z + x (i + 2))

/-- `x[i] = v`. -/
def setAt (x : ℕ → K) (i : ℕ) (v : K) : ℕ → K := fun j => if j = i then v else x j

/-- quadrature.py 21-52: the loop over the roots, for the `i` of the list. -/
def hermLoop (E : HermEnv K) (s6 c1 : K) (n : ℕ) :
    List ℕ → K → (ℕ → K) → (ℕ → K) → Except Err ((ℕ → K) × (ℕ → K))
  | [], _, x, w => .ok (x, w)
  | i :: is, z, x, w => do
    let z0 ← hermStart E s6 c1 n i z x
    let r ← hermNewton E n 100 z0
    let x := setAt x (n - i - 1) r.1
    let x := setAt x i (-r.1)
    let w := setAt w i (2 / r.2 ^ 2)
    let w := setAt w (n - i - 1) (w i)
    hermLoop E s6 c1 n is r.1 x w

/-- quadrature.py 10-54 `hermgauss(n)`: nodes and weights. -/
def hermgauss (E : HermEnv K) (s6 c1 : K) (n : ℕ) : Except Err (List K × List K) := do
  let r ← hermLoop E s6 c1 n (List.range ((n + 1) / 2)) 0 (fun _ => 0) (fun _ => 0)
  pure ((List.range n).map r.1, (List.range n).map r.2)

end Dolo
