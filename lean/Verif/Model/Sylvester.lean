import Mathlib.Algebra.Field.Defs
import Mathlib.Data.Nat.Basic
import Mathlib.Data.List.Basic

/-!
# Sylvester equations

Models `solve_sylvester_vectorized` and the default branch (`method="linear"`) of `solve_sylvester` in
`dolo/numeric/matrix_equations.py`.  A matrix is a function `ℕ → ℕ → K` whose shape is given apart; entries
outside the shape are not read.  `numpy.linalg.solve` is a parameter.  Not modelled: the branch calling
`slycot`.
-/

namespace Dolo

variable {K : Type} [Field K]

/-- `M.ravel()` for a matrix with `q` columns (row-major), `matrix_equations.py:65`. -/
def ravel (q : ℕ) (M : ℕ → ℕ → K) : ℕ → K := fun k => M (k / q) (k % q)

/-- `x.reshape((n, q))`, line 71. -/
def reshape (q : ℕ) (x : ℕ → K) : ℕ → ℕ → K := fun i j => x (i * q + j)

/-- `numpy.kron(A, B)` where `B` is `p × q`. -/
def kron (p q : ℕ) (A B : ℕ → ℕ → K) : ℕ → ℕ → K := fun i j => A (i / p) (j / q) * B (i % p) (j % q)

/-- `M.T`. -/
def transp (M : ℕ → ℕ → K) : ℕ → ℕ → K := fun i j => M j i

/-- `numpy.linalg.solve(L, b)` for a system of the given size. -/
abbrev LinSolver (K : Type) := ℕ → (ℕ → ℕ → K) → (ℕ → K) → ℕ → K

/-- `solve_sylvester_vectorized((A1, B1), ..., D)`, `dolo/numeric/matrix_equations.py:61-71`.  The `A` are
`n × n`, the `B` are `q × q`, `D` is `n × q`. -/
def sylvesterVectorized (solve : LinSolver K) (n q : ℕ) (args : List ((ℕ → ℕ → K) × (ℕ → ℕ → K)))
    (D : ℕ → ℕ → K) : ℕ → ℕ → K :=
  let k := ravel q D
  let l : ℕ → ℕ → K := fun i j => (args.map fun (A, B) => kron q q A (transp B) i j).sum
  let x := solve (n * q) l (fun i => - k i)
  reshape q x

/-- `CC`, lines 93-98: `C` for one dimension, else `kron(C, C)` multiplied `n_d - 2` more times. -/
def kronPower (v : ℕ) (C : ℕ → ℕ → K) (nd : ℕ) : ℕ → ℕ → K :=
  let CC := if nd = 1 then C else kron v v C C
  (List.range (nd - 2)).foldl (fun CC _ => kron v v CC C) CC

/-- `solve_sylvester(A, B, C, D)`, lines 74-102 and 120-122.  `D` has shape `(nc, v, ..., v)` with `nd`
trailing dimensions; it is given as the matrix `D.reshape(nc, v**nd)`, and so is the result. -/
def solveSylvester (solve : LinSolver K) (nc v nd : ℕ) (A B C : ℕ → ℕ → K) (D : ℕ → ℕ → K) : ℕ → ℕ → K :=
  let CC := kronPower v C nd
  sylvesterVectorized solve nc (v ^ nd) [(A, fun i j => if i = j then 1 else 0), (B, CC)] D

end Dolo
