import Verif.Model.Perturbation

/-!
# Model of `second_order_solver`, `dolo/numeric/matrix_equations.py:9-58`

`qzordered` (`dolo/numeric/extern/qz.py:8-20`) is called with its default criterion; `ordqz` with
`output="real"` and `numpy.linalg.solve` are parameters.  Arithmetic is exact and real, so that the test of
line 55 always succeeds.
-/

namespace Dolo

open Matrix

variable {K : Type} [Field K] [LinearOrder K]

/-- `Delta_mat`, lines 38-41. -/
def deltaMat {n : ℕ} (F : Matrix (Fin n) (Fin n) K) : Matrix (Fin n ⊕ Fin n) (Fin n ⊕ Fin n) K :=
  fromBlocks F 0 0 1

/-- `Xi_mat`, lines 29-36. -/
def xiMat {n : ℕ} (G H : Matrix (Fin n) (Fin n) K) : Matrix (Fin n ⊕ Fin n) (Fin n ⊕ Fin n) K :=
  fromBlocks (-G) (-H) 1 0

/-- `second_order_solver(FF, GG, HH, eigmax)`.  The argument `eigmax` is not used. -/
def secondOrderSolver (solve : MatSolver K) {n : ℕ}
    (qz : Matrix (Fin n ⊕ Fin n) (Fin n ⊕ Fin n) K → Matrix (Fin n ⊕ Fin n) (Fin n ⊕ Fin n) K → K →
      QZ (Fin n ⊕ Fin n) K)
    (F G H : Matrix (Fin n) (Fin n) K) (_eigmax : K) :
    Except Err (List (WithTop K) × Matrix (Fin n) (Fin n) K) := do
  let d := qz (deltaMat F) (xiMat G H) 1
  let VVVH := d.Zᵀ
  let X ← solve n n VVVH.toBlocks₂₁ VVVH.toBlocks₂₂
  pure (eigList d, -X)

end Dolo
