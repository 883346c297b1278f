import Mathlib.Analysis.Complex.Basic
import Verif.Model.Perturbation

/-!
# The order of generalised eigenvalues in `qzordered` (`dolo/numeric/extern/qz.py`)

`scipy.linalg.ordqz(A, B, output="real", sort=select)` passes the array `alpha = alphar + alphai * 1j`, which is complex
whatever the eigenvalues, and the real array `beta >= 0` to `select`.  Equal indices are one eigenvalue `alpha / beta`.
-/

namespace Dolo

/-- `a > b` for complex numbers in `numpy`: real parts first, then imaginary parts. -/
def npComplexGt (a b : ℂ) : Prop := b.re < a.re ∨ (b.re = a.re ∧ b.im < a.im)

/-- `select(alpha, beta)`, `dolo/numeric/extern/qz.py:13-14`: `alpha**2 > crit * beta**2`. -/
def qzSelect (crit : ℝ) (alpha : ℂ) (beta : ℝ) : Prop := npComplexGt (alpha ^ 2) ((crit * beta ^ 2 : ℝ) : ℂ)

/-- The eigenvalue `(alpha, beta)` is moved to the top-left: LAPACK's `tgsen` moves a pair of complex eigenvalues when one
of the two is selected. -/
def qzMoved (crit : ℝ) (alpha : ℂ) (beta : ℝ) : Prop :=
  qzSelect crit alpha beta ∨ qzSelect crit (star alpha) beta

/-- The place of an index: states first. -/
def place {ns nx : ℕ} : Fin ns ⊕ Fin nx → ℕ
  | .inl i => i
  | .inr j => ns + j

end Dolo
