import Mathlib.Analysis.SpecialFunctions.Sqrt
import Mathlib.Analysis.SpecialFunctions.Exp
import Mathlib.Analysis.Real.Pi.Bounds
import Verif.Model.Distribution

/-!
# Expectations under a normal distribution

Models `UNormal.integrate` and the parameters of `UNormal.draw`, `dolo/numeric/distribution.py`.
-/

namespace Dolo

/-- The function that `UNormal.integrate` hands to the integration routine, lines 436-441. -/
noncomputable def unormalIntegrand (mu sigma : ℝ) (f : ℝ → ℝ) (x : ℝ) : ℝ :=
  f x / sigma / Real.sqrt (2 * Real.pi) * Real.exp (-1 / 2 * ((x - mu) / sigma) ^ 2)

/-- `UNormal.integrate(fun)`, lines 430-444.  `quad` is `scipy.integrate.quad(f, -np.Inf, np.Inf)[0]`;
dividing by a zero `σ` raises `ZeroDivisionError`. -/
noncomputable def unormalIntegrate (quad : (ℝ → ℝ) → ℝ) (mu sigma : ℝ) (f : ℝ → ℝ) : Except Err ℝ :=
  if sigma = 0 then .error .zeroDivision else .ok (quad (unormalIntegrand mu sigma f))

/-- Mean and covariance that `UNormal.draw`, lines 421-428, hands to
`numpy.random.multivariate_normal`. -/
def unormalDrawParams {K : Type} [Field K] (mu sigma : K) : List K × List (List K) :=
  ([mu], [[sigma ^ 2]])

end Dolo
