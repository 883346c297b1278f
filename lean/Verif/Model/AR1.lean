import Verif.Model.Rouwenhorst
import Verif.Model.Simulation

/-!
# One-dimensional autoregressions

Models the class `AR1`, `dolo/numeric/processes.py:370-493`.  The parameters `ρ, σ, μ` are numbers.
-/

namespace Dolo

variable {K : Type} [Field K]

/-- `AR1.discretize_mc(N)`, lines 391-412.  `mdisc r Sigma` is
`multidimensional_discretization(r, Sigma, N=N)`; the covariance matrix handed over is `[[σ]]`
(line 394). -/
def ar1DiscretizeMc [LinearOrder K] [IsStrictOrderedRing K]
    (mdisc : K → (Fin 1 → Fin 1 → K) → Except Err (List (List K) × List (List K)))
    (rho sigma mu : K) : Except Err (MChain K) := do
  let r ← var1ScalarCheck (d := 0) fun _ _ => rho
  let (P, Q) ← mdisc r fun _ _ => sigma
  pure ⟨Q, P.map fun row => List.zipWith (· + ·) row [mu]⟩

/-- `AR1.discretize_gdp(N)`, lines 414-431: `ρ` is a number and has no `shape`; the bare `except`
turns the `AttributeError` into this exception. -/
def ar1DiscretizeGdp (_rho _sigma _mu : K) : Except Err (MChain K) :=
  .error (.exception "Not implemented.")

/-- `AR1.discretize(N, to)`, lines 385-389: any other value of `to` returns `None`. -/
def ar1Discretize [LinearOrder K] [IsStrictOrderedRing K]
    (mdisc : K → (Fin 1 → Fin 1 → K) → Except Err (List (List K) × List (List K)))
    (rho sigma mu : K) (dst : String) : Except Err (Option (MChain K)) :=
  if dst = "mc" then some <$> ar1DiscretizeMc mdisc rho sigma mu
  else if dst = "gdp" then some <$> ar1DiscretizeGdp rho sigma mu
  else .ok none

/-- `AR1.simulate(N, T, m0, stochastic)`, lines 456-480, for one path.  Line 470 indexes a vector of
length one at position one; line 473 needs a first date; line 477 refers to `μ`, which is not defined
(the local name is `mu`). -/
def ar1SimulatePath (_rho _sigma _mu : K) (T : ℕ) (_m0 : Option K) (stochastic : Bool) :
    Except Err (List K) :=
  if !stochastic then .error .indexError
  else if T = 0 then .error .indexError
  else .error .nameError

/-- `AR1.response(T, impulse)`, lines 482-493: `irf[0, :]` needs a first date; `rho @ irf[t - 1, :]`
with a number `rho` raises `ValueError`; without a second date, `μ[None, :]` raises `TypeError`. -/
def ar1Response (_rho _mu : K) (T : ℕ) (_impulse : K) : Except Err (List K) :=
  if T = 0 then .error .indexError
  else if T = 1 then .error .typeError
  else .error .valueError

end Dolo
