import Mathlib.Algebra.Field.Defs
import Mathlib.Algebra.Group.Pi.Basic

/-!
# Model of `dolo/algos/steady_state.py`

Vectors are functions on the variables of each group (`E` exogenous, `S` states, `X` controls, `P`
parameters); the concatenation of states and controls is a function on `S ⊕ X`.
`scipy.optimize.root` is a parameter: from a function and an initial value it returns a vector and whether
it succeeded.  Arithmetic is exact.
-/

namespace Dolo

variable {K : Type} [Field K] {E S X P : Type}

/-- The groups of a calibration that these functions read and write. -/
structure SSCalib (K E S X P : Type) where
  exogenous : E → K
  states : S → K
  controls : X → K
  parameters : P → K

/-- The model: its functions, and its calibration. -/
structure SSModel (K E S X P : Type) where
  /-- `g(m, s, x, M, p)` -/
  transition : (E → K) → (S → K) → (X → K) → (E → K) → (P → K) → S → K
  /-- `f(m, s, x, M, S, X, p)` -/
  arbitrage : (E → K) → (S → K) → (X → K) → (E → K) → (S → K) → (X → K) → (P → K) → X → K
  calibration : SSCalib K E S X P

/-- steady_state.py 8-25 `residuals(model, calib)`: the entries `"transition"` and `"arbitrage"`. -/
def ssResiduals (M : SSModel K E S X P) (calib : Option (SSCalib K E S X P)) : (S → K) × (X → K) :=
  let calib := calib.getD M.calibration
  let m := calib.exogenous
  let s := calib.states
  let x := calib.controls
  let p := calib.parameters
  (M.transition m s x m p - s, M.arbitrage m s x m s x p)

/-- Lines 37-42 `fobj`. -/
def ssObjective (M : SSModel K E S X P) (m : E → K) (p : P → K) (v : S ⊕ X → K) : S ⊕ X → K :=
  let res := ssResiduals M (some ⟨m, fun i => v (.inl i), fun i => v (.inr i), p⟩)
  Sum.elim res.1 res.2

/-- steady_state.py 28-52 `find_steady_state(model, m=m)`.  `sol.success` is not read. -/
def findSteadyState (root : ((S ⊕ X → K) → S ⊕ X → K) → (S ⊕ X → K) → (S ⊕ X → K) × Bool)
    (M : SSModel K E S X P) (m : Option (E → K)) : SSCalib K E S X P :=
  let m := m.getD M.calibration.exogenous
  let p := M.calibration.parameters
  let x0 := Sum.elim M.calibration.states M.calibration.controls
  let sol := root (ssObjective M m p) x0
  let res := sol.1
  ⟨m, fun i => res (.inl i), fun i => res (.inr i), p⟩

end Dolo
