import Mathlib.Data.Rat.Defs
import Mathlib.Tactic.Linarith
import Mathlib.Tactic.NormNum
import Verif.Model.SteadyState
import Verif.Props.PerfectForesight

/-!
# C102: steady states
-/

set_option linter.unusedSectionVars false

namespace Dolo

variable {K : Type} [Field K] {E S X P : Type}

/-- The path that stays at `(s, x)` while the exogenous variables stay at `m` is an equilibrium path, over
any horizon. -/
def Stationary (M : SSModel K E S X P) (c : SSCalib K E S X P) : Prop :=
  ∀ N, 2 ≤ N → IsPFPath (fun m s x M' => M.transition m s x M' c.parameters)
    (fun m s x M' s' x' => M.arbitrage m s x M' s' x' c.parameters) N c.states
    (fun _ => c.exogenous) (fun _ => c.states) (fun _ => c.controls)

/-- **C102, residuals.**  The residuals of a calibration are zero exactly when staying there for ever
satisfies the transition and arbitrage equations at all dates. -/
theorem C102_residuals (M : SSModel K E S X P) (c : SSCalib K E S X P) :
    ssResiduals M (some c) = (0, 0) ↔ Stationary M c := by
  constructor
  · intro h N hN
    simp only [ssResiduals, Option.getD_some, Prod.mk.injEq, sub_eq_zero] at h
    exact ⟨rfl, fun t _ => h.1.symm, fun t _ => h.2, rfl⟩
  · intro h
    have h2 := h 2 le_rfl
    have e1 := h2.transition 0 (by norm_num)
    have e2 := h2.arbitrage 0 (by norm_num)
    simp only [ssResiduals, Option.getD_some, Prod.mk.injEq, sub_eq_zero]
    exact ⟨e1.symm, e2⟩

/-- **C102, default calibration.**  Without argument, the residuals are those of the calibration of the
model. -/
theorem C102_residuals_default (M : SSModel K E S X P) :
    ssResiduals M none = (0, 0) ↔ Stationary M M.calibration := C102_residuals M M.calibration

/-- **C102, result** (partial: provided the solver did find a zero, which the code does not check).  The
calibration returned by `find_steady_state` is stationary, for the exogenous values given (or those of the
calibration) and the parameters of the model. -/
theorem C102_found_partial
    (root : ((S ⊕ X → K) → S ⊕ X → K) → (S ⊕ X → K) → (S ⊕ X → K) × Bool)
    (M : SSModel K E S X P) (m : Option (E → K))
    (hroot : ∀ F x0, (root F x0).2 = true → F (root F x0).1 = 0)
    (hok : (root (ssObjective M (m.getD M.calibration.exogenous) M.calibration.parameters)
      (Sum.elim M.calibration.states M.calibration.controls)).2 = true) :
    Stationary M (findSteadyState root M m) ∧
    (findSteadyState root M m).exogenous = m.getD M.calibration.exogenous ∧
    (findSteadyState root M m).parameters = M.calibration.parameters := by
  refine ⟨?_, rfl, rfl⟩
  rw [← C102_residuals]
  have h := hroot _ _ hok
  rw [Prod.ext_iff]
  constructor
  · funext i
    exact congrFun h (.inl i)
  · funext i
    exact congrFun h (.inr i)

/-- **C102 fails**: the status of the solver is not read, so that a calibration is returned also when there
is no steady state.  With `s' = s + 1`, whatever solver is used, what is returned is not stationary. -/
theorem C102_unchecked_fails : ∃ M : SSModel ℚ Unit Unit Unit Unit, ∀ root m,
    ¬ Stationary M (findSteadyState root M m) := by
  refine ⟨⟨fun _ s _ _ _ i => s i + 1, fun _ _ x _ _ _ _ => x, ⟨0, 0, 0, 0⟩⟩, ?_⟩
  intro root m h
  rw [← C102_residuals] at h
  have := congrFun (congrArg Prod.fst h) ()
  simp [ssResiduals] at this

/-- Non-vacuity of `C102_found_partial`: `s' = s / 2 + x + m`, `x = 0`, with a solver for this model. -/
example : ∃ (M : SSModel ℚ Unit Unit Unit Unit) (root : _),
    (∀ F x0, (root F x0).2 = true → F (root F x0).1 = 0) ∧
    (root (ssObjective M (fun _ => 3) M.calibration.parameters)
      (Sum.elim M.calibration.states M.calibration.controls)).2 = true ∧
    (findSteadyState root M (some fun _ => 3)).states () = 6 := by
  classical
  let M : SSModel ℚ Unit Unit Unit Unit :=
    ⟨fun _ s x m _ i => s i / 2 + x i + m i, fun _ _ x _ _ _ _ => x, ⟨0, 0, 0, 0⟩⟩
  let sol : Unit ⊕ Unit → ℚ := Sum.elim (fun _ => 6) (fun _ => 0)
  let root : ((Unit ⊕ Unit → ℚ) → Unit ⊕ Unit → ℚ) → (Unit ⊕ Unit → ℚ) → (Unit ⊕ Unit → ℚ) × Bool :=
    fun F _ => (sol, decide (F sol = 0))
  refine ⟨M, root, ?_, ?_, rfl⟩
  · intro F x0 h
    exact of_decide_eq_true h
  · apply decide_eq_true
    funext i
    cases i with
    | inl i => simp [ssObjective, ssResiduals, M, sol]; norm_num
    | inr i => simp [ssObjective, ssResiduals, M, sol]

end Dolo
