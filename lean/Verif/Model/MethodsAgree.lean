import Verif.Model.TimeIteration
import Verif.Model.Perturbation

/-!
# Passing a perturbation solution to time_iteration

Models what `time_iteration` (`dolo/algos/time_iteration.py:123-136`) gets from a rule returned by `perturb`
(`dolo/algos/perturbation.py:65-109`, called through `dolo/numeric/decision_rule.py:54-77`), and the interface of a
discretized iid process (`dolo/numeric/processes.py:206-231`).
-/

namespace Dolo

variable {K : Type} [Field K] [LinearOrder K]

/-- The first `n` entries of an array. -/
def headVec (n : ℕ) (v : ℕ → K) : Fin n → K := fun i => v i

/-- What `dr0(i_m, s)` and `dr0(m, s)` return for a rule of `perturb`, `s` being an array of `N` states.
With an integer, `CallableDecisionRule.__call__` looks for `eval_is` (`dolo/numeric/decision_rule.py:62-69`), which
`BivariateTaylor` does not have; with a vector `m` it calls `eval_ms(m[None, :], s)` (lines 70-77). -/
def BiTaylor.asGuess {nm ns nx : ℕ} (t : BiTaylor nm ns nx K) (N : ℕ) (s : ℕ → ℕ → K) : GuessRule K where
  byIndex := fun _ => .error .attributeError
  byValue := fun m => do
    match ← t.evalMS (.rows [headVec nm m]) (.rows ((List.range N).map fun n => headVec ns (s n))) with
    | .rows l => .ok fun n k => if h : k < nx then (l[n]?).elim 0 (fun r => r ⟨k, h⟩) else 0
    | _ => .error .valueError

/-- `DiscretizedIIDProcess`, `dolo/numeric/processes.py:206-231`, with `n` points `x` and weights `w`: one node, whose
value is zero whatever the mean of the distribution. -/
def iidDProc (n : ℕ) (w : ℕ → K) (x : ℕ → ℕ → K) : DProc K where
  nNodes := 1
  nInodes := fun _ => n
  node := fun _ _ => 0
  inode := fun _ j => x j
  iweight := fun _ j => w j

end Dolo
