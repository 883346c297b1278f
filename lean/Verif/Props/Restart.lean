import Verif.Props.Newton
import Verif.Props.Loops

/-!
# C130: starting again from a solution

A solver started from a solution it reported as converged stops at once and returns it.  The theorems are about the
tables of values on the grid; that a rule evaluated on its grid returns the table it was set to is C79.
-/

set_option linter.unusedSectionVars false

namespace Dolo

variable {K X V J D : Type} [Field K] [LinearOrder K] [IsStrictOrderedRing K]

/-- **C130, `newton`.**  Started again, with any budget of at least one step and any tolerance which is not smaller,
from a point it returned without warning, `newton` returns this point after no step. -/
theorem C130_newton (P : NewtonProblem K X V J D) (tol tol' : K) (ht : tol ≤ tol') (maxit maxit' : ℕ)
    (hm : 1 ≤ maxit') (x : X) (hw : (newton P tol maxit x).warned = false) :
    newton P tol' maxit' (newton P tol maxit x).x = ⟨(newton P tol maxit x).x, 0, false⟩ := by
  have key : ∀ (k it : ℕ) (y : X), (newtonLoop P tol k it y).warned = false →
      P.norm (P.f (newtonLoop P tol k it y).x).1 < tol := by
    intro k
    induction k with
    | zero => intro it y h; simp [newtonLoop] at h
    | succ k ih =>
      intro it y h
      by_cases he : P.norm (P.f y).1 < tol
      · simp only [newtonLoop, he, if_true]
      · simp only [newtonLoop, he, if_false] at h ⊢
        exact ih _ _ h
  have h := lt_of_lt_of_le (key maxit 0 x hw) ht
  obtain ⟨k, rfl⟩ : ∃ k, maxit' = k + 1 := ⟨maxit' - 1, by omega⟩
  unfold newton at h ⊢
  simp only [newtonLoop, h, if_true]

/-- **C130, `improved_time_iteration`.**  Started again from a rule flagged as converged, it returns this rule, with
the same error, after no step. -/
theorem C130_improved_time_iteration (norm : X → K) (trial : X → ℕ → X) (b : ℕ) (tol : K)
    (maxit maxit' : ℕ) (hm : 1 ≤ maxit) (hm' : 1 ≤ maxit') (x0 : X) (r : ITIResult X K)
    (hr : improvedTimeIteration norm trial (b + 1) tol maxit x0 = .ok r) (hc : r.converged = true) :
    improvedTimeIteration norm trial (b + 1) tol maxit' r.x = .ok ⟨r.x, 0, r.err_0, true⟩ := by
  obtain ⟨r', path, n, h1, -, -, -, -, h2, -⟩ := C29_improved_time_iteration norm trial b tol maxit hm x0
  rw [hr] at h1
  cases h1
  obtain ⟨a1, a2, -⟩ := h2 hc
  obtain ⟨k, rfl⟩ : ∃ k, maxit' = k + 1 := ⟨maxit' - 1, by omega⟩
  simp [improvedTimeIteration, itiLoop, a1, a2, bind, Except.bind, pure, Except.pure]

/-- **C130, `evaluate_policy`.**  Evaluating the same policy again, starting from a value function obtained before
the budget was exhausted, returns the same values and the same error after one pass. -/
theorem C130_evaluate_policy (T : X → X) (dist : X → X → K) (tol : K) (htol : tol < 10) (maxit maxit' : ℕ)
    (hm : 1 ≤ maxit) (hm' : 1 ≤ maxit') (v0 : X) (dr0 : Option X)
    (hc : (evaluatePolicy T dist tol maxit v0 dr0).iterations < maxit) (v : X)
    (hv : (evaluatePolicy T dist tol maxit v0 dr0).solution = some v) :
    evaluatePolicy T dist tol maxit' v (some v)
      = ⟨some v, 1, tol, (evaluatePolicy T dist tol maxit v0 dr0).error⟩ := by
  obtain ⟨-, -, h1, w, h2, -, h3⟩ := C32_evaluate_policy T dist tol htol maxit hm v0 dr0
  have hle := h1 hc
  rw [hv] at h2
  cases h2
  rw [h3] at hle ⊢
  obtain ⟨k, rfl⟩ : ∃ k, maxit' = k + 1 := ⟨maxit' - 1, by omega⟩
  have e : evaluatePolicy T dist tol (k + 1) v (some v) = epLoop T dist tol k 1 (dist (T v) v) (T v) (some v) := by
    simp only [evaluatePolicy, epLoop, gt_iff_lt, htol, if_true]
  rw [e]
  cases k with
  | zero => rfl
  | succ k => simp only [epLoop, gt_iff_lt, not_lt.2 hle, if_false]

/-- **C130, `time_iteration` (partial).**  If the updates do not move two rules away from each other, starting again from
a rule flagged as converged stops after one iteration, flagged as converged, with an error which is not larger.  What is
returned is the next iterate: unlike the other solvers, `time_iteration` never returns the rule it starts from unless
it is a fixed point.  Without the hypothesis it may not stop: `C130_time_iteration_fails`. -/
theorem C130_time_iteration_partial (update : X → X) (dist : X → X → K)
    (hne : ∀ a b, dist (update a) (update b) ≤ dist a b) (tol : K) (maxit maxit' : ℕ) (hm' : 1 ≤ maxit') (x0 : X)
    (r : TIResult X K) (hr : timeIteration update dist tol maxit x0 = .ok r) (hc : r.converged = true) :
    ∃ r', timeIteration update dist tol maxit' r.controls = .ok r' ∧ r'.iterations = 1 ∧ r'.converged = true ∧
      r'.err ≤ r.err ∧ r'.controls = update r.controls := by
  obtain ⟨c1, -, c3, c4, c5, -, -⟩ := C28_time_iteration update dist tol maxit x0 r hr
  have hlt := c5.1 hc
  obtain ⟨-, h10⟩ := (C28_returns update dist tol maxit x0).1 ⟨r, hr⟩
  have hd : dist (update r.controls) r.controls ≤ r.err := by
    rw [c4, c3, ← Function.iterate_succ_apply' update]
    have e : r.iterations = r.iterations - 1 + 1 := by omega
    have e1 : update^[r.iterations + 1] x0 = update (update^[r.iterations] x0) := Function.iterate_succ_apply' _ _ _
    have e2 : update^[r.iterations] x0 = update (update^[r.iterations - 1] x0) := by
      conv_lhs => rw [e]
      exact Function.iterate_succ_apply' _ _ _
    rw [e1]
    conv_lhs => rw [show dist (update (update^[r.iterations] x0)) (update^[r.iterations] x0)
      = dist (update (update^[r.iterations] x0)) (update (update^[r.iterations - 1] x0)) by rw [← e2]]
    exact hne _ _
  have hd' : ¬ dist (update r.controls) r.controls > tol := not_lt.2 (hd.trans hlt.le)
  obtain ⟨k, rfl⟩ : ∃ k, maxit' = k + 1 := ⟨maxit' - 1, by omega⟩
  have e : tiLoop update dist tol (k + 1) 0 10 r.controls none
      = (1, dist (update r.controls) r.controls, some (update r.controls)) := by
    have e0 : tiLoop update dist tol (k + 1) 0 10 r.controls none
        = tiLoop update dist tol k 1 (dist (update r.controls) r.controls) (update r.controls)
            (some (update r.controls)) := by
      simp only [tiLoop, gt_iff_lt, h10, if_true]
    rw [e0]
    cases k with
    | zero => rfl
    | succ k => simp only [tiLoop, hd', if_false]
  refine ⟨⟨update r.controls, 1, decide (dist (update r.controls) r.controls < tol), _⟩, ?_, rfl, ?_, hd, rfl⟩
  · unfold timeIteration
    rw [e]
  · simp only [decide_eq_true_eq]
    exact lt_of_le_of_lt hd hlt

/-- **C130 fails in general for `time_iteration`.**  Updates can move little once and then a lot: a rule flagged as
converged is left, and the second run ends, flagged as converged, at another rule. -/
theorem C130_time_iteration_fails :
    ∃ (update : ℚ → ℚ) (r r' : TIResult ℚ ℚ),
      timeIteration update (fun a b => |a - b|) (1 / 10) 100 0 = .ok r ∧ r.converged = true ∧
      timeIteration update (fun a b => |a - b|) (1 / 10) 100 r.controls = .ok r' ∧ r'.converged = true ∧
      r'.iterations = 2 ∧ |r'.controls - r.controls| = 5 := by
  let u : ℚ → ℚ := fun x => if x = 0 then 1 / 20 else 5 + 1 / 20
  have e1 : timeIteration u (fun a b => |a - b|) (1 / 10) (98 + 1 + 1) 0 = .ok ⟨1 / 20, 1, true, 1 / 20⟩ := by
    norm_num [timeIteration, tiLoop, u]
  have e2 : timeIteration u (fun a b => |a - b|) (1 / 10) (97 + 1 + 1 + 1) (1 / 20) = .ok ⟨5 + 1 / 20, 2, true, 0⟩ := by
    norm_num [timeIteration, tiLoop, u]
  exact ⟨u, ⟨1 / 20, 1, true, 1 / 20⟩, ⟨5 + 1 / 20, 2, true, 0⟩, e1, rfl, e2, rfl, rfl, by norm_num⟩

/-- Cases: an update which halves distances; a converged run of `evaluate_policy`. -/
example : (∀ a b : ℚ, |a / 2 - b / 2| ≤ |a - b|) ∧
    (evaluatePolicy (fun v : ℚ => v / 2) (fun a b => |a - b|) 1 5 3 none).iterations < 5 := by
  constructor
  · intro a b
    have : a / 2 - b / 2 = (a - b) / 2 := by ring
    rw [this, abs_div, abs_two]
    linarith [abs_nonneg (a - b)]
  · norm_num [evaluatePolicy, epLoop, abs_of_neg]

end Dolo
