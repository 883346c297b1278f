import Verif.Lemmas.EvalHeap
import Verif.Props.Loops

/-!
# C128, C129: who owns the decision rules

C128: solving a model does not change the rules given as arguments, and returns rules of its own.
`time_iteration` does that; `evaluate_policy` without `dr0` does; with `dr0` it overwrites and returns the
caller's object, so that two results obtained from the same starting rule are one and the same.

C129: the trace of `time_iteration` holds every rule the iterations went through.
-/

set_option linter.unusedSectionVars false

namespace Dolo

variable {K : Type} [Field K] [LinearOrder K] [IsStrictOrderedRing K]

/-- Every object of `h` is still there in `h'`, with the same content. -/
def Untouched {X : Type} (h h' : RuleStore X) : Prop := ∀ i < h.length, h'[i]? = h[i]?

/-! ### C128 -/

/-- **C128, `evaluate_policy` without `dr0`.**  For every policy held by a rule object: no object of the caller
is changed, and the value returned is a new object; it holds an iterate of the valuation operator on the
calibrated values, the error reported being what one more application would change. -/
theorem C128_evaluate_policy_fresh {X : Type} (U : X → X → X → X → X) (dist : X → X → K) (tol : K) (htol : tol < 10)
    (maxit : ℕ) (hmax : 1 ≤ maxit) (vcal : X) (r : ℕ) (p : X) (h : RuleStore X) (hp : h[r]? = some (some p)) :
    ∃ h' ev v, evaluatePolicyHeap U dist tol maxit vcal (.rule r) none h = (h', .ok ev) ∧
      Untouched h h' ∧ h'.length = h.length + 1 ∧ ev.solution = h.length ∧ h'[ev.solution]? = some (some v) ∧
      v = (fun w => U p w p w)^[ev.iterations - 1] vcal ∧ ev.error = dist (U p v p v) v := by
  have hr : r < h.length := (List.getElem?_eq_some_iff.1 hp).1
  have hread : ∀ g : RuleStore X, readRule (h ++ g) r = .ok p := fun g => by
    rw [readRule_ok, List.getElem?_append_left hr, hp]
  have hT : ∀ y, ∃ q, readRule (setRule (h ++ [none]) h.length y) r = .ok q ∧ (fun w => U p w p w) y = U p y q y :=
    fun y => ⟨p, by rw [readRule_set_ne _ _ _ hr.ne]; exact hread _, rfl⟩
  obtain ⟨h1, h2, h3, v, h4, h5, h6⟩ :=
    C32_evaluate_policy (fun w => U p w p w) dist tol htol maxit hmax vcal ((h ++ [none])[h.length]?.join)
  have key := epHeapLoop_eq U dist tol r h.length p (fun w => U p w p w) maxit 0 10 vcal (h ++ [none]) (by simp) hT
  unfold evaluatePolicy at h4 h5 h6
  rw [h4] at key
  refine ⟨(h ++ [none]).set h.length (some v), ⟨h.length, _, tol, _⟩, v, ?_, ?_, by simp, rfl, ?_, h5, h6⟩
  · have e : evaluatePolicyHeap U dist tol maxit vcal (.rule r) none h
        = epHeapLoop U dist tol (.rule r) h.length p maxit 0 10 vcal (h ++ [none]) := by
      simp only [evaluatePolicyHeap, epControls, hread]
    rw [e, key]
  · intro i hi
    rw [List.getElem?_set_ne (by omega), List.getElem?_append_left hi]
  · simp

/-- **C128, `evaluate_policy` with `dr0`.**  The object returned is `dr0` itself, and its content is replaced: it
held the table `w`, it now holds an iterate of the valuation operator on `w`.  The other objects, the policy
among them, are not changed. -/
theorem C128_evaluate_policy_overwrites {X : Type} (U : X → X → X → X → X) (dist : X → X → K) (tol : K)
    (htol : tol < 10) (maxit : ℕ) (hmax : 1 ≤ maxit) (vcal : X) (r r0 : ℕ) (hne : r ≠ r0) (p w : X)
    (h : RuleStore X) (hp : h[r]? = some (some p)) (hw : h[r0]? = some (some w)) :
    ∃ ev v, evaluatePolicyHeap U dist tol maxit vcal (.rule r) (some r0) h = (h.set r0 (some v), .ok ev) ∧
      ev.solution = r0 ∧ v = (fun w => U p w p w)^[ev.iterations - 1] w ∧ ev.error = dist (U p v p v) v := by
  have hr : r0 < h.length := (List.getElem?_eq_some_iff.1 hw).1
  have hT : ∀ y, ∃ q, readRule (setRule h r0 y) r = .ok q ∧ (fun w => U p w p w) y = U p y q y :=
    fun y => ⟨p, by rw [readRule_set_ne _ _ _ hne]; exact readRule_ok.2 hp, rfl⟩
  obtain ⟨h1, h2, h3, v, h4, h5, h6⟩ :=
    C32_evaluate_policy (fun w => U p w p w) dist tol htol maxit hmax w (h[r0]?.join)
  have key := epHeapLoop_eq U dist tol r r0 p (fun w => U p w p w) maxit 0 10 w h hr hT
  unfold evaluatePolicy at h4 h5 h6
  rw [h4] at key
  refine ⟨⟨r0, _, tol, _⟩, v, ?_, rfl, h5, h6⟩
  have e : evaluatePolicyHeap U dist tol maxit vcal (.rule r) (some r0) h
      = epHeapLoop U dist tol (.rule r) r0 p maxit 0 10 w h := by
    simp only [evaluatePolicyHeap, epControls, readRule_ok.2 hp, readRule_ok.2 hw]
  rw [e, key]

/-- **C128, one object for both arguments.**  If the policy is the starting rule itself, it is overwritten while
it is being evaluated: from the second pass on the future controls are read off the value function. -/
theorem C128_policy_is_dr0 {X : Type} (U : X → X → X → X → X) (dist : X → X → K) (tol : K)
    (htol : tol < 10) (maxit : ℕ) (hmax : 1 ≤ maxit) (vcal : X) (r : ℕ) (p : X) (h : RuleStore X)
    (hp : h[r]? = some (some p)) :
    ∃ ev v, evaluatePolicyHeap U dist tol maxit vcal (.rule r) (some r) h = (h.set r (some v), .ok ev) ∧
      ev.solution = r ∧ v = (fun w => U p w w w)^[ev.iterations - 1] p ∧ ev.error = dist (U p v v v) v := by
  have hr : r < h.length := (List.getElem?_eq_some_iff.1 hp).1
  have hT : ∀ y, ∃ q, readRule (setRule h r y) r = .ok q ∧ (fun w => U p w w w) y = U p y q y :=
    fun y => ⟨y, readRule_set_self h r hr y, rfl⟩
  obtain ⟨h1, h2, h3, v, h4, h5, h6⟩ :=
    C32_evaluate_policy (fun w => U p w w w) dist tol htol maxit hmax p (h[r]?.join)
  have key := epHeapLoop_eq U dist tol r r p (fun w => U p w w w) maxit 0 10 p h hr hT
  unfold evaluatePolicy at h4 h5 h6
  rw [h4] at key
  refine ⟨⟨r, _, tol, _⟩, v, ?_, rfl, h5, h6⟩
  have e : evaluatePolicyHeap U dist tol maxit vcal (.rule r) (some r) h
      = epHeapLoop U dist tol (.rule r) r p maxit 0 10 p h := by
    simp only [evaluatePolicyHeap, epControls, readRule_ok.2 hp]
  rw [e, key]

/-- **C128, what a call may write.**  Whatever the arguments and the outcome, a failure included: the only object
of the caller that `evaluate_policy` can have changed is `dr0`, and the rule it returns is `dr0` or, without
`dr0`, a new object. -/
theorem C128_evaluate_policy_writes {X : Type} (U : X → X → X → X → X) (dist : X → X → K) (tol : K) (maxit : ℕ)
    (vcal : X) (mdr : PolicyArg X) (dr0 : Option ℕ) (h : RuleStore X) :
    (∀ i < h.length, dr0 ≠ some i → (evaluatePolicyHeap U dist tol maxit vcal mdr dr0 h).1[i]? = h[i]?) ∧
    ∀ ev, (evaluatePolicyHeap U dist tol maxit vcal mdr dr0 h).2 = .ok ev → ev.solution = dr0.getD h.length := by
  cases dr0 with
  | none =>
    have base : ∀ i < h.length, (h ++ [none])[i]? = h[i]? := fun i hi => List.getElem?_append_left hi
    simp only [evaluatePolicyHeap]
    split
    · exact ⟨fun i hi _ => base i hi, fun ev he => (nomatch he)⟩
    · rename_i c _
      obtain ⟨-, a, b⟩ := epHeapLoop_frame U dist tol mdr h.length c maxit 0 10 vcal (h ++ [none])
      exact ⟨fun i hi _ => (a i hi.ne).trans (base i hi), b⟩
  | some r =>
    simp only [evaluatePolicyHeap]
    split
    · exact ⟨fun i hi _ => rfl, fun ev he => (nomatch he)⟩
    · rename_i c _
      split
      · exact ⟨fun i hi _ => rfl, fun ev he => (nomatch he)⟩
      · rename_i w _
        obtain ⟨-, a, b⟩ := epHeapLoop_frame U dist tol mdr r c maxit 0 10 w h
        exact ⟨fun i hi hne => a i (fun e => hne (by rw [e])), b⟩

/-- **C128, successive evaluations share one object.**  Evaluating any list of policies, each call started from
the rule returned by the previous one, as `value_iteration` does: all the results are the starting object, so only
the last one can be read. -/
theorem C128_results_shared {X : Type} (U : X → X → X → X → X) (dist : X → X → K) (tol : K) (maxit : ℕ)
    (vcal : X) (ps : List (PolicyArg X)) (r : ℕ) (h h' : RuleStore X) (refs : List ℕ)
    (hrun : evaluateChain U dist tol maxit vcal ps r h = (h', .ok refs)) :
    refs = List.replicate ps.length r ∧ ∀ i < h.length, i ≠ r → h'[i]? = h[i]? := by
  induction ps generalizing h h' refs with
  | nil =>
    simp only [evaluateChain, Prod.mk.injEq, Except.ok.injEq] at hrun
    obtain ⟨rfl, rfl⟩ := hrun
    exact ⟨rfl, fun _ _ _ => rfl⟩
  | cons p ps ih =>
    have hframe : ∀ (g : RuleStore X) ev, evaluatePolicyHeap U dist tol maxit vcal p (some r) h = (g, .ok ev) →
        g.length = h.length ∧ ev.solution = r ∧ ∀ i ≠ r, g[i]? = h[i]? := by
      intro g ev hg
      simp only [evaluatePolicyHeap] at hg
      split at hg
      · simp at hg
      · rename_i c _
        split at hg
        · simp at hg
        · rename_i w _
          obtain ⟨a, b, d⟩ := epHeapLoop_frame U dist tol p r c maxit 0 10 w h
          rw [hg] at a b d
          exact ⟨a, d ev rfl, b⟩
    simp only [evaluateChain] at hrun
    split at hrun
    · simp at hrun
    · rename_i g ev hg
      obtain ⟨l1, l2, l3⟩ := hframe g ev hg
      rw [l2] at hrun
      split at hrun
      · simp at hrun
      · rename_i g' rs hg'
        simp only [Prod.mk.injEq, Except.ok.injEq] at hrun
        obtain ⟨rfl, rfl⟩ := hrun
        obtain ⟨i1, i2⟩ := ih g g' rs hg'
        refine ⟨by rw [i1]; rfl, fun i hi hne => ?_⟩
        rw [i2 i (by omega) hne, l3 i hne]

/-- **C128 fails.**  Two policies evaluated from the same starting rule, with the default tolerance and budget: the
first call returns exactly the value of the first policy, `0`, and the same result reads `1` once the second call
has returned.  (A policy worth what it pays: `update_value` returns the controls.) -/
theorem C128_first_result_lost :
    ∃ (U : ℚ → ℚ → ℚ → ℚ → ℚ) (h h1 h2 : RuleStore ℚ) (ev1 ev2 : EvalRef ℚ),
      evaluatePolicyHeap U (fun a b => |a - b|) (1 / 10 ^ 8) 2000 0 (.rule 0) (some 2) h = (h1, .ok ev1) ∧
      evaluatePolicyHeap U (fun a b => |a - b|) (1 / 10 ^ 8) 2000 0 (.rule 1) (some 2) h1 = (h2, .ok ev2) ∧
      ev1.error = 0 ∧ ev2.error = 0 ∧ h[2]? = some (some 8) ∧
      h1[ev1.solution]? = some (some 0) ∧ h2[ev1.solution]? = some (some 1) := by
  have gen : ∀ (k : ℕ) (r : ℕ) (p w : ℚ) (h : RuleStore ℚ) (_ : h[r]? = some (some p)) (_ : h[2]? = some (some w))
      (_ : r ≠ 2) (_ : |p - w| > 1 / 10 ^ 8),
      evaluatePolicyHeap (fun c _ _ _ => c) (fun a b : ℚ => |a - b|) (1 / 10 ^ 8) (k + 3) 0 (.rule r) (some 2) h
        = (h.set 2 (some p), .ok ⟨2, 2, 1 / 10 ^ 8, 0⟩) := by
    intro k r p w h hp hw hne hd
    have hl : 2 < h.length := (List.getElem?_eq_some_iff.1 hw).1
    have hT : ∀ y, ∃ q, readRule (setRule h 2 y) r = .ok q ∧
        (fun _ => p) y = (fun c _ _ _ => c : ℚ → ℚ → ℚ → ℚ → ℚ) p y q y :=
      fun y => ⟨p, by rw [readRule_set_ne _ _ _ hne]; exact readRule_ok.2 hp, rfl⟩
    have key := epHeapLoop_eq (fun c _ _ _ => c : ℚ → ℚ → ℚ → ℚ → ℚ) (fun a b : ℚ => |a - b|) (1 / 10 ^ 8) r 2 p
      (fun _ => p) (k + 3) 0 10 w h hl hT
    have e : epLoop (fun _ : ℚ => p) (fun a b : ℚ => |a - b|) (1 / 10 ^ 8) (k + 3) 0 10 w (h[2]?.join)
        = ⟨some p, 2, 1 / 10 ^ 8, 0⟩ := by
      have t1 : (10 : ℚ) > 1 / 10 ^ 8 := by norm_num
      have t2 : ¬ (0 : ℚ) > 1 / 10 ^ 8 := by norm_num
      simp only [epLoop, t1, if_true, hd, t2, if_false, sub_self, abs_zero]
    rw [e] at key
    have e' : evaluatePolicyHeap (fun c _ _ _ => c) (fun a b : ℚ => |a - b|) (1 / 10 ^ 8) (k + 3) 0 (.rule r)
        (some 2) h = epHeapLoop (fun c _ _ _ => c : ℚ → ℚ → ℚ → ℚ → ℚ) (fun a b : ℚ => |a - b|) (1 / 10 ^ 8)
          (.rule r) 2 p (k + 3) 0 10 w h := by
      simp only [evaluatePolicyHeap, epControls, readRule_ok.2 hp, readRule_ok.2 hw]
    rw [e', key]
  refine ⟨fun c _ _ _ => c, [some 0, some 1, some 8], [some 0, some 1, some 0], [some 0, some 1, some 1],
    ⟨2, 2, 1 / 10 ^ 8, 0⟩, ⟨2, 2, 1 / 10 ^ 8, 0⟩, ?_, ?_, rfl, rfl, rfl, rfl, rfl⟩
  · exact gen 1997 0 0 8 _ rfl rfl (by decide) (by norm_num [abs_of_neg])
  · exact gen 1997 1 1 0 _ rfl rfl (by decide) (by norm_num [abs_of_neg])

/-- **C128, arrays of controls.**  `evaluate_policy` has a branch for a policy given as the array of its values on
the grid; as soon as a pass is made it fails, whatever the array, and leaves `dr0` with the values set for that
pass. -/
theorem C128_array_policy {X : Type} (U : X → X → X → X → X) (dist : X → X → K) (tol : K) (htol : tol < 10)
    (maxit : ℕ) (hmax : 1 ≤ maxit) (vcal : X) (x : X) (dr0 : Option ℕ) (h : RuleStore X) :
    (evaluatePolicyHeap U dist tol maxit vcal (.array x) dr0 h).2 = .error .attributeError := by
  obtain ⟨k, rfl⟩ : ∃ k, maxit = k + 1 := ⟨maxit - 1, by omega⟩
  have e : ∀ v w g, (epHeapLoop U dist tol (.array x) v x (k + 1) 0 10 w g).2 = .error .attributeError := by
    intro v w g
    simp only [epHeapLoop, gt_iff_lt, htol, if_true]
  cases dr0 with
  | none => simp only [evaluatePolicyHeap, epControls, e]
  | some r =>
    simp only [evaluatePolicyHeap, epControls]
    split
    · rename_i e' he'
      unfold readRule at he'
      split at he'
      · exact (nomatch he')
      · cases he'
        rfl
    · exact e _ _ _

/-! ### C128, C129: time iteration -/

/-- The controls time iteration starts from. -/
def startControls {X : Type} (xcal : X) (dr0 : Option ℕ) (h : RuleStore X) : Except Err X :=
  match dr0 with
  | none => .ok xcal
  | some r => readRule h r

private theorem read_append {X : Type} (h : RuleStore X) (r : ℕ) : readRule (h ++ [none]) r = readRule h r := by
  unfold readRule
  by_cases hr : r < h.length
  · rw [List.getElem?_append_left hr]
  · have e1 : h[r]? = none := List.getElem?_eq_none (not_lt.1 hr)
    rcases Nat.eq_or_lt_of_le (not_lt.1 hr) with e | e
    · subst e
      rw [e1]
      simp
    · have e2 : (h ++ [none])[r]? = none := List.getElem?_eq_none (by simp; omega)
      rw [e1, e2]

private theorem timeIterationHeap_start {X : Type} (update : X → X → X) (dist : X → X → K) (tol : K) (maxit : ℕ)
    (trace : Bool) (xcal : X) (dr0 : Option ℕ) (h : RuleStore X) :
    timeIterationHeap update dist tol maxit trace xcal dr0 h
      = match startControls xcal dr0 h with
        | .error e => (h ++ [none], .error e)
        | .ok x0 =>
          match tiHeapLoop update dist tol trace h.length maxit 0 10 x0 none [] (h ++ [none]) with
          | (h, .error e) => (h, .error e)
          | (h, .ok (_, _, none, _)) => (h, .error .nameError)
          | (h', .ok (it, err, some controls, tr)) =>
            let h'' := setRule h' h.length controls
            let tr := if trace then tr ++ [h''.length] else tr
            let hh := if trace then h'' ++ [h''[h.length]?.join] else h''
            (hh, .ok ⟨h.length, it, decide (err < tol), err, if trace then some tr else none⟩) := by
  cases dr0 with
  | none => rfl
  | some r =>
    simp only [timeIterationHeap, startControls, read_append]
    rfl

private theorem timeIterationHeap_eq {X : Type} (update : X → X → X) (dist : X → X → K) (tol : K) (maxit : ℕ)
    (trace : Bool) (xcal x0 : X) (dr0 : Option ℕ) (h : RuleStore X) (hx0 : startControls xcal dr0 h = .ok x0)
    (t : TIResult X K) (ht : timeIteration (fun y => update y y) dist tol maxit x0 = .ok t) :
    timeIterationHeap update dist tol maxit trace xcal dr0 h
      = (h ++ [some t.controls] ++ (if trace then (List.range (t.iterations + 1)).map fun j =>
            some ((fun y => update y y)^[j] x0) else []),
          .ok ⟨h.length, t.iterations, t.converged, t.err,
            if trace then some ((List.range (t.iterations + 1)).map (h.length + 1 + ·)) else none⟩) := by
  obtain ⟨c1, c2, c3, c4, c5, -⟩ := C28_time_iteration _ dist tol maxit x0 t ht
  obtain ⟨n, n1, n2⟩ := tiHeapLoop_eq update dist tol trace h.length (fun y => update y y) (fun _ => rfl) maxit 0 10 x0
    none [] (h ++ [none]) (by simp)
  rw [timeIterationHeap_start, hx0]
  simp only []
  unfold timeIteration at ht
  rcases hl : tiLoop (fun y => update y y) dist tol maxit 0 10 x0 none with ⟨it, err, last⟩
  rw [hl] at ht n1 n2
  cases last with
  | none => simp at ht
  | some c =>
    simp only [Except.ok.injEq] at ht
    subst ht
    simp only [Nat.zero_add] at n1 n2 c1 c2 c3 c4 c5
    subst n1
    have hn : it ≠ 0 := by omega
    rw [n2]
    have hset : ∀ y : Option X, (h ++ [none]).set h.length y = h ++ [y] := fun y => by simp
    cases trace with
    | false => simp [tiStore, setRule]
    | true =>
      have hst : setRule (tiStore (fun y => update y y) true h.length it x0 (h ++ [none])) h.length c
          = h ++ [some c] ++ (List.range it).map fun j => some ((fun y => update y y)^[j] x0) := by
        unfold tiStore setRule
        rw [hset, List.append_assoc, List.set_append_right _ _ (le_refl _)]
        simp
      simp only [if_true, hst]
      refine Prod.ext ?_ ?_
      · have hj : (h ++ [some c] ++ (List.range it).map fun j => some ((fun y => update y y)^[j] x0))[h.length]?.join
            = some c := by simp
        simp only []
        rw [hj, List.range_succ, List.map_append, ← List.append_assoc, c3]
        rfl
      · simp only [List.range_succ, List.map_append, List.nil_append]
        simp [Nat.add_assoc]
        omega

/-- **C128, `time_iteration`.**  For every starting rule (or none), tolerance and budget: no object of the
caller is changed, whether the call returns or fails, and the rule returned is a new object. -/
theorem C128_time_iteration {X : Type} (update : X → X → X) (dist : X → X → K) (tol : K) (maxit : ℕ) (trace : Bool)
    (xcal : X) (dr0 : Option ℕ) (h h' : RuleStore X) (out : Except Err (TIRef K))
    (hrun : timeIterationHeap update dist tol maxit trace xcal dr0 h = (h', out)) :
    Untouched h h' ∧ ∀ t, out = .ok t → t.dr = h.length := by
  have app : ∀ g : RuleStore X, Untouched h (h ++ g) := fun g i hi => List.getElem?_append_left hi
  cases hx : startControls xcal dr0 h with
  | error e =>
    rw [timeIterationHeap_start, hx] at hrun
    simp only [Prod.mk.injEq] at hrun
    obtain ⟨rfl, rfl⟩ := hrun
    exact ⟨app _, fun t ht => (nomatch ht)⟩
  | ok x0 =>
    cases ht : timeIteration (fun y => update y y) dist tol maxit x0 with
    | ok t =>
      rw [timeIterationHeap_eq update dist tol maxit trace xcal x0 dr0 h hx t ht] at hrun
      simp only [Prod.mk.injEq] at hrun
      obtain ⟨rfl, rfl⟩ := hrun
      refine ⟨by rw [List.append_assoc]; exact app _, fun t ht => ?_⟩
      cases ht
      rfl
    | error e =>
      obtain ⟨n, n1, n2⟩ := tiHeapLoop_eq update dist tol trace h.length (fun y => update y y) (fun _ => rfl) maxit 0
        10 x0 none [] (h ++ [none]) (by simp)
      rw [timeIterationHeap_start, hx] at hrun
      simp only [] at hrun
      unfold timeIteration at ht
      rcases hl : tiLoop (fun y => update y y) dist tol maxit 0 10 x0 none with ⟨it, err, last⟩
      rw [hl] at ht n1 n2
      cases last with
      | some c => simp at ht
      | none =>
        rw [n2] at hrun
        simp only [Prod.mk.injEq] at hrun
        obtain ⟨rfl, rfl⟩ := hrun
        refine ⟨?_, fun t ht => (nomatch ht)⟩
        have hset : ∀ y : Option X, (h ++ [none]).set h.length y = h ++ [y] := fun y => by simp
        unfold tiStore
        rw [hset, List.append_assoc]
        exact app _

/-- **C129.**  With `trace=True`, for every starting rule, tolerance below 10 and budget of at least one
iteration: the trace has one rule more than the number of iterations; all are objects distinct from each other,
from the rule returned and from those of the caller; the `k`-th one holds the `k`-th iterate, the last one the
same values as the rule returned. -/
theorem C129_trace {X : Type} (update : X → X → X) (dist : X → X → K) (tol : K) (htol : tol < 10) (maxit : ℕ)
    (hmax : 1 ≤ maxit) (xcal x0 : X) (dr0 : Option ℕ) (h : RuleStore X) (hx0 : startControls xcal dr0 h = .ok x0) :
    ∃ h' t tr, timeIterationHeap update dist tol maxit true xcal dr0 h = (h', .ok t) ∧ t.trace = some tr ∧
      tr.length = t.iterations + 1 ∧ (t.dr :: tr).Nodup ∧ (∀ r ∈ t.dr :: tr, h.length ≤ r) ∧
      (∀ k (hk : k < tr.length), h'[tr[k]]? = some (some ((fun y => update y y)^[k] x0))) ∧
      h'[t.dr]? = some (some ((fun y => update y y)^[t.iterations] x0)) := by
  obtain ⟨t, ht⟩ := (C28_returns (fun y => update y y) dist tol maxit x0).2 ⟨hmax, htol⟩
  obtain ⟨c1, c2, c3, c4, c5, -⟩ := C28_time_iteration _ dist tol maxit x0 t ht
  refine ⟨_, _, _, timeIterationHeap_eq update dist tol maxit true xcal x0 dr0 h hx0 t ht, rfl, by simp, ?_, ?_, ?_, ?_⟩
  · rw [List.nodup_cons]
    constructor
    · intro hm
      obtain ⟨j, -, hj⟩ := List.mem_map.1 hm
      simp only [] at hj
      omega
    · exact (List.nodup_range).map fun a b hab => by simpa using hab
  · intro r hr
    rcases List.mem_cons.1 hr with e | e
    · simp only [e]
      exact le_refl _
    · obtain ⟨j, -, hj⟩ := List.mem_map.1 e
      omega
  · intro k hk
    have hk' : k < t.iterations + 1 := by simpa using hk
    have e : ((List.range (t.iterations + 1)).map (h.length + 1 + ·))[k] = (h ++ [some t.controls]).length + k := by
      simp
    rw [e, List.getElem?_append_right (Nat.le_add_right _ _), Nat.add_sub_cancel_left]
    simp [hk']
  · simp [c3]

/-- **C129, the trace outlives further calls.**  Solving again, from any rule (a rule of the trace included), with
`time_iteration`, and evaluating any policy with `evaluate_policy` without `dr0`, leaves the objects of a trace as
they are; with `dr0`, all but `dr0`. -/
theorem C129_trace_kept {X : Type} (update : X → X → X) (dist : X → X → K) (tol : K) (maxit : ℕ) (trace : Bool)
    (xcal : X) (dr0 : Option ℕ) (U : X → X → X → X → X) (mdr : PolicyArg X) (e0 : Option ℕ) (h : RuleStore X) (r : ℕ)
    (hr : r < h.length) (he : e0 ≠ some r) :
    let h1 := (timeIterationHeap update dist tol maxit trace xcal dr0 h).1
    (evaluatePolicyHeap U dist tol maxit xcal mdr e0 h1).1[r]? = h[r]? := by
  intro h1
  have u := (C128_time_iteration update dist tol maxit trace xcal dr0 h h1 _ rfl).1
  have hl : r < h1.length := by
    have := u r hr
    rw [List.getElem?_eq_getElem hr] at this
    exact (List.getElem?_eq_some_iff.1 this).1
  rw [(C128_evaluate_policy_writes U dist tol maxit xcal mdr e0 h1).1 r hl he, u r hr]

/-- **C129, without trace.**  With `trace=False` one object is created and the field is `None`. -/
theorem C129_no_trace {X : Type} (update : X → X → X) (dist : X → X → K) (tol : K) (htol : tol < 10) (maxit : ℕ)
    (hmax : 1 ≤ maxit) (xcal x0 : X) (dr0 : Option ℕ) (h : RuleStore X) (hx0 : startControls xcal dr0 h = .ok x0) :
    ∃ h' t, timeIterationHeap update dist tol maxit false xcal dr0 h = (h', .ok t) ∧ t.trace = none ∧
      h' = h ++ [some ((fun y => update y y)^[t.iterations] x0)] := by
  obtain ⟨t, ht⟩ := (C28_returns (fun y => update y y) dist tol maxit x0).2 ⟨hmax, htol⟩
  obtain ⟨c1, c2, c3, c4, c5, -⟩ := C28_time_iteration _ dist tol maxit x0 t ht
  refine ⟨_, _, timeIterationHeap_eq update dist tol maxit false xcal x0 dr0 h hx0 t ht, rfl, ?_⟩
  simp [c3]

/-! ### Cases -/

/-- A store with a policy, a starting rule and a rule never set. -/
example : readRule ([some 1, some 8, none] : RuleStore ℚ) 0 = .ok 1 ∧
    readRule ([some 1, some 8, none] : RuleStore ℚ) 2 = .error .attributeError ∧
    startControls 5 (some 1) ([some 1, some 8, none] : RuleStore ℚ) = .ok 8 ∧
    startControls 5 none ([some 1, some 8, none] : RuleStore ℚ) = .ok 5 := by
  refine ⟨rfl, rfl, rfl, rfl⟩

/-- Time iteration `x ↦ x / 2` from `8`, two passes: the trace is `8, 4, 2`. -/
example : (timeIterationHeap (fun d x : ℚ => (d + x) / 4) (fun a b => |a - b|) (1 / 10) 2 true 5 (some 0)
    [some 8]).1 = [some 8, some 2, some 8, some 4, some 2] := by
  have t1 : (10 : ℚ) > 1 / 10 := by norm_num
  norm_num [timeIterationHeap, readRule, tiHeapLoop, setRule, abs_of_neg]

end Dolo
