import Verif.Model.HandOver
import Mathlib.Tactic.Ring
import Mathlib.Tactic.NormNum
import Mathlib.Tactic.FinCases

/-!
# C131: a solution can be handed to another method

The result of a solver, or any decision rule, can be given to the other solvers as the rule to start from or to
evaluate, and they start from its values.
-/

set_option linter.unusedSectionVars false

namespace Dolo

section
variable {M S V : Type}

private theorem mapM_all_ok {α β : Type} (f : α → Except Err β) (g : α → β) :
    ∀ l : List α, (∀ a ∈ l, f a = .ok (g a)) → l.mapM f = .ok (l.map g)
  | [], _ => rfl
  | a :: l, h => by
    rw [List.mapM_cons, h a (by simp), mapM_all_ok f g l fun b hb => h b (by simp [hb])]
    rfl

private theorem mapM_fail {β : Type} (f : ℕ → Except Err β) (e : Err) (n : ℕ) (hn : 1 ≤ n)
    (h : f 0 = .error e) : (List.range n).mapM f = .error e := by
  obtain ⟨k, rfl⟩ : ∃ k, n = k + 1 := ⟨n - 1, by omega⟩
  rw [List.range_succ_eq_map, List.mapM_cons, h]
  rfl

/-- **C131, results (what holds).**  `time_iteration` started from the result of a solver starts from its rule. -/
theorem C131_time_iteration_result (o : RuleObject M S V) (nodes : List M) (s : List S) :
    startTI (.result o) nodes s = startTI (.rule o) nodes s := rfl

/-- **C131 fails for results.**  What a solver returns by default cannot be given to `improved_time_iteration` nor to
`evaluate_policy` (`AttributeError`), nor to `egm` (`TypeError`), whatever the rule it contains. -/
theorem C131_results_refused (o : RuleObject M S V) (n k : ℕ) (hn : 1 ≤ n) (hk : 1 ≤ k) (s S1 : List S)
    (S2 : ℕ → ℕ → List S) :
    startITI (.result o) n s = .error .attributeError ∧ startEval (.result o) n s S1 = .error .attributeError ∧
    startEGM (.result o) n k S2 = .error .typeError := by
  refine ⟨?_, ?_, ?_⟩
  · exact mapM_fail (fun i : ℕ => (do assignRows s.length (.rows (← (SolverArg.result o).evalIS i s)) : Except Err _))
      .attributeError (max n 1) (by omega) rfl
  · unfold startEval
    rw [mapM_fail (fun i : ℕ => (do assignRows s.length (.rows (← (SolverArg.result o).evalIS i s)) : Except Err _))
      .attributeError n hn rfl]
    rfl
  · exact mapM_fail (fun i : ℕ => (List.range k).mapM fun (j : ℕ) => (SolverArg.result o).call (.int j) (.rows (S2 i j)))
      .typeError n hn (mapM_fail (fun j : ℕ => (SolverArg.result o).call (.int j) (.rows (S2 0 j)))
        .typeError k hk rfl)

/-- **C131, rules without `eval_is`.**  Such a rule (the rules of `perturb`, Taylor expansions, custom rules: see
`C131_no_eval_is`) can start `time_iteration`, which evaluates it at the nodes of the process; the other three raise
`AttributeError`. -/
theorem C131_rules_without_index (o : RuleObject M S V) (ho : o.ops.evalIS = none) (nodes : List M)
    (hn : nodes ≠ []) (k : ℕ) (hk : 1 ≤ k) (s S1 : List S) (S2 : ℕ → ℕ → List S) :
    (∀ x : M → List V, (∀ m ∈ nodes, o.ops.call2 (.float (.vec m)) (.rows s) = .ok (.rows (x m))) →
      (∀ m ∈ nodes, (x m).length = s.length) → startTI (.rule o) nodes s = .ok (nodes.map x)) ∧
    startITI (.rule o) nodes.length s = .error .attributeError ∧
    startEval (.rule o) nodes.length s S1 = .error .attributeError ∧
    startEGM (.rule o) nodes.length k S2 = .error .attributeError := by
  have hl : 1 ≤ nodes.length := List.length_pos_iff.2 hn
  have hcall : ∀ (i : ℕ) (p : List S), (SolverArg.rule o).call (.int i) (.rows p) = .error .attributeError := by
    intro i p
    simp only [SolverArg.call, RuleOps.call2, ho]
  have his : ∀ (i : ℕ) (p : List S), (SolverArg.rule o).evalIS i p = .error .attributeError := by
    intro i p
    simp only [SolverArg.evalIS, ho]
  refine ⟨fun x hx hlen => ?_, ?_, ?_, ?_⟩
  · unfold startTI
    simp only [SolverArg.unwrap]
    rw [mapM_fail (fun i : ℕ => (do assignRows s.length (← (SolverArg.rule o).call (.int i) (.rows s)) : Except Err _))
      .attributeError nodes.length hl (by simp only [hcall]; rfl)]
    refine mapM_all_ok _ x nodes fun m hm => ?_
    simp only [SolverArg.call, hx m hm, bind, Except.bind, assignRows, hlen m hm, if_true]
  · exact mapM_fail (fun i : ℕ => (do assignRows s.length (.rows (← (SolverArg.rule o).evalIS i s)) : Except Err _))
      .attributeError (max nodes.length 1) (by omega) (by simp only [his]; rfl)
  · unfold startEval
    rw [mapM_fail (fun i : ℕ => (do assignRows s.length (.rows (← (SolverArg.rule o).evalIS i s)) : Except Err _))
      .attributeError nodes.length hl (by simp only [his]; rfl)]
    rfl
  · exact mapM_fail (fun i : ℕ => (List.range k).mapM fun (j : ℕ) => (SolverArg.rule o).call (.int j) (.rows (S2 i j)))
      .attributeError nodes.length hl (mapM_fail (fun j : ℕ => (SolverArg.rule o).call (.int j) (.rows (S2 0 j)))
        .attributeError k hk (hcall _ _))

/-- **C131, rules with `eval_is`.**  If the rule returns one row of controls per state at every node, by number, then
`time_iteration` and `improved_time_iteration` start from the same table: the rule at the nodes and grid points. -/
theorem C131_rules_with_index (o : RuleObject M S V) (f : ℤ → List S → Except Err (List V))
    (ho : o.ops.evalIS = some f) (nodes : List M) (hn : nodes ≠ []) (s : List S) (x : ℕ → List V)
    (hx : ∀ i < nodes.length, f i s = .ok (x i) ∧ (x i).length = s.length) :
    startTI (.rule o) nodes s = .ok ((List.range nodes.length).map x) ∧
    startITI (.rule o) nodes.length s = .ok ((List.range nodes.length).map x) := by
  have hl : 1 ≤ nodes.length := List.length_pos_iff.2 hn
  constructor
  · unfold startTI
    simp only [SolverArg.unwrap]
    rw [mapM_all_ok _ x (List.range nodes.length) fun i hi => ?_]
    obtain ⟨h1, h2⟩ := hx i (List.mem_range.1 hi)
    simp only [SolverArg.call, RuleOps.call2, ho, h1, bind, Except.bind, pure, Except.pure, assignRows, h2, if_true]
  · unfold startITI
    rw [max_eq_left hl]
    refine mapM_all_ok _ x (List.range nodes.length) fun i hi => ?_
    obtain ⟨h1, h2⟩ := hx i (List.mem_range.1 hi)
    simp only [SolverArg.evalIS, ho, h1, bind, Except.bind, assignRows, h2, if_true]

/-- **C131, `egm`.**  A rule with `eval_is`, or a function of the node number and the states, gives `egm` the future
controls at the next node and the next states. -/
theorem C131_egm (a : SolverArg M S V) (ha : ∀ o, a ≠ .result o) (n k : ℕ) (S2 : ℕ → ℕ → List S)
    (x : ℕ → ℕ → List V)
    (hx : ∀ i < n, ∀ j < k, (∀ f, a = .function f → f (.int j) (.rows (S2 i j)) = .ok (.rows (x i j))) ∧
      ∀ o, a = .rule o → ∃ f, o.ops.evalIS = some f ∧ f j (S2 i j) = .ok (x i j)) :
    startEGM a n k S2 = .ok ((List.range n).map fun i => (List.range k).map fun j => .rows (x i j)) := by
  refine mapM_all_ok _ _ _ fun i hi => mapM_all_ok _ _ _ fun j hj => ?_
  obtain ⟨h1, h2⟩ := hx i (List.mem_range.1 hi) j (List.mem_range.1 hj)
  cases a with
  | function f => exact h1 f rfl
  | result o => exact absurd rfl (ha o)
  | rule o =>
    obtain ⟨f, hf, hv⟩ := h2 o rfl
    simp only [SolverArg.call, RuleOps.call2, hf, hv, bind, Except.bind, pure, Except.pure]

/-- **C131, `evaluate_policy` (what is read).**  For a rule with `eval_is` and `eval_ijs` the controls start from `eval_is` at each
node, and the first future controls are `eval_ijs(0, 0, S)`. -/
theorem C131_evaluate_policy_reads (o : RuleObject M S V) (n : ℕ) (s S1 : List S) (f : ℤ → List S → Except Err (List V))
    (hf : o.ops.evalIS = some f) (F : ℕ → ℕ → List S → Except Err (List V)) (hF : o.evalIJS = some F) (x : ℕ → List V)
    (hx : ∀ i < n, f i s = .ok (x i)) (hl : ∀ i < n, (x i).length = s.length) (X : List V) (hX : F 0 0 S1 = .ok X) :
    startEval (.rule o) n s S1 = .ok ((List.range n).map x, X) := by
  unfold startEval
  have h1 : (List.range n).mapM (fun i : ℕ =>
      (do assignRows s.length (.rows (← (SolverArg.rule o).evalIS i s)) : Except Err _)) = .ok ((List.range n).map x) := by
    refine mapM_all_ok _ _ _ fun i hi => ?_
    have hi' := List.mem_range.1 hi
    simp [SolverArg.evalIS, hf, hx i hi', bind, Except.bind, assignRows, hl i hi']
  rw [h1]
  simp only [SolverArg.evalIJS, hF, hX, bind, Except.bind, pure, Except.pure]

/-- **C131, `evaluate_policy`.**  Only rules with `eval_ijs` can be evaluated; among the classes of the library, only
`DecisionRule` has it (`C131_no_eval_ijs`). -/
theorem C131_evaluate_policy (o : RuleObject M S V) (n : ℕ) (s S1 : List S) (r : List (List V) × List V)
    (hr : startEval (.rule o) n s S1 = .ok r) : o.evalIJS.isSome = true := by
  unfold startEval at hr
  cases h1 : (List.range n).mapM (fun i : ℕ =>
      (do assignRows s.length (.rows (← (SolverArg.rule o).evalIS i s)) : Except Err _)) with
  | error e =>
    rw [h1] at hr
    exact (nomatch hr)
  | ok t =>
    rw [h1] at hr
    cases h2 : o.evalIJS with
    | some f => rfl
    | none =>
      simp only [SolverArg.evalIJS, h2, bind, Except.bind] at hr
      exact (nomatch hr)

/-- **C131, functions.**  A Python function that accepts numbers as its first argument is always called with the numbers
of the nodes by `time_iteration`, whatever it is a function of. -/
theorem C131_function_called_with_index (f : Exo M → Pts S → Except Err (Pts V)) (nodes : List M) (s : List S)
    (x : ℕ → List V) (hx : ∀ i < nodes.length, f (.int i) (.rows s) = .ok (.rows (x i)) ∧ (x i).length = s.length) :
    startTI (.function f) nodes s = .ok ((List.range nodes.length).map x) := by
  unfold startTI
  simp only [SolverArg.unwrap]
  rw [mapM_all_ok _ x (List.range nodes.length) fun i hi => ?_]
  obtain ⟨h1, h2⟩ := hx i (List.mem_range.1 hi)
  simp only [SolverArg.call, h1, bind, Except.bind, assignRows, h2, if_true]

end

/-! ### The classes of the library -/

section
variable {K : Type} [Field K]

/-- The rules without `eval_is`. -/
theorem C131_no_eval_is {nm ns nx : ℕ} (t : BiTaylor nm ns nx K) (u : TaylorExp ns nx K) {M S V : Type}
    (g : List M → List S → Except Err (List V)) :
    t.object.ops.evalIS = none ∧ (u.object nm).ops.evalIS = none ∧ (customObject g).ops.evalIS = none :=
  ⟨rfl, rfl, rfl⟩

/-- The rules without `eval_ijs`: all but `DecisionRule`. -/
theorem C131_no_eval_ijs {nm ns nx : ℕ} (t : BiTaylor nm ns nx K) (u : TaylorExp ns nx K) {M S V : Type} (x0 : V)
    (g : List M → List S → Except Err (List V)) (B : Splines K) (r : DecisionRule K) :
    t.object.evalIJS = none ∧ (u.object nm).evalIJS = none ∧ (customObject g).evalIJS = none ∧
    (constantObject x0 M S).evalIJS = none ∧ (r.object B).evalIJS.isSome = true :=
  ⟨rfl, rfl, rfl, rfl, rfl⟩

/-- **C131, perturbation.**  Handing the rule of `perturb` to `time_iteration` starts it from the first-order
approximation at the nodes of the process and the points of the grid (with an exogenous block `C_m`). -/
theorem C131_perturb_to_time_iteration {nm ns nx : ℕ} (t : BiTaylor nm ns nx K) (C : Matrix (Fin nx) (Fin nm) K)
    (hC : t.C_m = some C) (nodes : List (Fin nm → K)) (hn : nodes ≠ []) (s : List (Fin ns → K)) :
    startTI (.result t.object) nodes s = .ok (nodes.map fun m => s.map fun r => fun k =>
      t.x_bar k + (∑ j, C k j * (m j - t.m_bar j)) + ∑ j, t.C_s k j * (r j - t.s_bar j)) := by
  rw [C131_time_iteration_result]
  refine (C131_rules_without_index t.object rfl nodes hn 1 (le_refl _) s [] fun _ _ => []).1 _ ?_ ?_
  · intro m _
    have key : t.evalRows (some [m]) s = .ok (s.map fun r => fun k =>
        t.x_bar k + (∑ j, C k j * (m j - t.m_bar j)) + ∑ j, t.C_s k j * (r j - t.s_bar j)) := by
      have e : ∀ r : Fin ns → K, (t.x_bar + Matrix.vecMul (m - t.m_bar) C.transpose)
          + Matrix.vecMul (r - t.s_bar) t.C_s.transpose = fun k =>
            t.x_bar k + (∑ j, C k j * (m j - t.m_bar j)) + ∑ j, t.C_s k j * (r j - t.s_bar j) := by
        intro r
        funext k
        simp [Matrix.vecMul, dotProduct, mul_comm]
      unfold BiTaylor.evalRows
      simp only [hC]
      unfold bcastAdd
      simp only [List.map_cons, List.map_nil, List.length_singleton, List.length_map]
      split
      · rename_i h1
        obtain ⟨r, rfl⟩ := List.length_eq_one_iff.1 h1.symm
        simp [e]
      · simp only [List.map_map]
        refine congrArg Except.ok (List.map_congr_left fun r _ => ?_)
        exact e r
    simp only [BiTaylor.object, RuleOps.call2, key, bind, Except.bind, pure, Except.pure]
  · intro m _
    simp

/-- **C131, constant rules.**  A constant rule starts the three solvers from its value everywhere, but cannot be
evaluated. -/
theorem C131_constant {M S V : Type} (x0 : V) (nodes : List M) (hn : nodes ≠ []) (k : ℕ) (s S1 : List S)
    (S2 : ℕ → ℕ → List S) :
    startTI (.rule (constantObject x0 M S)) nodes s = .ok (nodes.map fun _ => s.map fun _ => x0) ∧
    startITI (.rule (constantObject x0 M S)) nodes.length s = .ok (nodes.map fun _ => s.map fun _ => x0) ∧
    startEGM (.rule (constantObject x0 M S)) nodes.length k S2 = .ok ((List.range nodes.length).map fun i =>
      (List.range k).map fun j => .rows ((S2 i j).map fun _ => x0)) ∧
    startEval (.rule (constantObject x0 M S)) nodes.length s S1 = .error .attributeError := by
  have e : (List.range nodes.length).map (fun _ => s.map fun _ => x0) = nodes.map fun _ => s.map fun _ => x0 := by
    refine List.ext_getElem (by simp) fun i h1 h2 => by simp
  obtain ⟨h1, h2⟩ := C131_rules_with_index (constantObject x0 M S) _ rfl nodes hn s (fun _ => s.map fun _ => x0)
    fun i _ => ⟨rfl, by simp⟩
  rw [e] at h1 h2
  refine ⟨h1, h2, ?_, ?_⟩
  · refine mapM_all_ok _ _ _ fun i _ => ?_
    exact mapM_all_ok _ _ _ fun j _ => rfl
  · unfold startEval
    rw [mapM_all_ok _ (fun _ => s.map fun _ => x0) (List.range nodes.length) fun i _ => ?_]
    · rfl
    · simp [SolverArg.evalIS, constantObject, constantOps, bind, Except.bind, assignRows]

/-- **C131 fails for functions of the exogenous value.**  The rule `x = m s`, given as a function to
`time_iteration` for a process whose only node is `5`: the controls start from `0`, not from `5 s`. -/
theorem C131_function_misread :
    ∃ f : Exo (List ℚ) → Pts ℚ → Except Err (Pts ℚ),
      (∀ m s, f (.float (.vec [m])) (.rows s) = .ok (.rows (s.map fun v => m * v))) ∧
      startTI (.function f) [[5]] [1, 2] = .ok [[0, 0]] := by
  refine ⟨fun m s => match m, s with
    | .float (.vec [m]), .rows s => .ok (.rows (s.map fun v => m * v))
    | .int i, .rows s => .ok (.rows (s.map fun v => (i : ℚ) * v))
    | _, _ => .error .typeError, fun m s => rfl, ?_⟩
  refine C131_function_called_with_index _ [[5]] [1, 2] (fun _ => [0, 0]) fun i hi => ?_
  have : i = 0 := by simpa using hi
  subst this
  simp

/-- A rule of `perturb` with one exogenous variable, one state and one control. -/
example : startTI (.result (⟨fun _ => 1, fun _ => 2, fun _ => 3, some fun _ _ => 4, fun _ _ => 5⟩ :
      BiTaylor 1 1 1 ℚ).object) [fun _ => 2] [fun _ => 2, fun _ => 3]
    = .ok [[fun _ => 7, fun _ => 12]] := by
  rw [C131_perturb_to_time_iteration _ (fun _ _ => 4) rfl _ (by simp)]
  norm_num

/-! ### C80 for the other classes of rules -/

private theorem forall₂_const {S V : Type} (x0 : V) (P : S → V → Prop) (hP : ∀ s v, P s v ↔ v = x0) (ss : List S)
    (vs : List V) : List.Forall₂ P ss vs ↔ ss.map (fun _ => x0) = vs := by
  induction ss generalizing vs with
  | nil => cases vs <;> simp
  | cons a ss ih =>
    cases vs with
    | nil => simp
    | cons v vs =>
      rw [List.forall₂_cons, hP, ih]
      simp [eq_comm]

/-- **C80, constant rules.**  A constant rule returns its value for every state, whichever way it is called. -/
theorem C80_constant {M S V : Type} (x0 : V) (m : Exo M) (hm : ∀ l, m ≠ .float (.rows l)) (ss : List S)
    (vs : List V) :
    ((constantOps x0 M S).call2 m (.rows ss) = .ok (.rows vs) ↔
      List.Forall₂ (fun s v => (constantOps x0 M S).call2 m (.vec s) = .ok (.vec v)) ss vs) ∧
    ((constantOps x0 M S).call1 (.rows ss) = .ok (.rows vs) ↔
      List.Forall₂ (fun s v => (constantOps x0 M S).call1 (.vec s) = .ok (.vec v)) ss vs) ∧
    ∀ s, (constantOps x0 M S).call2 m (.vec s) = .ok (.vec x0) := by
  have key : ∀ s, (constantOps x0 M S).call2 m (.vec s) = .ok (.vec x0) := by
    intro s
    match m, hm with
    | .int i, _ => rfl
    | .float (.vec m), _ => rfl
    | .float (.rows l), h => exact absurd rfl (h l)
  have key1 : ∀ s, (constantOps x0 M S).call1 (.vec s) = .ok (.vec x0) := fun s => rfl
  have rows : (constantOps x0 M S).call2 m (.rows ss) = .ok (.rows (ss.map fun _ => x0)) := by
    match m, hm with
    | .int i, _ => rfl
    | .float (.vec m), _ => rfl
    | .float (.rows l), h => exact absurd rfl (h l)
  have rows1 : (constantOps x0 M S).call1 (.rows ss) = .ok (.rows (ss.map fun _ => x0)) := rfl
  refine ⟨?_, ?_, key⟩
  · rw [rows, forall₂_const x0 _ (fun s v => by rw [key]; simp [eq_comm])]
    simp
  · rw [rows1, forall₂_const x0 _ (fun s v => by rw [key1]; simp [eq_comm])]
    simp

end

/-- A rule for `C131_evaluate_policy_reads` whose values depend on the node and, for future controls, on both nodes. -/
example (o : RuleOps ℚ ℚ ℚ) (ho : o.evalIS = some fun i p => .ok (p.map fun s => s + i)) :
    startEval (.rule ⟨o, some fun i j p => .ok (p.map fun s => s + 10 * i + 100 * j)⟩) 2 [1, 2] [5] = .ok ([[1, 2], [2, 3]], [5]) := by
  have := C131_evaluate_policy_reads (M := ℚ) (⟨o, some fun i j p => .ok (p.map fun s => s + 10 * i + 100 * j)⟩ : RuleObject ℚ ℚ ℚ)
    2 [1, 2] [5] _ ho _ rfl (fun i => [1 + i, 2 + i]) (by intro i _; simp) (by intro i _; rfl) [5] (by norm_num)
  rw [this]
  norm_num [List.range_succ]

end Dolo
