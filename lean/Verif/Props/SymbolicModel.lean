import Mathlib.Tactic.Linarith
import Mathlib.Tactic.Ring
import Mathlib.Data.Rat.Defs
import Verif.Model.SymbolicModel
import Verif.Lemmas.Calibration

/-!
# Definitions, equations, exogenous section, recipes
(C46, C47, C48, C49, C87, C90, C91)
-/

set_option linter.unusedSectionVars false

namespace Dolo

/-! ## C46: definitions are well-founded -/

theorem checkDef_ok_iff (params vars : List String) (d : DefLine) :
    checkDef params vars d = .ok () ↔ d.name ∉ vars ∧ d.date = 0 ∧
      (∀ p ∈ d.params, p ∉ vars ∧ p ∈ params) ∧ ∀ v ∈ d.vars, v.1 ∈ vars := by
  unfold checkDef
  by_cases h1 : d.name ∈ vars
  · simp [h1]
  · by_cases h2 : d.date = 0
    · by_cases h3 : (d.params.any fun p => decide (p ∈ vars) || !decide (p ∈ params)) = true
      · rw [if_neg h1, if_neg (by simp [h2]), if_pos h3]
        constructor
        · intro h; cases h
        · rintro ⟨-, -, h, -⟩
          simp only [List.any_eq_true, Bool.or_eq_true, decide_eq_true_eq, Bool.not_eq_true',
            decide_eq_false_iff_not] at h3
          obtain ⟨p, hp, h3⟩ := h3
          rcases h3 with h3 | h3
          · exact absurd h3 (h p hp).1
          · exact absurd (h p hp).2 h3
      · by_cases h4 : (d.vars.any fun v => !decide (v.1 ∈ vars)) = true
        · rw [if_neg h1, if_neg (by simp [h2]), if_neg h3, if_pos h4]
          constructor
          · intro h; cases h
          · rintro ⟨-, -, -, h⟩
            simp only [List.any_eq_true, Bool.not_eq_true', decide_eq_false_iff_not] at h4
            obtain ⟨v, hv, h4⟩ := h4
            exact absurd (h v hv) h4
        · rw [if_neg h1, if_neg (by simp [h2]), if_neg h3, if_neg h4]
          refine ⟨fun _ => ⟨h1, h2, ?_, ?_⟩, fun _ => rfl⟩
          · intro p hp
            have := fun hh => h3 (List.any_eq_true.2 ⟨p, hp, hh⟩)
            simp only [Bool.or_eq_true, decide_eq_true_eq, Bool.not_eq_true',
              decide_eq_false_iff_not] at this
            exact ⟨fun hh => this (Or.inl hh), not_not.1 fun hh => this (Or.inr hh)⟩
          · intro v hv
            have := fun hh => h4 (List.any_eq_true.2 ⟨v, hv, hh⟩)
            simpa using this
    · simp [h1, h2]

theorem checkDefs_cons_ok (params : List String) (d : DefLine) (rest : List DefLine)
    (vars aux : List String) (defs : PyDict String) (r) :
    checkDefs params (d :: rest) vars aux defs = .ok r ↔ checkDef params vars d = .ok () ∧
      checkDefs params rest (vars ++ [d.name]) (aux ++ [d.name])
        (defs.set d.lhsText d.rhsText) = .ok r := by
  simp only [checkDefs]
  rcases h : checkDef params vars d with e | u
  · constructor
    · intro hh; cases hh
    · rintro ⟨hh, -⟩; cases hh
  · constructor
    · intro hh; exact ⟨rfl, hh⟩
    · rintro ⟨-, hh⟩; exact hh

/-- What it means for a block to be well-formed, line by line: defined at date `t`, under a name
that is neither a declared variable nor defined earlier; every parameter used is declared as such
and is not a variable; every variable used is a declared variable or an earlier auxiliary. -/
def WellFormed (params vars : List String) (lines : List DefLine) : Prop :=
  ∀ (i : ℕ) d, lines[i]? = some d →
    d.date = 0 ∧ d.name ∉ vars ∧ d.name ∉ (lines.take i).map DefLine.name ∧
    (∀ p ∈ d.params, p ∈ params ∧ p ∉ vars ∧ p ∉ (lines.take i).map DefLine.name) ∧
    (∀ v ∈ d.vars, v.1 ∈ vars ∨ v.1 ∈ (lines.take i).map DefLine.name)

theorem wellFormed_cons (params vars : List String) (d : DefLine) (rest : List DefLine) :
    WellFormed params vars (d :: rest) ↔ (d.date = 0 ∧ d.name ∉ vars ∧
      (∀ p ∈ d.params, p ∈ params ∧ p ∉ vars) ∧ (∀ v ∈ d.vars, v.1 ∈ vars)) ∧
      WellFormed params (vars ++ [d.name]) rest := by
  constructor
  · intro h
    refine ⟨?_, ?_⟩
    · obtain ⟨h1, h2, -, h4, h5⟩ := h 0 d rfl
      refine ⟨h1, h2, fun p hp => ⟨(h4 p hp).1, (h4 p hp).2.1⟩, fun v hv => ?_⟩
      simpa using h5 v hv
    · intro i e he
      obtain ⟨h1, h2, h3, h4, h5⟩ := h (i + 1) e (by simpa using he)
      simp only [List.take_succ_cons, List.map_cons, List.mem_cons, not_or] at h3 h4 h5
      refine ⟨h1, by simp [h2, h3.1], h3.2, fun p hp => ?_, fun v hv => ?_⟩
      · obtain ⟨a, b, c1, c2⟩ := h4 p hp
        exact ⟨a, by simp [b, c1], c2⟩
      · rcases h5 v hv with h | h | h
        · left; simp [h]
        · left; simp [h]
        · right; exact h
  · rintro ⟨⟨h1, h2, h4, h5⟩, hr⟩ i e he
    rcases i with _ | i
    · simp only [List.getElem?_cons_zero, Option.some.injEq] at he
      subst he
      exact ⟨h1, h2, by simp, fun p hp => ⟨(h4 p hp).1, (h4 p hp).2, by simp⟩,
        fun v hv => Or.inl (h5 v hv)⟩
    · rw [List.getElem?_cons_succ] at he
      obtain ⟨g1, g2, g3, g4, g5⟩ := hr i e he
      simp only [List.mem_append, List.mem_singleton, not_or] at g2 g4 g5
      simp only [List.take_succ_cons, List.map_cons, List.mem_cons, not_or]
      refine ⟨g1, g2.1, ⟨g2.2, g3⟩, fun p hp => ?_, fun v hv => ?_⟩
      · obtain ⟨a, ⟨b, c1⟩, c2⟩ := g4 p hp
        exact ⟨a, b, c1, c2⟩
      · rcases g5 v hv with (h | h) | h
        · exact Or.inl h
        · exact Or.inr (Or.inl h)
        · exact Or.inr (Or.inr h)

theorem checkDefs_iff (params : List String) (lines : List DefLine) (vars aux : List String)
    (defs : PyDict String) :
    (∃ r, checkDefs params lines vars aux defs = .ok r) ↔ WellFormed params vars lines := by
  induction lines generalizing vars aux defs with
  | nil => exact ⟨fun _ i d h => by simp at h, fun _ => ⟨_, rfl⟩⟩
  | cons d rest ih =>
    rw [wellFormed_cons, ← ih (vars ++ [d.name]) (aux ++ [d.name]) (defs.set d.lhsText d.rhsText)]
    simp only [checkDefs_cons_ok, checkDef_ok_iff]
    constructor
    · rintro ⟨r, ⟨a, b, c, e⟩, h⟩
      exact ⟨⟨b, a, fun p hp => ⟨(c p hp).2, (c p hp).1⟩, e⟩, r, h⟩
    · rintro ⟨⟨b, a, c, e⟩, r, h⟩
      exact ⟨r, ⟨a, b, fun p hp => ⟨(c p hp).2, (c p hp).1⟩, e⟩, h⟩

theorem checkDefs_aux (params : List String) (lines : List DefLine) (vars aux : List String)
    (defs : PyDict String) (r) (h : checkDefs params lines vars aux defs = .ok r) :
    r.1 = aux ++ lines.map DefLine.name := by
  induction lines generalizing vars aux defs with
  | nil => cases h; simp
  | cons d rest ih =>
    rw [checkDefs_cons_ok] at h
    rw [ih _ _ _ h.2]
    simp

theorem checkDefs_defs (params : List String) (lines : List DefLine) (vars aux : List String)
    (defs : PyDict String) (r) (h : checkDefs params lines vars aux defs = .ok r) (k : String) :
    r.2.get? k = ((lines.reverse.find? fun d => d.lhsText = k).map DefLine.rhsText).or (defs.get? k) := by
  induction lines generalizing vars aux defs with
  | nil => cases h; simp
  | cons d rest ih =>
    rw [checkDefs_cons_ok] at h
    rw [ih _ _ _ h.2, PyDict.get?_set, List.reverse_cons, List.find?_append]
    cases rest.reverse.find? fun d => d.lhsText = k with
    | some x => simp
    | none =>
      by_cases hk : k = d.lhsText
      · subst hk; simp
      · simp [hk, Ne.symm hk]

theorem wellFormed_nodup (params vars : List String) (lines : List DefLine)
    (h : WellFormed params vars lines) : (lines.map DefLine.name).Nodup := by
  induction lines generalizing vars with
  | nil => simp
  | cons d rest ih =>
    obtain ⟨-, wr⟩ := (wellFormed_cons _ _ _ _).1 h
    rw [List.map_cons, List.nodup_cons]
    refine ⟨?_, ih _ wr⟩
    simp only [List.mem_map, not_exists, not_and]
    intro e he
    obtain ⟨i, hi, rfl⟩ := List.getElem_of_mem he
    have := (wr i _ (List.getElem?_eq_getElem hi)).2.1
    simp only [List.mem_append, List.mem_singleton, not_or] at this
    exact this.2

/-- **C46** (acceptance).  A definitions block is accepted exactly when it is well-formed; the
names of the auxiliaries are then those of its lines, in order. -/
theorem C46_accepted_iff (params vars : List String) (lines : List DefLine) :
    (∃ aux defs, checkDefs params lines vars [] [] = .ok (aux, defs)) ↔
      WellFormed params vars lines := by
  rw [← checkDefs_iff params lines vars [] []]
  constructor
  · rintro ⟨a, d, h⟩; exact ⟨_, h⟩
  · rintro ⟨⟨a, d⟩, h⟩; exact ⟨a, d, h⟩

/-- **C46** (auxiliary symbols). -/
theorem C46_auxiliaries (params vars : List String) (lines : List DefLine) (aux : List String)
    (defs : PyDict String) (h : checkDefs params lines vars [] [] = .ok (aux, defs)) :
    aux = lines.map DefLine.name ∧ aux.Nodup ∧ ∀ a ∈ aux, a ∉ vars := by
  have h1 := checkDefs_aux _ _ _ _ _ _ h
  simp only [List.nil_append] at h1
  have hw := (checkDefs_iff params lines vars [] []).1 ⟨_, h⟩
  refine ⟨h1, ?_, ?_⟩
  · rw [h1]
    exact wellFormed_nodup _ _ _ hw
  · intro a ha
    rw [h1] at ha
    obtain ⟨d, hd, rfl⟩ := List.mem_map.1 ha
    obtain ⟨i, hi, rfl⟩ := List.getElem_of_mem hd
    exact (hw i _ (List.getElem?_eq_getElem hi)).2.1

/-- **C46** (evaluation).  For an accepted block, whatever the right-hand sides compute from the
dated variables they mention, and whatever the paths of all other variables, there is exactly
one way to give every auxiliary a path such that all definitions hold at all dates. -/
theorem C46_unique_solution {K : Type} (params vars : List String) (lines : List DefLine)
    (aux : List String) (defs : PyDict String)
    (h : checkDefs params lines vars [] [] = .ok (aux, defs))
    (rhs : DefLine → (String → ℤ → K) → K)
    (hdep : ∀ d ∈ lines, ∀ E E' : String → ℤ → K,
      (∀ v ∈ d.vars, E v.1 v.2 = E' v.1 v.2) → rhs d E = rhs d E')
    (base : String → ℤ → K) :
    ∃! E : String → ℤ → K, (∀ n, n ∉ aux → E n = base n) ∧
      ∀ d ∈ lines, ∀ t, E d.name t = rhs d fun n k => E n (t + k) := by
  have h1 := checkDefs_aux _ _ _ _ _ _ h
  simp only [List.nil_append] at h1
  subst h1
  have hw := (checkDefs_iff params lines vars [] []).1 ⟨_, h⟩
  clear h
  induction lines generalizing vars base with
  | nil =>
    refine ⟨base, ⟨fun _ _ => rfl, by simp⟩, ?_⟩
    rintro E ⟨hE, -⟩
    funext n
    exact hE n (by simp)
  | cons d rest ih =>
    obtain ⟨⟨w1, w2, w3, w4⟩, wr⟩ := (wellFormed_cons _ _ _ _).1 hw
    have hnames : ∀ e ∈ rest, e.name ∉ vars ∧ e.name ≠ d.name := by
      intro e he
      obtain ⟨i, hi, rfl⟩ := List.getElem_of_mem he
      have := (wr i _ (List.getElem?_eq_getElem hi)).2.1
      simpa [not_or] using this
    let base' : String → ℤ → K := fun n =>
      if n = d.name then fun t => rhs d fun n k => base n (t + k) else base n
    obtain ⟨E, ⟨e1, e2⟩, eu⟩ := ih (vars ++ [d.name])
      (fun e he => hdep e (List.mem_cons_of_mem _ he)) base' wr
    have hagree : ∀ (E : String → ℤ → K), (∀ n, n ∉ (d :: rest).map DefLine.name → E n = base n) →
        ∀ t, rhs d (fun n k => E n (t + k)) = rhs d fun n k => base n (t + k) := by
      intro E hE t
      apply hdep d (by simp)
      intro v hv
      have hvv := w4 v hv
      rw [hE v.1]
      simp only [List.map_cons, List.mem_cons, List.mem_map, not_or, not_exists, not_and]
      refine ⟨fun hh => w2 (hh ▸ hvv), fun e he hh => (hnames e he).1 (hh ▸ hvv)⟩
    have hdn : d.name ∉ rest.map DefLine.name := by
      simp only [List.mem_map, not_exists, not_and]
      exact fun e he => (hnames e he).2
    refine ⟨E, ⟨?_, ?_⟩, ?_⟩
    · intro n hn
      simp only [List.map_cons, List.mem_cons, not_or] at hn
      rw [e1 n hn.2]
      simp [base', hn.1]
    · intro e he t
      rcases List.mem_cons.1 he with rfl | he
      · have hb : ∀ n, n ∉ (e :: rest).map DefLine.name → E n = base n := by
          intro n hn
          simp only [List.map_cons, List.mem_cons, not_or] at hn
          rw [e1 n hn.2]
          simp [base', hn.1]
        rw [hagree E hb t, e1 e.name hdn]
        simp [base']
      · exact e2 e he t
    · rintro E' ⟨f1, f2⟩
      refine eu E' ⟨?_, fun e he => f2 e (List.mem_cons_of_mem _ he)⟩
      intro n hn
      by_cases hnd : n = d.name
      · subst hnd
        funext t
        rw [f2 d (by simp) t, hagree E' f1 t]
        simp [base']
      · rw [f1 n (by simp [hnd, hn])]
        simp [base', hnd]

/-- Non-vacuity: `y[t] = a*k[t]`, then `c[t] = y[t] - y[t+1]` is accepted. -/
example : ∃ r, checkDefs ["a"]
    [⟨"y", 0, ["a"], [("k", 0)], "y[t]", "a*k[t]"⟩,
     ⟨"c", 0, [], [("y", 0), ("y", 1)], "c[t]", "y[t] - y[t+1]"⟩] ["k"] [] [] = .ok r :=
  ⟨_, rfl⟩

/-- An auxiliary used before it is defined, and one that redefines a variable, are refused. -/
example : checkDefs ["a"]
    [⟨"c", 0, [], [("y", 0)], "c[t]", "y[t]"⟩,
     ⟨"y", 0, ["a"], [("k", 0)], "y[t]", "a*k[t]"⟩] ["k"] [] [] =
      .error (.exception "not defined") := rfl

/-- What the checks do *not* exclude: an auxiliary may take the name of a declared parameter;
after that the parameter can no longer be used in definitions. -/
theorem C46_shadows_parameter_fails :
    ∃ (params vars : List String) (lines : List DefLine) (aux : List String)
      (defs : PyDict String), checkDefs params lines vars [] [] = .ok (aux, defs) ∧
      ∃ a ∈ aux, a ∈ params :=
  ⟨["a"], ["k"], [⟨"a", 0, [], [("k", 0)], "a[t]", "k[t]"⟩], _, _, rfl, "a", by simp, by simp⟩

/-! ## C87: the order in which properties are read -/

/-- A model whose caches are empty: just built with `check=False`, or after
`set_changed(all=True)`. -/
def SymState.Empty (st : SymState) : Prop := st.symbols = none ∧ st.defs = none

/-- **C87** (partial: symbols first).  If `symbols` is the first property read, and the
definitions block (if any) is accepted, then `symbols` is the declared symbols plus the
auxiliaries, and every later read of `symbols` or `definitions`, in any order, succeeds and
returns the same values without changing anything; `definitions` maps each left-hand side to the right-hand side
written for it. -/
theorem C87_symbols_first_partial (st : SymState) (he : st.Empty) (lines : List DefLine)
    (hl : st.rawDefs = some lines) (params : List String)
    (hp : st.rawSymbols.get? "parameters" = some params)
    (hw : WellFormed params (variablesOf st.rawSymbols) lines) :
    ∃ st' defs, readSymbols st =
        (.ok (st.rawSymbols.set "auxiliaries" (lines.map DefLine.name)), st') ∧
      readSymbols st' =
        (.ok (st.rawSymbols.set "auxiliaries" (lines.map DefLine.name)), st') ∧
      readDefinitions st' = (.ok defs, st') ∧
      ∀ k, defs.get? k = (lines.reverse.find? fun d => d.lhsText = k).map DefLine.rhsText := by
  obtain ⟨⟨aux, defs⟩, hc⟩ := (checkDefs_iff params lines (variablesOf st.rawSymbols) [] []).2 hw
  have ha := checkDefs_aux _ _ _ _ _ _ hc
  simp only [List.nil_append] at ha
  subst ha
  obtain ⟨h1, h2⟩ := he
  refine ⟨{ st with
    symbols := some (st.rawSymbols.set "auxiliaries" (lines.map DefLine.name))
    defs := some defs }, defs, ?_, ?_, ?_, fun k => ?_⟩
  · simp [readSymbols, h1, h2, defsBody, hl, PyDict.get, hp, hc]
  · simp [readSymbols]
  · simp [readDefinitions]
  · have := checkDefs_defs _ _ _ _ _ _ hc k
    simpa [PyDict.get?] using this

/-- Without a definitions block the order does not matter. -/
theorem C87_no_definitions_partial (st : SymState) (he : st.Empty) (hl : st.rawDefs = none) :
    (∃ st', readSymbols st = (.ok st.rawSymbols, st') ∧ readDefinitions st' = (.ok [], st')) ∧
    (∃ st', readDefinitions st = (.ok [], st') ∧
      readSymbols st' = (.ok st.rawSymbols, st')) := by
  obtain ⟨h1, h2⟩ := he
  constructor
  · refine ⟨{ st with symbols := some st.rawSymbols, defs := some [] }, ?_, ?_⟩
    · simp [readSymbols, h1, h2, defsBody, hl]
    · simp [readDefinitions]
  · refine ⟨{ st with symbols := some st.rawSymbols, defs := some [] }, ?_, ?_⟩
    · simp [readDefinitions, readSymbols, h1, h2, defsBody, hl]
    · simp [readSymbols]

theorem mem_variablesOf_set (syms : PyDict (List String)) (aux : List String) (a : String)
    (ha : a ∈ aux) : a ∈ variablesOf (syms.set "auxiliaries" aux) := by
  unfold variablesOf
  rw [List.mem_flatMap]
  refine ⟨("auxiliaries", aux), ?_, ha⟩
  rw [List.mem_filter]
  refine ⟨PyDict.mem_of_get? _ (by rw [PyDict.get?_set]; simp), by simp⟩

/-- **C87 fails when `definitions` is read first.**  For *every* model with a non-empty, accepted
definitions block: if `definitions` is the first property read, it raises (the auxiliaries
registered by the inner call are taken for variables that are already defined); reading it
a second time succeeds. -/
theorem C87_definitions_first_fails (st : SymState) (he : st.Empty) (lines : List DefLine)
    (hl : st.rawDefs = some lines) (hne : lines ≠ []) (params : List String)
    (hp : st.rawSymbols.get? "parameters" = some params)
    (hw : WellFormed params (variablesOf st.rawSymbols) lines) :
    ∃ st' defs, readDefinitions st = (.error (.exception "already defined"), st') ∧
      readDefinitions st' = (.ok defs, st') := by
  obtain ⟨⟨aux, defs⟩, hc⟩ := (checkDefs_iff params lines (variablesOf st.rawSymbols) [] []).2 hw
  have ha := checkDefs_aux _ _ _ _ _ _ hc
  simp only [List.nil_append] at ha
  subst ha
  obtain ⟨h1, h2⟩ := he
  rcases lines with _ | ⟨d, rest⟩
  · exact absurd rfl hne
  · have hmem := mem_variablesOf_set st.rawSymbols ((d :: rest).map DefLine.name) d.name (by simp)
    have hpp : PyDict.get? (st.rawSymbols.set "auxiliaries" ((d :: rest).map DefLine.name))
        "parameters" = some params := by
      rw [PyDict.get?_set, if_neg (by decide), hp]
    have hcd : ∀ aux defs, checkDefs params (d :: rest)
        (variablesOf (st.rawSymbols.set "auxiliaries" ((d :: rest).map DefLine.name))) aux defs =
        .error (.exception "already defined") := by
      intro aux defs
      simp only [checkDefs, checkDef, if_pos hmem]
      rfl
    have hsym : readSymbols st =
        (.ok (st.rawSymbols.set "auxiliaries" ((d :: rest).map DefLine.name)),
          { st with
            symbols := some (st.rawSymbols.set "auxiliaries" ((d :: rest).map DefLine.name))
            defs := some defs }) := by
      simp only [readSymbols, h1, h2, defsBody, hl, PyDict.get, hp, hc, Option.getD_some]
    refine ⟨{ st with
      symbols := some (st.rawSymbols.set "auxiliaries" ((d :: rest).map DefLine.name))
      defs := some defs }, defs, ?_, ?_⟩
    · simp only [readDefinitions, h2, hsym, defsBody, hl, PyDict.get, hpp, hcd]
    · simp [readDefinitions]

/-- Non-vacuity of the two theorems above: a model with one definition. -/
example : ∃ st : SymState, st.Empty ∧ (readDefinitions st).1 =
      .error (.exception "already defined") ∧
    (readDefinitions (readDefinitions st).2).1 = .ok [("y[t]", "a*k[t]")] ∧
    (readDefinitions (readSymbols st).2).1 = .ok [("y[t]", "a*k[t]")] :=
  ⟨⟨[("states", ["k"]), ("parameters", ["a"])],
    some [⟨"y", 0, ["a"], [("k", 0)], "y[t]", "a*k[t]"⟩], none, none⟩, ⟨rfl, rfl⟩,
    by decide, by decide, by decide⟩

/-! ## C48: complementarity bounds -/

/-- The bounds an equation stands for. -/
def ArbEq.bounds (eq : ArbEq) : String × String :=
  match eq.comp with
  | some (lb, _, ub) => (lb, ub)
  | none => ("-inf", "inf")

/-- Equation `i` may carry a condition only on the `i`-th control, at date `t`. -/
def ArbEq.RightControl (controls : List String) (i : ℕ) (eq : ArbEq) : Prop :=
  ∀ lb v t ub, eq.comp = some (lb, (v, t), ub) → controls[i]? = some v ∧ t = 0

theorem arbLoop_ok (controls : List String) (i : ℕ) (eqs : List ArbEq) (acc : ArbAcc)
    (h : ∀ (j : ℕ) eq, eqs[j]? = some eq → eq.RightControl controls (i + j)) :
    arbLoop controls i eqs acc = .ok ⟨acc.ll ++ eqs.map (·.text),
      acc.lb ++ eqs.map (fun e => e.bounds.1), acc.ub ++ eqs.map (fun e => e.bounds.2),
      acc.withComp || eqs.any fun e => e.comp.isSome⟩ := by
  induction eqs generalizing i acc with
  | nil => simp [arbLoop]
  | cons eq eqs ih =>
    have hr := fun j e he => h (j + 1) e (by simpa using he)
    have h0 := h 0 eq rfl
    simp only [arbLoop]
    rcases hc : eq.comp with _ | ⟨lb, ⟨v, t⟩, ub⟩
    · simp only [arbStep, hc]
      rw [show ((pure ⟨acc.ll ++ [eq.text], acc.lb ++ ["-inf"], acc.ub ++ ["inf"],
        acc.withComp⟩ : Except Err ArbAcc) >>= fun acc => arbLoop controls (i + 1) eqs acc) =
        arbLoop controls (i + 1) eqs ⟨acc.ll ++ [eq.text], acc.lb ++ ["-inf"],
          acc.ub ++ ["inf"], acc.withComp⟩ from rfl]
      rw [ih (i + 1) _ fun j e he => by
        have := hr j e he
        rwa [show i + (j + 1) = i + 1 + j by omega] at this]
      simp [ArbEq.bounds, hc]
    · obtain ⟨g1, g2⟩ := h0 lb v t ub hc
      subst g2
      have hg : pyGet controls i = .ok v := by
        rw [Nat.add_zero] at g1
        simp [pyGet, g1]
      simp only [arbStep, hc, hg]
      rw [show ((do
          let ctl ← (Except.ok v : Except Err String)
          if (v, (0 : ℤ)) ≠ (ctl, 0) then
            Except.error (Err.exception "Incorrect variable in complementarity")
          else pure ⟨acc.ll ++ [eq.text], acc.lb ++ [lb], acc.ub ++ [ub], true⟩) :
          Except Err ArbAcc) = .ok ⟨acc.ll ++ [eq.text], acc.lb ++ [lb], acc.ub ++ [ub], true⟩ by
        change (if (v, (0 : ℤ)) ≠ (v, 0) then _ else _) = _
        rw [if_neg (by simp)]; rfl]
      rw [show ((Except.ok ⟨acc.ll ++ [eq.text], acc.lb ++ [lb], acc.ub ++ [ub], true⟩ :
        Except Err ArbAcc) >>= fun acc => arbLoop controls (i + 1) eqs acc) =
        arbLoop controls (i + 1) eqs ⟨acc.ll ++ [eq.text], acc.lb ++ [lb],
          acc.ub ++ [ub], true⟩ from rfl]
      rw [ih (i + 1) _ fun j e he => by
        have := hr j e he
        rwa [show i + (j + 1) = i + 1 + j by omega] at this]
      simp [ArbEq.bounds, hc]

theorem arbLoop_right (controls : List String) (i : ℕ) (eqs : List ArbEq) (acc r : ArbAcc)
    (h : arbLoop controls i eqs acc = .ok r) (j : ℕ) (eq : ArbEq) (hj : eqs[j]? = some eq) :
    eq.RightControl controls (i + j) := by
  induction eqs generalizing i acc j with
  | nil => simp at hj
  | cons e0 eqs ih =>
    simp only [arbLoop] at h
    rcases hs : arbStep controls acc i e0 with er | acc'
    · rw [hs] at h; cases h
    · rw [hs] at h
      rcases j with _ | j
      · simp only [List.getElem?_cons_zero, Option.some.injEq] at hj
        subst hj
        intro lb v t ub hc
        simp only [arbStep, hc] at hs
        rcases hg : pyGet controls i with er | ctl
        · rw [hg] at hs; cases hs
        · rw [hg] at hs
          change (if (v, t) ≠ (ctl, 0) then _ else _) = _ at hs
          by_cases hne : (v, t) ≠ (ctl, 0)
          · rw [if_pos hne] at hs; cases hs
          · rw [not_not] at hne
            obtain ⟨rfl, rfl⟩ := Prod.mk.inj hne
            refine ⟨?_, rfl⟩
            unfold pyGet at hg
            rcases hh : controls[i]? with _ | w
            · rw [hh] at hg; cases hg
            · rw [hh] at hg
              rw [Except.ok.inj hg]
      · rw [List.getElem?_cons_succ] at hj
        have := ih (i + 1) acc' h j hj
        rwa [show i + (j + 1) = i + 1 + j by omega]

/-- **C48** (acceptance).  The arbitrage block is accepted exactly when every complementarity
condition is on the control with the same position as its equation, at date `t`. -/
theorem C48_accepted_iff (controls : List String) (eqs : List ArbEq) :
    (∃ d, arbitrageEquations controls eqs = .ok d) ↔
      ∀ (i : ℕ) eq, eqs[i]? = some eq → eq.RightControl controls i := by
  constructor
  · rintro ⟨d, h⟩ i eq hi
    unfold arbitrageEquations at h
    rcases hl : arbLoop controls 0 eqs ⟨[], [], [], false⟩ with er | r
    · rw [hl] at h; cases h
    · have := arbLoop_right controls 0 eqs _ r hl i eq hi
      rwa [Nat.zero_add] at this
  · intro h
    have := arbLoop_ok controls 0 eqs ⟨[], [], [], false⟩ (by simpa using h)
    unfold arbitrageEquations
    rw [this]
    exact ⟨_, rfl⟩

/-- **C48.** When the block is accepted: the equations are kept in order; if at least one carries
a condition, the lists of lower and upper bounds have one entry per equation, and entry `i` is the
bound written on equation `i`, or minus/plus infinity if it has none; if none does, no bounds
are registered at all. -/
theorem C48_bounds_line_up (controls : List String) (eqs : List ArbEq) (d : PyDict (List String))
    (h : arbitrageEquations controls eqs = .ok d) :
    d.get? "arbitrage" = some (eqs.map (·.text)) ∧
    ((∃ eq ∈ eqs, eq.comp ≠ none) → ∃ lb ub, d.get? "arbitrage_lb" = some lb ∧
      d.get? "arbitrage_ub" = some ub ∧ lb.length = eqs.length ∧ ub.length = eqs.length ∧
      ∀ (i : ℕ) eq, eqs[i]? = some eq →
        (∀ l v u, eq.comp = some (l, v, u) → lb[i]? = some l ∧ ub[i]? = some u) ∧
        (eq.comp = none → lb[i]? = some "-inf" ∧ ub[i]? = some "inf")) ∧
    ((∀ eq ∈ eqs, eq.comp = none) →
      d.get? "arbitrage_lb" = none ∧ d.get? "arbitrage_ub" = none) := by
  have hr := (C48_accepted_iff controls eqs).1 ⟨d, h⟩
  have hl := arbLoop_ok controls 0 eqs ⟨[], [], [], false⟩ (by simpa using hr)
  unfold arbitrageEquations at h
  rw [hl] at h
  have hd := (Except.ok.inj h).symm
  simp only [List.nil_append, Bool.false_or] at hd
  refine ⟨?_, ?_, ?_⟩
  · subst hd
    split_ifs <;> simp [PyDict.get?]
  · rintro ⟨eq, he, hc⟩
    have hany : (eqs.any fun e => e.comp.isSome) = true :=
      List.any_eq_true.2 ⟨eq, he, Option.isSome_iff_ne_none.2 hc⟩
    rw [if_pos hany] at hd
    subst hd
    refine ⟨eqs.map fun e => e.bounds.1, eqs.map fun e => e.bounds.2, by simp [PyDict.get?],
      by simp [PyDict.get?], by simp, by simp, ?_⟩
    intro i e hi
    constructor
    · intro l v u hcc
      simp [hi, ArbEq.bounds, hcc]
    · intro hcc
      simp [hi, ArbEq.bounds, hcc]
  · intro hn
    have hany : ¬ (eqs.any fun e => e.comp.isSome) = true := by
      intro hh
      obtain ⟨e, he, hc⟩ := List.any_eq_true.1 hh
      rw [hn e he] at hc
      cases hc
    rw [if_neg hany] at hd
    subst hd
    simp [PyDict.get?]

/-- Non-vacuity: three equations, the second with bounds. -/
example : arbitrageEquations ["i", "n", "c"]
    [⟨"eq1", none⟩, ⟨"eq2", some ("0", ("n", 0), "1")⟩, ⟨"eq3", none⟩] =
    .ok [("arbitrage", ["eq1", "eq2", "eq3"]), ("arbitrage_lb", ["-inf", "0", "-inf"]),
      ("arbitrage_ub", ["inf", "1", "inf"])] := rfl

/-! ## C47: shifting recipes -/

/-- **C47** (entries).  `shift_spec(spec, k)` has the same entries in the same order; dates of
variables and of the target move by `k`, parameters are unchanged. -/
theorem C47_entries (s : Spec) (k : ℤ) :
    (shiftSpec s k).eqs.length = s.eqs.length ∧
    (∀ (i : ℕ) e, s.eqs[i]? = some e → ∃ e', (shiftSpec s k).eqs[i]? = some e' ∧
      e'.group = e.group ∧ e'.name = e.name ∧
      (e.group = "parameters" → e'.date = e.date) ∧
      (e.group ≠ "parameters" → e'.date = e.date + k)) ∧
    (∀ e, s.target = some e → ∃ e', (shiftSpec s k).target = some e' ∧ e'.group = e.group ∧
      e'.name = e.name ∧ e'.date = e.date + k) ∧
    (s.target = none → (shiftSpec s k).target = none) := by
  refine ⟨by simp [shiftSpec], ?_, ?_, ?_⟩
  · intro i e he
    simp only [shiftSpec, List.getElem?_map, he, Option.map_some]
    by_cases hp : e.group = "parameters"
    · exact ⟨e, by simp [hp], rfl, rfl, fun _ => rfl, fun h => absurd hp h⟩
    · exact ⟨⟨e.group, e.date + k, e.name⟩, by simp [hp], rfl, rfl, fun h => absurd h hp,
        fun _ => rfl⟩
  · intro e he
    exact ⟨⟨e.group, e.date + k, e.name⟩, by simp [shiftSpec, he], rfl, rfl, rfl⟩
  · intro he
    simp [shiftSpec, he]

/-- **C47** (group action).  Shifting by `a` then `b` is shifting by `a + b`, and shifting by
`0` does nothing; hence shifting back undoes a shift. -/
theorem C47_action (s : Spec) (a b : ℤ) :
    shiftSpec (shiftSpec s a) b = shiftSpec s (a + b) ∧ shiftSpec s 0 = s ∧
      shiftSpec (shiftSpec s a) (-a) = s := by
  have h1 : ∀ a b, shiftSpec (shiftSpec s a) b = shiftSpec s (a + b) := by
    intro a b
    simp only [shiftSpec, List.map_map, Option.map_map]
    congr 1
    · congr 1; funext e; simp [add_assoc]
    · congr 1; funext e
      by_cases hp : e.group = "parameters" <;> simp [hp, add_assoc]
  have h2 : shiftSpec s 0 = s := by
    rcases s with ⟨t, es⟩
    simp only [shiftSpec, add_zero]
    congr 1
    · cases t <;> rfl
    · conv_rhs => rw [← List.map_id es]
      congr 1; funext e
      split_ifs <;> rfl
  exact ⟨h1 a b, h2, by rw [h1, add_neg_cancel, h2]⟩

/-- Non-vacuity: the recipe of `transition`, shifted to date `t`. -/
example : shiftSpec ⟨some ⟨"states", 0, "S"⟩,
      [⟨"exogenous", -1, "m"⟩, ⟨"states", -1, "s"⟩, ⟨"parameters", 0, "p"⟩]⟩ 1 =
    ⟨some ⟨"states", 1, "S"⟩,
      [⟨"exogenous", 0, "m"⟩, ⟨"states", 0, "s"⟩, ⟨"parameters", 0, "p"⟩]⟩ := by decide

/-! ## C49: the exogenous section -/

theorem splitOn1_ne_nil (sep : Char) (s : List Char) : splitOn1 sep s ≠ [] := by
  cases s with
  | nil => simp [splitOn1]
  | cons c cs =>
    simp only [splitOn1]
    split_ifs
    · simp
    · split <;> simp

theorem splitOn1_of_notMem (sep : Char) (w : List Char) (h : sep ∉ w) : splitOn1 sep w = [w] := by
  induction w with
  | nil => rfl
  | cons c w ih =>
    simp only [List.mem_cons, not_or] at h
    simp only [splitOn1, if_neg (Ne.symm h.1), ih h.2]

theorem splitOn1_append_sep (sep : Char) (w rest : List Char) (h : sep ∉ w) :
    splitOn1 sep (w ++ sep :: rest) = w :: splitOn1 sep rest := by
  induction w with
  | nil => simp [splitOn1]
  | cons c w ih =>
    simp only [List.mem_cons, not_or] at h
    rw [List.cons_append]
    simp only [splitOn1, if_neg (Ne.symm h.1), ih h.2]

/-- `sep.join(parts)` for a one-character separator. -/
def joinWith (sep : Char) : List (List Char) → List Char
  | [] => []
  | [w] => w
  | w :: ws => w ++ sep :: joinWith sep ws

theorem splitOn1_joinWith (sep : Char) (parts : List (List Char)) (hne : parts ≠ [])
    (h : ∀ w ∈ parts, sep ∉ w) : splitOn1 sep (joinWith sep parts) = parts := by
  induction parts with
  | nil => exact absurd rfl hne
  | cons w ws ih =>
    rcases ws with _ | ⟨w', ws⟩
    · exact splitOn1_of_notMem sep w (h w (by simp))
    · rw [joinWith, splitOn1_append_sep sep w _ (h w (by simp)),
        ih (by simp) fun v hv => h v (List.mem_cons_of_mem _ hv)]
      simp

/-- White space. -/
def IsWs (c : Char) : Prop := c = ' ' ∨ c = '\t' ∨ c = '\n'

theorem dropWhile_pad {p : Char → Bool} (l w : List Char) (hl : ∀ c ∈ l, p c = true)
    (hw : ∀ c ∈ w, p c = false) (r : List Char) (hr : ∀ c ∈ r, p c = true) :
    (((l ++ (w ++ r)).dropWhile p).reverse.dropWhile p).reverse = w := by
  have h1 : ∀ (l x : List Char), (∀ c ∈ l, p c = true) → (l ++ x).dropWhile p = x.dropWhile p := by
    intro l x hl
    induction l with
    | nil => rfl
    | cons c l ih =>
      rw [List.cons_append, List.dropWhile_cons_of_pos (hl c (by simp))]
      exact ih fun c' hc' => hl c' (List.mem_cons_of_mem _ hc')
  rw [h1 l _ hl]
  rcases w with _ | ⟨c, w⟩
  · rw [List.nil_append]
    have : r.dropWhile p = [] := by
      have := h1 r [] hr
      simpa using this
    simp [this]
  · rw [List.cons_append, List.dropWhile_cons_of_neg (by simp [hw c (by simp)]), ← List.cons_append,
      List.reverse_append, h1 _ _ fun c' hc' => hr c' (List.mem_reverse.1 hc')]
    have hlast : ∀ x : List Char, (∀ c ∈ x, p c = false) → x.dropWhile p = x := by
      intro x hx
      cases x with
      | nil => rfl
      | cons a x => rw [List.dropWhile_cons_of_neg (by simp [hx a (by simp)])]
    rw [hlast _ fun c' hc' => hw c' (List.mem_reverse.1 hc'), List.reverse_reverse]

theorem stripWs_pad (l w r : List Char) (hl : ∀ c ∈ l, IsWs c) (hw : ∀ c ∈ w, ¬ IsWs c)
    (hr : ∀ c ∈ r, IsWs c) : stripWs (l ++ (w ++ r)) = w := by
  unfold stripWs
  apply dropWhile_pad
  · intro c hc; rcases hl c hc with h | h | h <;> simp [h]
  · intro c hc
    have := hw c hc
    simp only [IsWs, not_or] at this
    simp [this.1, this.2.1, this.2.2]
  · intro c hc; rcases hr c hc with h | h | h <;> simp [h]

/-- A name as it is written in a key: with white space around it. -/
structure PaddedName where
  left : List Char
  name : List Char
  right : List Char
  hleft : ∀ c ∈ left, IsWs c
  hright : ∀ c ∈ right, IsWs c
  hname : ∀ c ∈ name, ¬ IsWs c ∧ c ≠ ','

/-- The key that lists names, separated by commas. -/
def keyOf (names : List PaddedName) : List Char :=
  joinWith ',' (names.map fun n => n.left ++ (n.name ++ n.right))

theorem comma_not_ws : ¬ IsWs ',' := by
  unfold IsWs; decide

/-- **C49.** Let the keys of the exogenous section be comma-separated lists of names, with any
white space around the names, in any grouping.  The section is accepted exactly when the names,
read through all keys in order, are the declared exogenous symbols in declared order; the
processes are then combined in the order of the keys. -/
theorem C49_accepted_iff {P : Type} (syms : List (List Char))
    (groups : List (List PaddedName × P)) (hne : ∀ g ∈ groups, g.1 ≠ []) (ps : List P) :
    getExogenous syms (groups.map fun g => (keyOf g.1, g.2)) = .ok ps ↔
      syms = groups.flatMap (fun g => g.1.map PaddedName.name) ∧ ps = groups.map (·.2) := by
  have hk : exoSymbols ((groups.map fun g => (keyOf g.1, g.2)).map (·.1)) =
      groups.flatMap fun g => g.1.map PaddedName.name := by
    induction groups with
    | nil => rfl
    | cons g groups ih =>
      have ih' := ih fun g' hg' => hne g' (List.mem_cons_of_mem _ hg')
      simp only [exoSymbols, List.map_cons, List.flatMap_cons] at ih' ⊢
      rw [ih']
      congr 1
      rw [keyOf, splitOn1_joinWith ',' _ (by simpa using hne g (by simp)) (by
        intro w hw
        obtain ⟨n, -, rfl⟩ := List.mem_map.1 hw
        simp only [List.mem_append, not_or]
        exact ⟨fun h => comma_not_ws (n.hleft _ h), fun h => (n.hname _ h).2 rfl,
          fun h => comma_not_ws (n.hright _ h)⟩), List.map_map]
      congr 1
      funext n
      exact stripWs_pad _ _ _ n.hleft (fun c hc => (n.hname c hc).1) n.hright
  unfold getExogenous
  rw [hk]
  by_cases h : syms = groups.flatMap fun g => g.1.map PaddedName.name
  · rw [if_neg (by simpa using h)]
    simp only [List.map_map, Except.ok.injEq]
    constructor
    · rintro rfl; exact ⟨h, rfl⟩
    · rintro ⟨-, rfl⟩; rfl
  · rw [if_pos h]
    constructor
    · intro hh; cases hh
    · rintro ⟨hh, -⟩; exact absurd hh h

/-- Non-vacuity: one joint process for `z, e` and one for `w`; and the same section refused when
the declared order differs. -/
example : getExogenous ["z".toList, "e".toList, "w".toList]
      [("z, e".toList, 1), (" w".toList, 2)] = .ok [1, 2] ∧
    getExogenous ["e".toList, "z".toList, "w".toList]
      [("z, e".toList, 1), (" w".toList, 2)] =
      .error (.exception "must match declaration order") := by decide

/-! ## C90: defaults of the calibration -/

theorem addMissing_get? {V : Type} (c l : PyDict V) (s : String) :
    PyDict.get? (l.foldl (fun c kv => if c.has kv.1 then c else c.set kv.1 kv.2) c) s =
      (PyDict.get? c s).or (PyDict.get? l s) := by
  induction l generalizing c with
  | nil => simp [PyDict.get?_nil]
  | cons kv l ih =>
    obtain ⟨k, v⟩ := kv
    rw [List.foldl_cons, ih, PyDict.get?_cons]
    by_cases hh : c.has k = true
    · rw [if_pos hh]
      by_cases hk : k = s
      · subst hk
        obtain ⟨w, hw⟩ := (PyDict.has_iff c k).1 hh
        simp [hw]
      · simp [hk]
    · rw [if_neg hh, PyDict.get?_set]
      by_cases hk : k = s
      · subst hk
        have : PyDict.get? c k = none := by
          rcases hg : PyDict.get? c k with _ | w
          · rfl
          · exact absurd ((PyDict.has_iff c k).2 ⟨w, hg⟩) hh
        simp [this]
      · simp [hk, Ne.symm hk]

theorem addDefault_get? {V : Type} (c : PyDict V) (l : List String) (v : V) (s : String) :
    PyDict.get? (l.foldl (fun c s => if c.has s then c else c.set s v) c) s =
      (PyDict.get? c s).or (if s ∈ l then some v else none) := by
  have := addMissing_get? c (l.map fun s => (s, v)) s
  rw [List.foldl_map] at this
  rw [this]
  congr 1
  induction l with
  | nil => rfl
  | cons a l ih =>
    rw [List.map_cons, PyDict.get?_cons, ih]
    · by_cases h : a = s
      · simp [h]
      · simp [h, Ne.symm h]
    · have := addMissing_get? c (l.map fun s => (s, v)) s
      rwa [List.foldl_map] at this

/-- The default given to a symbol, by its group. -/
def groupDefault {V : Type} (zero nan : V) (g : String) : V :=
  if g = "exogenous" ∨ g = "expectations" ∨ g = "values" then zero else nan

/-- **C90.** The calibration passed to the triangular solver: a value written by the user is
kept; otherwise a definition is used; otherwise a symbol of a group that is not initialized from
the model gets the default of its group (zero for exogenous variables, `nan` for states, controls
and parameters). -/
theorem C90_calibration_sources {V : Type} (zero nan : V) (symbols : PyDict (List String))
    (user defs : PyDict V) (s : String) :
    (∀ v, user.get? s = some v →
      (fullCalibration zero nan symbols user defs).get? s = some v) ∧
    (user.get? s = none → ∀ v, defs.get? s = some v →
      (fullCalibration zero nan symbols user defs).get? s = some v) ∧
    (user.get? s = none → defs.get? s = none → ∀ g syms, (g, syms) ∈ symbols → s ∈ syms →
      g ∉ initializedFromModel → (∀ g' syms', (g', syms') ∈ symbols → s ∈ syms' → g' = g) →
      (fullCalibration zero nan symbols user defs).get? s = some (groupDefault zero nan g)) ∧
    (user.get? s = none → defs.get? s = none →
      (∀ g syms, (g, syms) ∈ symbols → s ∈ syms → g ∈ initializedFromModel) →
      (fullCalibration zero nan symbols user defs).get? s = none) := by
  have hdef : ∀ g : String, g ∉ initializedFromModel →
      ((initialValues zero nan).get? g).getD nan = groupDefault zero nan g := by
    intro g hg
    simp only [initializedFromModel, List.mem_cons, List.not_mem_nil, or_false, not_or] at hg
    simp only [initialValues, PyDict.get?_cons, PyDict.get?_nil, groupDefault]
    by_cases h1 : "exogenous" = g
    · simp [← h1]
    · by_cases h2 : "controls" = g
      · subst h2; simp
      · by_cases h3 : "states" = g
        · subst h3; simp
        · simp [h1, Ne.symm h1, h2, h3, hg.1, hg.2.1, Ne.symm hg.1, Ne.symm hg.2.1]
  have key : ∀ (symbols : PyDict (List String)) (c : PyDict V),
      (∀ v, PyDict.get? c s = some v → PyDict.get? (symbols.foldl (fun c gs =>
        if gs.1 ∈ initializedFromModel then c
        else gs.2.foldl (fun c s => if c.has s then c else
          c.set s (((initialValues zero nan).get? gs.1).getD nan)) c) c) s = some v) ∧
      (PyDict.get? c s = none → ∀ g syms, (g, syms) ∈ symbols → s ∈ syms →
        g ∉ initializedFromModel → (∀ g' syms', (g', syms') ∈ symbols → s ∈ syms' → g' = g) →
        PyDict.get? (symbols.foldl (fun c gs =>
        if gs.1 ∈ initializedFromModel then c
        else gs.2.foldl (fun c s => if c.has s then c else
          c.set s (((initialValues zero nan).get? gs.1).getD nan)) c) c) s =
          some (groupDefault zero nan g)) ∧
      (PyDict.get? c s = none →
        (∀ g syms, (g, syms) ∈ symbols → s ∈ syms → g ∈ initializedFromModel) →
        PyDict.get? (symbols.foldl (fun c gs =>
        if gs.1 ∈ initializedFromModel then c
        else gs.2.foldl (fun c s => if c.has s then c else
          c.set s (((initialValues zero nan).get? gs.1).getD nan)) c) c) s = none) := by
    intro symbols
    induction symbols with
    | nil =>
      intro c
      exact ⟨fun v h => h, fun _ g syms h => by simp at h, fun h _ => h⟩
    | cons gs symbols ih =>
      intro c
      simp only [List.foldl_cons]
      by_cases hg : gs.1 ∈ initializedFromModel
      · simp only [if_pos hg]
        obtain ⟨i1, i2, i3⟩ := ih c
        refine ⟨i1, ?_, ?_⟩
        · intro hn g syms hm hs hgi hu
          rcases List.mem_cons.1 hm with hm | hm
          · subst hm; exact absurd hg hgi
          · exact i2 hn g syms hm hs hgi fun g' s' h1 => hu g' s' (List.mem_cons_of_mem _ h1)
        · intro hn hall
          exact i3 hn fun g syms hm => hall g syms (List.mem_cons_of_mem _ hm)
      · simp only [if_neg hg]
        obtain ⟨i1, i2, i3⟩ := ih (gs.2.foldl (fun c s => if c.has s then c else
          c.set s (((initialValues zero nan).get? gs.1).getD nan)) c)
        have hadd := addDefault_get? c gs.2 (((initialValues zero nan).get? gs.1).getD nan) s
        refine ⟨?_, ?_, ?_⟩
        · intro v hv
          apply i1
          rw [hadd, hv]; rfl
        · intro hn g syms hm hs hgi hu
          rw [hn, Option.none_or] at hadd
          by_cases hsg : s ∈ gs.2
          · rw [if_pos hsg] at hadd
            rw [i1 _ hadd, hdef gs.1 hg]
            rw [hu gs.1 gs.2 (by simp) hsg]
          · rw [if_neg hsg] at hadd
            rcases List.mem_cons.1 hm with hm | hm
            · subst hm; exact absurd hs hsg
            · exact i2 hadd g syms hm hs hgi fun g' s' h1 => hu g' s' (List.mem_cons_of_mem _ h1)
        · intro hn hall
          have hsg : s ∉ gs.2 := fun h => hg (hall gs.1 gs.2 (by simp) h)
          rw [hn, Option.none_or, if_neg hsg] at hadd
          exact i3 hadd fun g syms hm => hall g syms (List.mem_cons_of_mem _ hm)
  obtain ⟨k1, k2, k3⟩ := key symbols
    (defs.foldl (fun c kv => if c.has kv.1 then c else c.set kv.1 kv.2) user)
  have hd := addMissing_get? user defs s
  refine ⟨?_, ?_, ?_, ?_⟩
  · intro v hv
    exact k1 v (by rw [hd, hv]; rfl)
  · intro hu v hv
    exact k1 v (by rw [hd, hu, hv]; rfl)
  · intro hu hv
    exact k2 (by rw [hd, hu, hv]; rfl)
  · intro hu hv
    exact k3 (by rw [hd, hu, hv]; rfl)

/-- **C90 fails for values and expectations**: the table of defaults gives them zero, but their
groups are skipped before the table is consulted, so that such a symbol gets no value at all
(and is reported as `nan` by `calibration_to_vector`). -/
theorem C90_values_default_fails :
    ∃ (symbols : PyDict (List String)), (initialValues (0 : ℚ) 99).get? "values" = some 0 ∧
      symbols.get? "values" = some ["V"] ∧
      (fullCalibration (0 : ℚ) 99 symbols [] []).get? "V" = none ∧
      (calibrationToVector (99 : ℚ) symbols
        (fullCalibration (0 : ℚ) 99 symbols [] [])).get? "values" = some [99] :=
  ⟨[("values", ["V"])], by decide +kernel, by decide +kernel, by decide +kernel,
    by decide +kernel⟩

/-! ## C91: equations and their targets -/

/-- An equation written `lhs = rhs`. -/
def eqText (lhs rhs : List Char) : List Char := lhs ++ '=' :: rhs

/-- **C91** (partial).  If the left-hand sides of the equations are, in order, the symbols of the
target group, every symbol is computed by the right-hand side of its own equation. -/
theorem C91_targets_partial (targets : List String) (rhs : List (List Char))
    (hr : ∀ r ∈ rhs, '=' ∉ r) (ht : ∀ t ∈ targets, '=' ∉ t.toList)
    (hl : targets.length = rhs.length) :
    targetEquations targets ((targets.zip rhs).map fun tr => eqText tr.1.toList tr.2) =
      .ok (targets.zip (rhs.map stripWs)) := by
  have hm : ((targets.zip rhs).map fun tr => eqText tr.1.toList tr.2).mapM
      (fun eq => pyGet (splitOn1 '=' eq) 1) = .ok rhs := by
    rw [mapM_ok_iff]
    rw [List.forall₂_iff_get]
    refine ⟨by simp [hl], ?_⟩
    intro i h1 h2
    simp only [List.get_eq_getElem, List.getElem_map, List.getElem_zip]
    rw [eqText, splitOn1_append_sep '=' _ _ (ht _ (by simp)),
      splitOn1_of_notMem '=' _ (hr _ (by simp))]
    simp [pyGet]
  simp only [targetEquations, hm]
  rfl

/-- **C91 fails in general**: the left-hand side is never looked at.  Transition equations
written in another order than the states are silently exchanged, and an equation too few goes
unnoticed. -/
theorem C91_lhs_ignored_fails :
    targetEquations ["k", "z"] ["z = rho".toList, "k = inv".toList] =
        .ok [("k", "rho".toList), ("z", "inv".toList)] ∧
      targetEquations ["k", "z"] ["k = inv".toList] = .ok [("k", "inv".toList)] := by
  decide

/-- **C91** (residuals).  Without target, an equation `lhs = rhs` is turned into the residual
`(rhs)-(lhs)`, and an expression without equal sign is left as it is. -/
theorem C91_residual (lhs rhs e : List Char) (hl : '=' ∉ lhs) (hr : '=' ∉ rhs) (he : '=' ∉ e) :
    residualText (eqText lhs rhs) = "(".toList ++ rhs ++ ")-(".toList ++ lhs ++ ")".toList ∧
      residualText e = e := by
  constructor
  · rw [residualText, eqText, splitOn1_append_sep '=' _ _ hl, splitOn1_of_notMem '=' _ hr]
    rfl
  · rw [residualText, splitOn1_of_notMem '=' _ he]

/-- **C91 fails for comparisons**: `a == b` is cut at the first two equal signs. -/
theorem C91_double_equal_fails :
    residualText "a==b".toList = "()-(a)".toList := by decide

end Dolo
