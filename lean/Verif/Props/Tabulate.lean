import Verif.Model.Tabulate
import Verif.Props.DecisionRuleCalls
import Verif.Props.Taylor
import Mathlib.Tactic.IntervalCases

/-!
# C82, C83: tables of a decision rule
-/

set_option linter.unusedSectionVars false

namespace Dolo

variable {K : Type} [Field K] [LinearOrder K] [IsStrictOrderedRing K]

/-! ### Specification -/

/-- The state `s0` in which the `index`-th entry is the `t`-th of `n` equally spaced values from `lo` to `hi`. -/
def tabState (s0 : List K) (index : ℕ) (lo hi : K) (n t : ℕ) : List K :=
  s0.set index (if n ≤ 1 then lo else spaced lo hi n t)

/-- The values of the auxiliary variables, if any. -/
def auxValues (mod : TabModel K) (m s x : List K) : List K :=
  match mod.auxiliary with
  | none => []
  | some aux => aux m s x

/-! ### Auxiliary -/

private theorem tab_svec (s0 : List K) (index : ℕ) (lo hi : K) (n : ℕ) :
    (linspace lo hi n).map (fun v => s0.set index v) = (List.range n).map (tabState s0 index lo hi n) := by
  simp only [linspace, List.map_map]
  apply List.map_congr_left
  intro t _
  simp only [Function.comp, tabState, spaced]

private theorem zipWith_range {α : Type} (n : ℕ) (f : ℕ → List K) (g : ℕ → List K) (h : List K → List K → α) :
    List.zipWith h ((List.range n).map f) ((List.range n).map g) = (List.range n).map fun t => h (f t) (g t) := by
  rw [List.zipWith_map_left, List.zipWith_map_right, List.zipWith_self]

private theorem strIndex_ok {l : List String} {s : String} {i : ℕ} (h : l[i]? = some s) (hn : l.Nodup) :
    strIndex l s = .ok i := by
  obtain ⟨hi, rfl⟩ := List.getElem?_eq_some_iff.1 h
  rw [strIndex, if_pos (List.getElem_mem hi), hn.idxOf_getElem]

/-- The common part of C82. -/
private theorem tab_main (mod : TabModel K) (hnd : mod.states.Nodup) (dr : TabRule K) (state : String) (index : ℕ)
    (hidx : mod.states[index]? = some state) (bounds : Option (K × K)) (lo hi : K)
    (hb : tabBounds mod dr bounds index = .ok (lo, hi)) (n : ℕ) (hn : 1 ≤ n)
    (s0 : Option (List K)) (i0 : Option ℤ) (m0 : Option (List K)) (m : List K) (v : ℕ → List K)
    (hmx : tabEval dr (dr.dprocess.getD mod.process)
      ((List.range n).map (tabState (s0.getD mod.calStates) index lo hi n))
      (tabExo mod (dr.dprocess.getD mod.process) i0 m0) = .ok (m, (List.range n).map v)) :
    tabulate mod dr state bounds n s0 i0 m0 = .ok ((List.range n).map fun t =>
      let s := tabState (s0.getD mod.calStates) index lo hi n t
      m ++ (s ++ (v t ++ auxValues mod m s (v t)))) := by
  have h0 : n ≠ 0 := by omega
  unfold tabulate
  simp only [strIndex_ok hidx hnd, hb, bind, Except.bind, h0, if_false, tab_svec, hmx, pure, Except.pure, zipWith_range]
  rfl

/-- The bounds used: those given, else those of the endogenous grid. -/
private theorem tab_bounds (mod : TabModel K) (dr : TabRule K) (index : ℕ) (bounds : Option (K × K)) (b : K × K)
    (h : bounds = some b ∨ bounds = none ∧ (dr.endoBounds.bind fun l => l[index]?) = some b) :
    tabBounds mod dr bounds index = .ok (b.1, b.2) := by
  rcases h with rfl | ⟨rfl, h⟩
  · rfl
  · simp [tabBounds, h]

/-! ### C82 -/

/-- **C82, unstructured exogenous grid.**  `tabulate` of an interpolated rule on an unstructured grid gives `n_steps` rows: the
exogenous node (the one asked for, or by default the middle one), the state `s0` in which the given state takes `n_steps`
equally spaced values between the bounds (those given or those of the grid), the value of the rule there, and
the auxiliaries. -/
theorem C82_tabulate_unstructured (B : Splines K) (r : DecisionRule K) (nodes : List (List K))
    (hr : r.exoGrid = .unstructured nodes) (dp : TabProcess K) (hdp : dp.unstructured = true)
    (mod : TabModel K) (hnd : mod.states.Nodup) (state : String) (index : ℕ) (hidx : mod.states[index]? = some state)
    (bounds : Option (K × K)) (b : K × K)
    (hb : bounds = some b ∨ bounds = none ∧ r.endoGrid.bounds[index]? = some b) (n : ℕ) (hn : 1 ≤ n)
    (s0 : Option (List K)) (i0 : Option ℤ) (i : ℤ) (m : List K)
    (hi : i0 = some i ∨ i0 = none ∧ 1 ≤ dp.nNodes ∧ i = ((dp.nNodes - 1) / 2 : ℕ))
    (hm : dp.node i = .ok m) (v : ℕ → List K)
    (hv : ∀ t, t < n → (r.ops B).call2 (.int i) (.vec (tabState (s0.getD mod.calStates) index b.1 b.2 n t))
      = .ok (.vec (v t))) :
    tabulate mod (r.tab B dp) state bounds n s0 i0 none = .ok ((List.range n).map fun t =>
      let s := tabState (s0.getD mod.calStates) index b.1 b.2 n t
      m ++ (s ++ (v t ++ auxValues mod m s (v t)))) := by
  refine tab_main mod hnd _ state index hidx bounds b.1 b.2 (tab_bounds mod _ index bounds b ?_) n hn s0 i0 none m v ?_
  · simpa [DecisionRule.tab] using hb
  · have hx : tabExo mod dp i0 none = .inl i := by
      rcases hi with rfl | ⟨rfl, h1, rfl⟩
      · rfl
      · simp only [tabExo, hdp, if_true]
        congr 1
        omega
    have hrows := (C80_rowwise_partial B r (by simp [hr]) i
      ((List.range n).map (tabState (s0.getD mod.calStates) index b.1 b.2 n)) ((List.range n).map v)
      (by simp; omega)).2 (by
        rw [List.forall₂_map_left_iff, List.forall₂_map_right_iff, List.forall₂_same]
        intro t ht
        exact hv t (List.mem_range.1 ht))
    have hev : r.evalIS B i ((List.range n).map (tabState (s0.getD mod.calStates) index b.1 b.2 n))
        = .ok ((List.range n).map v) := by
      simp only [RuleOps.call2, DecisionRule.ops, bind, Except.bind, pure, Except.pure] at hrows
      cases h : r.evalIS B i ((List.range n).map (tabState (s0.getD mod.calStates) index b.1 b.2 n)) with
      | error e => rw [h] at hrows; cases hrows
      | ok l =>
        rw [h] at hrows
        simpa using hrows
    change tabEval _ dp _ (tabExo mod dp i0 none) = _
    rw [hx]
    simp only [tabEval, DecisionRule.tab, hm, hev, bind, Except.bind, pure, Except.pure]

/-- **C82, no exogenous grid.**  The same for a rule without exogenous grid: the exogenous variables are those given, or by default
the calibrated ones. -/
theorem C82_tabulate_empty (B : Splines K) (r : DecisionRule K) (hr : r.exoGrid = .empty) (dp : TabProcess K)
    (hdp : dp.unstructured = false)
    (mod : TabModel K) (hnd : mod.states.Nodup) (state : String) (index : ℕ) (hidx : mod.states[index]? = some state)
    (bounds : Option (K × K)) (b : K × K)
    (hb : bounds = some b ∨ bounds = none ∧ r.endoGrid.bounds[index]? = some b) (n : ℕ) (hn : 1 ≤ n)
    (s0 : Option (List K)) (m0 : Option (List K)) (v : ℕ → List K)
    (hv : ∀ t, t < n → (r.ops B).call1 (.vec (tabState (s0.getD mod.calStates) index b.1 b.2 n t)) = .ok (.vec (v t))) :
    tabulate mod (r.tab B dp) state bounds n s0 none m0 = .ok ((List.range n).map fun t =>
      let s := tabState (s0.getD mod.calStates) index b.1 b.2 n t
      let m := m0.getD mod.calExo
      m ++ (s ++ (v t ++ auxValues mod m s (v t)))) := by
  refine tab_main mod hnd _ state index hidx bounds b.1 b.2 (tab_bounds mod _ index bounds b ?_) n hn s0 none m0
    (m0.getD mod.calExo) v ?_
  · simpa [DecisionRule.tab] using hb
  · have hx : tabExo mod dp none m0 = .inr (m0.getD mod.calExo) := by
      cases m0 <;> simp [tabExo, hdp]
    have hrows := (C81_eval_ijs B r 0 0
      ((List.range n).map (tabState (s0.getD mod.calStates) index b.1 b.2 n)) ((List.range n).map v)
      (by simp; omega)).2 (by
        rw [List.forall₂_map_left_iff, List.forall₂_map_right_iff, List.forall₂_same]
        intro t ht
        simp only [nextCall, hr]
        exact hv t (List.mem_range.1 ht))
    simp only [DecisionRule.evalIJS, hr] at hrows
    change tabEval _ dp _ (tabExo mod dp none m0) = _
    rw [hx]
    simp only [tabEval, DecisionRule.tab, hr, DecisionRule.evalMS, hrows, bind, Except.bind, pure, Except.pure]

private theorem foldl_min_spec (l : List K) (a : K) :
    l.foldl min a ≤ a ∧ (∀ x ∈ l, l.foldl min a ≤ x) ∧ (l.foldl min a = a ∨ l.foldl min a ∈ l) := by
  induction l generalizing a with
  | nil => simp
  | cons b l ih =>
    obtain ⟨h1, h2, h3⟩ := ih (min a b)
    simp only [List.foldl_cons]
    refine ⟨h1.trans (min_le_left _ _), ?_, ?_⟩
    · intro x hx
      rcases List.mem_cons.1 hx with rfl | hx
      · exact h1.trans (min_le_right _ _)
      · exact h2 x hx
    · rcases h3 with h3 | h3
      · rw [h3]
        rcases min_choice a b with h | h <;> rw [h] <;> simp
      · exact Or.inr (List.mem_cons_of_mem _ h3)

private theorem foldl_max_spec (l : List K) (a : K) :
    a ≤ l.foldl max a ∧ (∀ x ∈ l, x ≤ l.foldl max a) ∧ (l.foldl max a = a ∨ l.foldl max a ∈ l) := by
  induction l generalizing a with
  | nil => simp
  | cons b l ih =>
    obtain ⟨h1, h2, h3⟩ := ih (max a b)
    simp only [List.foldl_cons]
    refine ⟨(le_max_left _ _).trans h1, ?_, ?_⟩
    · intro x hx
      rcases List.mem_cons.1 hx with rfl | hx
      · exact (le_max_right _ _).trans h1
      · exact h2 x hx
    · rcases h3 with h3 | h3
      · rw [h3]
        rcases max_choice a b with h | h <;> rw [h] <;> simp
      · exact Or.inr (List.mem_cons_of_mem _ h3)

/-- **C82, default bounds.**  The default bounds of a uniform grid are those it was built with; those of a non-uniform
grid are the smallest and the largest node of the dimension. -/
theorem C82_default_bounds :
    (∀ (min max : List K) (n : List ℕ) (g : UniformGrid K) (i : ℕ) (lo hi : K), UniformGrid.mk' min max n = .ok g →
      min[i]? = some lo → max[i]? = some hi → (CGrid.uniform g).bounds[i]? = some (lo, hi)) ∧
    (∀ (l : List (List K)) (g : NonUniformGrid K) (i : ℕ) (a : List K), NonUniformGrid.mk' l = .ok g → l[i]? = some a →
      ∃ lo hi, (CGrid.nonUniform g).bounds[i]? = some (lo, hi) ∧ lo ∈ a ∧ hi ∈ a ∧ ∀ x ∈ a, lo ≤ x ∧ x ≤ hi) := by
  constructor
  · intro min max n g i lo hi h h1 h2
    unfold UniformGrid.mk' at h
    split at h
    · cases h
    · cases h' : mlinspace min max n with
      | error e => rw [h'] at h; cases h
      | ok nodes =>
        rw [h'] at h
        simp only [bind, Except.bind, pure, Except.pure, Except.ok.injEq] at h
        subst h
        simp [CGrid.bounds, List.getElem?_zip_eq_some, h1, h2]
  · intro l g i a h h1
    unfold NonUniformGrid.mk' at h
    split at h
    · cases h
    · rename_i hany
      cases h' : cartesian l with
      | error e => rw [h'] at h; cases h
      | ok nodes =>
        rw [h'] at h
        simp only [bind, Except.bind, pure, Except.pure, Except.ok.injEq] at h
        subst h
        have hne : a ≠ [] := by
          rintro rfl
          exact hany (List.any_eq_true.2 ⟨[], List.mem_of_getElem? h1, rfl⟩)
        obtain ⟨b, a', rfl⟩ := List.exists_cons_of_ne_nil hne
        refine ⟨(b :: a').foldl Min.min b, (b :: a').foldl Max.max b, by simp [CGrid.bounds, h1], ?_, ?_, ?_⟩
        · rcases (foldl_min_spec (b :: a') b).2.2 with h | h
          · rw [h]; simp
          · exact h
        · rcases (foldl_max_spec (b :: a') b).2.2 with h | h
          · rw [h]; simp
          · exact h
        · intro x hx
          exact ⟨(foldl_min_spec (b :: a') b).2.1 x hx, (foldl_max_spec (b :: a') b).2.1 x hx⟩

/-- **C82 fails for a Cartesian exogenous grid** (the default for an AR(1) or VAR(1) solved by time iteration):
`tabulate` with its default arguments, or with the exogenous value given, raises an `AssertionError`; with a node
number it raises too, unless `n_steps = 1`. -/
theorem C82_tabulate_cartesian_fails (B : Splines K) (r : DecisionRule K) (g : CGrid K) (hr : r.exoGrid = .cartesian g)
    (hint : r.interp = .linear ∨ r.interp = .cubic) (dp : TabProcess K) (hdp : dp.unstructured = false)
    (mod : TabModel K) (hnd : mod.states.Nodup) (state : String) (index : ℕ) (hidx : mod.states[index]? = some state)
    (bounds : Option (K × K)) (b : K × K)
    (hb : bounds = some b ∨ bounds = none ∧ r.endoGrid.bounds[index]? = some b) (n : ℕ) (hn : 1 ≤ n)
    (s0 : Option (List K)) (m0 : Option (List K)) :
    tabulate mod (r.tab B dp) state bounds n s0 none m0 = .error .assertionError ∧
    (2 ≤ n → ∀ (i : ℤ) m0' table, tabulate mod (r.tab B dp) state bounds n s0 (some i) m0' ≠ .ok table) := by
  have h0 : n ≠ 0 := by omega
  have hb' := tab_bounds mod (r.tab B dp) index bounds b (by simpa [DecisionRule.tab] using hb)
  have hx : tabExo mod dp none m0 = .inr (m0.getD mod.calExo) := by
    cases m0 <;> simp [tabExo, hdp]
  constructor
  · unfold tabulate
    simp only [strIndex_ok hidx hnd, hb', bind, Except.bind, h0, if_false]
    simp only [DecisionRule.tab, Option.getD_some, hx, tabEval]
    rcases hint with hint | hint <;> simp [hr, hint, bind, Except.bind]
  · intro h2 i m0' table
    have hlen : ∀ v : List (List K), v.length = n → ∀ w, r.evalIS B i v ≠ .ok w := by
      intro v hv w
      have hcc : ∀ m, concatCols [m] v = .error .valueError := by
        intro m
        rw [concatCols, if_neg (by rw [hv]; simp; omega)]
      have hms : ∀ m w, r.evalMS B [m] v ≠ .ok w := by
        intro m w
        rcases hint with hint | hint <;>
        · simp only [DecisionRule.evalMS, hr, hint, hcc, bind, Except.bind]
          cases g.add r.endoGrid with
          | error e => simp
          | ok grid =>
            cases r.coefs with
            | error e => simp
            | ok c => cases h : grid.numbaRepr <;> simp [h]
      have hms' : ∀ m, ∃ e, r.evalMS B [m] v = .error e := by
        intro m
        cases h : r.evalMS B [m] v with
        | error e => exact ⟨e, rfl⟩
        | ok w => exact absurd h (hms m w)
      rcases hint with hint | hint <;>
      · simp only [DecisionRule.evalIS, hr, hint, bind, Except.bind]
        cases pyGetInt g.nodes i with
        | error e => simp
        | ok m =>
          obtain ⟨e, he⟩ := hms' m
          simp [he]
    unfold tabulate
    simp only [strIndex_ok hidx hnd, hb', bind, Except.bind, h0, if_false]
    simp only [DecisionRule.tab, Option.getD_some, tabExo, tabEval, bind, Except.bind, pure, Except.pure]
    cases dp.node i with
    | error e => simp
    | ok m =>
      cases h : r.evalIS B i ((linspace b.1 b.2 n).map fun v => (s0.getD mod.calStates).set index v) with
      | error e => simp
      | ok w => exact absurd h (hlen _ (by simp [linspace]) w)

/-- **C82, Taylor expansions.**  The table of a rule found by higher-order perturbation, when the discretized
process of the model has no unstructured grid: bounds of the domain by default, rule at every state. -/
theorem C82_tabulate_taylor {ns nx : ℕ} (t : TaylorExp ns nx K) (mod : TabModel K) (hnd : mod.states.Nodup)
    (hdp : mod.process.unstructured = false) (state : String) (index : ℕ) (hidx : mod.states[index]? = some state)
    (bounds : Option (K × K)) (b : K × K)
    (hb : bounds = some b ∨ bounds = none ∧ ∃ d, mod.domain = some d ∧ d[index]? = some b) (n : ℕ) (hn : 1 ≤ n)
    (s0 : Option (List K)) (m0 : Option (List K)) (hs0 : (s0.getD mod.calStates).length = ns) (v : ℕ → Fin nx → K)
    (hv : ∀ k, k < n → ∀ s : Fin ns → K, List.ofFn s = tabState (s0.getD mod.calStates) index b.1 b.2 n k →
      (t.ops 0).call1 (.vec s) = .ok (.vec (v k))) :
    tabulate mod t.tab state bounds n s0 none m0 = .ok ((List.range n).map fun k =>
      let s := tabState (s0.getD mod.calStates) index b.1 b.2 n k
      let m := m0.getD mod.calExo
      m ++ (s ++ (List.ofFn (v k) ++ auxValues mod m s (List.ofFn (v k))))) := by
  refine tab_main mod hnd _ state index hidx bounds b.1 b.2 ?_ n hn s0 none m0
    (m0.getD mod.calExo) (fun k => List.ofFn (v k)) ?_
  · rcases hb with rfl | ⟨rfl, d, hd, hdi⟩
    · rfl
    · simp [tabBounds, TaylorExp.tab, hd, pyGet, hdi]
  · have hx : tabExo mod mod.process none m0 = .inr (m0.getD mod.calExo) := by
      cases m0 <;> simp [tabExo, hdp]
    have hlen : ∀ k, (tabState (s0.getD mod.calStates) index b.1 b.2 n k).length = ns := by
      intro k
      simp [tabState, hs0]
    -- the states as vectors
    let sv : ℕ → Fin ns → K := fun k i => (tabState (s0.getD mod.calStates) index b.1 b.2 n k).get
      (i.cast (hlen k).symm)
    have hsv : ∀ k, List.ofFn (sv k) = tabState (s0.getD mod.calStates) index b.1 b.2 n k := by
      intro k
      apply List.ext_get
      · simp [hlen k]
      · intro i h1 h2
        simp [sv]
    have h1 : ((List.range n).map (tabState (s0.getD mod.calStates) index b.1 b.2 n)).mapM
        (fun v => if h : v.length = ns then .ok (fun i : Fin ns => v.get (i.cast h.symm))
          else .error .valueError) = (Except.ok ((List.range n).map sv) : Except Err _) := by
      rw [mapM_ok_iff, List.forall₂_map_left_iff, List.forall₂_map_right_iff, List.forall₂_same]
      intro k _
      rw [dif_pos (hlen k)]
    have h2 : t.evalS ((List.range n).map sv) = .ok ((List.range n).map v) := by
      unfold TaylorExp.evalS
      rw [mapM_ok_iff, List.forall₂_map_left_iff, List.forall₂_map_right_iff, List.forall₂_same]
      intro k hk
      have := hv k (List.mem_range.1 hk) (sv k) (hsv k)
      simp only [RuleOps.call1, TaylorExp.ops, TaylorExp.evalS, List.mapM_cons, List.mapM_nil, bind, Except.bind, pure,
        Except.pure] at this
      cases h : t.evalRow (sv k) with
      | error e => rw [h] at this; cases this
      | ok w =>
        rw [h] at this
        simpa [headRow, pyGet, bind, Except.bind, pure, Except.pure] using this
    change tabEval _ mod.process _ (tabExo mod mod.process none m0) = _
    rw [hx]
    simp only [tabEval, TaylorExp.tab, h1, h2, bind, Except.bind, pure, Except.pure, List.map_map]
    rfl

/-! ### C83 -/

/-- **C83 fails for interpolated rules.**  `tabulate_2d` of an interpolated rule never returns: whatever the model and the
arguments (with one value at least for each state), it raises. -/
theorem C83_tabulate_2d_fails (r : DecisionRule K) (states : List String) (calStates : List K)
    (domain : List (String × (K × K))) (sel : Option (List String)) (i0 : ℤ) (s0 : Option (List K)) (n : ℕ × ℕ)
    (h1 : 1 ≤ n.1) (h2 : 1 ≤ n.2) (table : List (List (List K))) :
    tabulate2d states calStates domain (some r.evalIS1) sel i0 s0 n ≠ .ok table := by
  have he : ∀ s x, r.evalIS1 i0 s ≠ .ok x := by
    intro s x
    unfold DecisionRule.evalIS1
    cases r.exoGrid <;> cases r.interp <;> simp [bind, Except.bind]
    all_goals
      rename_i g
      cases pyGetInt g.nodes i0 <;> simp
  intro h
  unfold tabulate2d at h
  split at h
  · rename_i s1 s2 _
    simp only [bind, Except.bind] at h
    cases hb1 : domainGet domain s1 with
    | error e => rw [hb1] at h; cases h
    | ok b1 =>
    cases hb2 : domainGet domain s2 with
    | error e => rw [hb1, hb2] at h; cases h
    | ok b2 =>
    cases hi1 : strIndex states s1 with
    | error e => rw [hb1, hb2, hi1] at h; cases h
    | ok i1 =>
    cases hi2 : strIndex states s2 with
    | error e => rw [hb1, hb2, hi1, hi2] at h; cases h
    | ok i2 =>
    rw [hb1, hb2, hi1, hi2] at h
    simp only at h
    rw [mapM_ok_iff] at h
    have l1 : linspace b1.1 b1.2 n.1 ≠ [] := by
      intro e
      have := length_linspace' b1.1 b1.2 n.1
      rw [e] at this
      simp at this
      omega
    have l2 : linspace b2.1 b2.2 n.2 ≠ [] := by
      intro e
      have := length_linspace' b2.1 b2.2 n.2
      rw [e] at this
      simp at this
      omega
    obtain ⟨x, xs, hx⟩ := List.exists_cons_of_ne_nil l1
    obtain ⟨y, ys, hy⟩ := List.exists_cons_of_ne_nil l2
    rw [hx, List.forall₂_cons_left_iff] at h
    obtain ⟨row, _, hrow, _⟩ := h
    rw [mapM_ok_iff, hy, List.forall₂_cons_left_iff] at hrow
    obtain ⟨c, _, hc, _⟩ := hrow
    cases hv : r.evalIS1 i0 (((s0.getD calStates).set i1 x).set i2 y) with
    | error e => simp [hv] at hc
    | ok v => exact he _ _ hv
  · cases h

/-- **C83 (partial).**  For a rule whose `eval_is` accepts one vector of states (such as `ConstantDecisionRule`),
`tabulate_2d` gives, at position `(a, b)`, the state in which the two selected states take the `a`-th and `b`-th of equally spaced values over
the domain, followed by the rule there. -/
theorem C83_tabulate_2d_partial (f : List K → List K) (states : List String) (hnd : states.Nodup) (calStates : List K)
    (domain : List (String × (K × K))) (s1 s2 : String) (i1 i2 : ℕ) (h1 : states[i1]? = some s1)
    (h2 : states[i2]? = some s2) (b1 b2 : K × K) (hb1 : domain.lookup s1 = some b1) (hb2 : domain.lookup s2 = some b2)
    (i0 : ℤ) (s0 : Option (List K)) (n : ℕ × ℕ) :
    tabulate2d states calStates domain (some fun _ s => .ok (f s)) (some [s1, s2]) i0 s0 n
      = .ok ((List.range n.1).map fun a => (List.range n.2).map fun b =>
        let s := tabState (tabState (s0.getD calStates) i1 b1.1 b1.2 n.1 a) i2 b2.1 b2.2 n.2 b
        s ++ f s) := by
  unfold tabulate2d
  simp only [Option.getD_some, bind, Except.bind, domainGet, hb1, hb2, strIndex_ok h1 hnd, strIndex_ok h2 hnd, pure,
    Except.pure]
  rw [mapM_ok_iff]
  unfold linspace
  rw [List.forall₂_map_left_iff, List.forall₂_map_right_iff, List.forall₂_same]
  intro a _
  rw [mapM_ok_iff, List.forall₂_map_left_iff, List.forall₂_map_right_iff, List.forall₂_same]
  intro b _
  simp only [tabState, spaced]


/-! ### The hypotheses can be met -/

/-- A rule on one exogenous node and three endogenous nodes, tabulated at three points, for a model without auxiliaries. -/
example : ∃ g r, UniformGrid.mk' [0] [2] [3] = .ok g ∧
    DecisionRule.init (exactSplines : Splines ℚ) (.unstructured [[7]]) (.uniform g) "linear" (fun _ _ => [])
      (some ⟨[1, 3, 1], [1, 4, 9]⟩) = .ok r ∧
    tabulate ⟨["k"], [1], [7], none, ⟨true, 1, fun _ => .ok [7]⟩, none⟩
      (r.tab exactSplines ⟨true, 1, fun _ => .ok [7]⟩) "k" none 3 none none none
        = .ok [[7, 0, 1], [7, 1, 4], [7, 2, 9]] := by
  refine ⟨⟨[0], [2], [3], [[0], [1], [2]]⟩, _, ?_, rfl, ?_⟩
  · simp [UniformGrid.mk', mlinspace, linspaces, cartesian, cartesianCore, linspace, npRepeat, List.range,
      List.range.loop, bind, Except.bind, pure, Except.pure]
    norm_num
  · rw [C82_tabulate_unstructured exactSplines _ [[7]] rfl _ rfl _ (by simp) "k" 0 rfl none (0, 2) (Or.inr ⟨rfl, rfl⟩) 3
      (by norm_num) none none 0 [7] (Or.inr ⟨rfl, by norm_num, rfl⟩) rfl (fun t => [((t : ℚ) + 1) ^ 2])]
    · simp [List.range, List.range.loop, tabState, spaced, auxValues]
      norm_num
    · intro t ht
      simp only [RuleOps.call2, DecisionRule.ops, DecisionRule.evalIS, DecisionRule.coefsAt, pyGetInt, pyGet, bind,
        Except.bind, CGrid.numbaRepr, uniformAxes, pure, Except.pure, splineEval, List.mapM_cons, List.mapM_nil]
      interval_cases t <;>
      norm_num [exactSplines, Axis.pts, linspace, multilin, cellOf, List.range, List.range.loop, NdArr.row, headRow,
        tabState, spaced, pyGet, bind, Except.bind, pure, Except.pure]

end Dolo
