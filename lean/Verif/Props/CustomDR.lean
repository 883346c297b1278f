import Mathlib.Data.List.Sort
import Mathlib.Algebra.Order.Ring.Rat
import Verif.Model.CustomDR
import Verif.Props.Factory

/-!
# C106: a rule given by formulas
-/

set_option linter.unusedSectionVars false

namespace Dolo

variable {V : Type}

/-! ### Specification -/

/-- The formulas that are not those of controls. -/
def auxFormulas (controls : List String) (values : List (FormKey × Formula V)) : List (String × Formula V) :=
  (values.filter fun kv => !decide (kv.1.name ∈ controls)).map fun kv => (kv.1.name, kv.2)

/-- The meaning of a formula given by the user: names of variables and of other formulas have the values `ρ`,
other names are parameters, with values `π`. -/
def userMeaning (vars : List String) (π ρ : String → V) (f : Formula V) : V :=
  f.meaning (fun k => if k ∈ vars then ρ k else π k) fun k _ => ρ k

/-- A formula uses, at the current date, exogenous variables, states, other formulas and parameters. -/
def UsesKnown (exogenous states controls parameters aux : List String) (f : Formula V) : Prop :=
  (∀ kd ∈ f.vars, kd.2 = 0 ∧ (kd.1 ∈ exogenous ∨ kd.1 ∈ states ∨ kd.1 ∈ aux)) ∧
  ∀ k ∈ f.syms, (k ∈ exogenous ∨ k ∈ states ∨ k ∈ aux) ∨ (k ∉ controls ∧ k ∈ parameters)

/-- Names used by a formula. -/
def Formula.names (f : Formula V) : List String := f.vars.map (·.1) ++ f.syms

/-- Formulas that define a rule: there is one for each control, they have different names, written without date; they
use what is known; and the formulas that are not for controls do not depend on each other in a circle: they can be
ranked so that each only uses formulas of lower ranks. -/
structure RuleOK (exogenous states controls parameters : List String) (values : List (FormKey × Formula V)) : Prop where
  undated : ∀ kv ∈ values, kv.1.dated = false
  names : (values.map (·.1.name)).Nodup
  given : controls.Nodup ∧ ∀ c ∈ controls, c ∈ values.map (·.1.name)
  known : ∀ kv ∈ values, UsesKnown exogenous states controls parameters
    ((auxFormulas controls values).map (·.1)) kv.2
  acyclic : ∃ rank : String → ℕ, ∀ a ∈ auxFormulas controls values, ∀ b ∈ auxFormulas controls values,
    b.1 ∈ a.2.names → rank b.1 < rank a.1

/-- All variables of the formulas. -/
def ruleVars (exogenous states controls : List String) (values : List (FormKey × Formula V)) : List String :=
  exogenous ++ states ++ controls ++ (auxFormulas controls values).map (·.1)

/-! ### Helper lemmas -/

theorem Formula.meaning_sanitize (vars : List String) (π : String → V) (ρ : String → ℤ → V) (f : Formula V) :
    (f.sanitize vars).meaning π ρ = f.meaning (fun k => if k ∈ vars then ρ k 0 else π k) ρ := by
  induction f with
  | num v => rfl
  | sym k => by_cases h : k ∈ vars <;> simp [Formula.sanitize, Formula.meaning, h]
  | var k d => rfl
  | un f a ih => simp only [Formula.sanitize, Formula.meaning]; rw [ih]
  | bin f a b iha ihb => simp only [Formula.sanitize, Formula.meaning]; rw [iha, ihb]

theorem Formula.meaning_congr_names (π π' : String → V) (ρ ρ' : String → ℤ → V) (f : Formula V)
    (h : ∀ kt ∈ f.vars, ρ kt.1 kt.2 = ρ' kt.1 kt.2) (h' : ∀ k ∈ f.syms, π k = π' k) :
    f.meaning π ρ = f.meaning π' ρ' := by
  induction f with
  | num v => rfl
  | sym k => exact h' k (by simp [Formula.syms])
  | var k t => exact h (k, t) (by simp [Formula.vars])
  | un f a ih => simp only [Formula.meaning]; rw [ih h h']
  | bin f a b iha ihb =>
    simp only [Formula.meaning]
    rw [iha (fun kt hk => h kt (by simp [Formula.vars, hk])) (fun k hk => h' k (by simp [Formula.syms, hk])),
      ihb (fun kt hk => h kt (by simp [Formula.vars, hk])) (fun k hk => h' k (by simp [Formula.syms, hk]))]

theorem mem_refs_sanitize (vars : List String) (f : Formula V) (r : FKey) :
    r ∈ (f.sanitize vars).refs ↔
      (∃ kd ∈ f.vars, r = .var kd.1 kd.2) ∨ ∃ k ∈ f.syms, r = if k ∈ vars then .var k 0 else .sym k := by
  induction f with
  | num v => simp [Formula.sanitize, Formula.refs, Formula.vars, Formula.syms]
  | sym k => by_cases h : k ∈ vars <;> simp [Formula.sanitize, Formula.refs, Formula.vars, Formula.syms, h]
  | var k d => simp [Formula.sanitize, Formula.refs, Formula.vars, Formula.syms]
  | un f a ih => simpa only [Formula.sanitize, Formula.refs, Formula.vars, Formula.syms] using ih
  | bin f a b iha ihb =>
    have e : r ∈ ((Formula.bin f a b).sanitize vars).refs ↔
        r ∈ (a.sanitize vars).refs ∨ r ∈ (b.sanitize vars).refs := by
      simp only [Formula.sanitize, Formula.refs, Formula.vars, Formula.syms, List.map_append, List.mem_append]
      tauto
    rw [e, iha, ihb]
    simp only [Formula.vars, Formula.syms, List.mem_append]
    constructor
    · rintro ((⟨kd, h, e⟩ | ⟨k, h, e⟩) | (⟨kd, h, e⟩ | ⟨k, h, e⟩))
      · exact .inl ⟨kd, .inl h, e⟩
      · exact .inr ⟨k, .inl h, e⟩
      · exact .inl ⟨kd, .inr h, e⟩
      · exact .inr ⟨k, .inr h, e⟩
    · rintro (⟨kd, h | h, e⟩ | ⟨k, h | h, e⟩)
      · exact .inl (.inl ⟨kd, h, e⟩)
      · exact .inr (.inl ⟨kd, h, e⟩)
      · exact .inl (.inr ⟨k, h, e⟩)
      · exact .inr (.inr ⟨k, h, e⟩)

/-- Lines reordered by a triangular order (proof device). -/
theorem reorder_triangular (pr : KDict (Formula V)) (order : List ℕ) (hkeys : (pr.map (·.1)).Nodup)
    (ht : TriangularOrder pr order) (S : FKey → Prop)
    (hrefs : ∀ l ∈ pr, ∀ r ∈ l.2.refs, S r ∨ ∃ l' ∈ pr, l'.1 = r) :
    ∃ lines, reorderPreamble order pr = .ok lines ∧ lines.Perm pr ∧ OrderedLines S lines := by
  obtain ⟨hperm, htri⟩ := ht
  obtain ⟨lines, h1, h2⟩ := mapM_pyGet pr order fun o ho => by
    have := hperm.mem_iff.mp ho
    simpa using this
  have hlp : lines.Perm pr := by
    have e1 : (lines.map some).Perm (pr.map some) := by
      rw [h2]
      refine (hperm.map _).trans (List.Perm.of_eq ?_)
      apply List.ext_getElem (by simp)
      intro i h3 h4
      simp at h3
      simp [h3]
    have := e1.filterMap id
    simpa [List.filterMap_map] using this
  refine ⟨lines, ?_, hlp, ?_⟩
  · simp only [reorderPreamble, h1, bind, Except.bind, pure, Except.pure]
    rw [KDict.foldl_set_nodup _ [] (by simpa using (hlp.map (·.1)).nodup_iff.mpr hkeys)]
    rfl
  · apply orderedLines_of
    have hline : ∀ i : ℕ, (lines[i]?).map some = (order[i]?).map fun o => pr[o]? := by
      intro i
      have := congrArg (fun l => l[i]?) h2
      simpa using this
    intro i k e hi r hr
    rcases hrefs (k, e) (hlp.mem_iff.mp (List.mem_of_getElem? hi)) r hr with h | ⟨l', hl', rfl⟩
    · exact .inl h
    · right
      obtain ⟨j, hj⟩ := List.mem_iff_getElem?.mp (hlp.mem_iff.mpr hl')
      refine ⟨j, l', ?_, hj, rfl⟩
      have hi2 := hline i
      have hj2 := hline j
      rw [hi] at hi2
      rw [hj] at hj2
      cases hoi : order[i]? with
      | none => rw [hoi] at hi2; cases hi2
      | some a =>
        cases hoj : order[j]? with
        | none => rw [hoj] at hj2; cases hj2
        | some b =>
          rw [hoi] at hi2
          rw [hoj] at hj2
          simp only [Option.map_some, Option.some.injEq] at hi2 hj2
          exact htri i j a b _ _ hoi hoj hi2.symm hj2.symm hr

/-- Lines with ranks can be ordered (proof device). -/
theorem exists_triangular (pr : KDict (Formula V)) (rank : FKey → ℕ)
    (h : ∀ a ∈ pr, ∀ b ∈ pr, b.1 ∈ a.2.refs → rank b.1 < rank a.1) : ∃ o, TriangularOrder pr o := by
  let key : ℕ → ℕ := fun i => match pr[i]? with
    | some l => rank l.1
    | none => 0
  let r : ℕ → ℕ → Prop := fun i j => key i ≤ key j
  have : Std.Total r := ⟨fun a b => le_total _ _⟩
  have : IsTrans ℕ r := ⟨fun a b c h1 h2 => le_trans h1 h2⟩
  let _ : DecidableRel r := fun a b => inferInstanceAs (Decidable (key a ≤ key b))
  refine ⟨(List.range pr.length).insertionSort r, List.perm_insertionSort r _, ?_⟩
  intro i j a b la lb hi hj ha hb hr
  by_contra hlt
  have hrank := h la (List.mem_of_getElem? ha) lb (List.mem_of_getElem? hb) hr
  have ka : key a = rank la.1 := by simp [key, ha]
  have kb : key b = rank lb.1 := by simp [key, hb]
  rcases Nat.lt_or_ge i j with hij | hij
  · have hp := List.pairwise_insertionSort r (List.range pr.length)
    obtain ⟨hil, hig⟩ := List.getElem?_eq_some_iff.mp hi
    obtain ⟨hjl, hjg⟩ := List.getElem?_eq_some_iff.mp hj
    have := List.pairwise_iff_getElem.mp hp i j hil hjl hij
    rw [hig, hjg] at this
    have this : key a ≤ key b := this
    omega
  · have e : i = j := by omega
    subst e
    rw [hi] at hj
    cases hj
    omega

theorem text_of_undated {k : FormKey} (h : k.dated = false) : k.text = k.name := by simp [FormKey.text, h]

theorem auxFormulas_eq {controls : List String} {values : List (FormKey × Formula V)}
    (hu : ∀ kv ∈ values, kv.1.dated = false) :
    (values.filter fun kv => !decide (kv.1.text ∈ controls)) =
      values.filter fun kv => !decide (kv.1.name ∈ controls) := by
  apply List.filter_congr
  intro kv hkv
  rw [text_of_undated (hu kv hkv)]

theorem mem_auxFormulas {controls : List String} {values : List (FormKey × Formula V)} {a : String × Formula V} :
    a ∈ auxFormulas controls values ↔ ∃ kv ∈ values, kv.1.name ∉ controls ∧ (kv.1.name, kv.2) = a := by
  simp [auxFormulas, and_assoc]

/-! ### C106 -/

/-- **C106** (value).  A rule given by formulas returns, for each control in the order of the model, the value of its
formula; names of other formulas stand for their values, in whatever order formulas are given. -/
theorem C106_value (solver : KDict (Formula V) → List ℕ) (hs : SolverCorrect solver)
    (exogenous states controls parameters : List String) (values : List (FormKey × Formula V))
    (h : RuleOK exogenous states controls parameters values) :
    ∃ ff, customFactory solver exogenous states controls parameters values = .ok ff ∧
      ∀ π ρ : String → V,
        (∀ a ∈ auxFormulas controls values,
          ρ a.1 = userMeaning (ruleVars exogenous states controls values) π ρ a.2) →
        ∃ out, customEval ff (parameters.map π) (exogenous.map ρ) (states.map ρ) = .ok out ∧
          List.Forall₂ (fun c v => ∃ kv ∈ values, kv.1.name = c ∧
            v = userMeaning (ruleVars exogenous states controls values) π ρ kv.2) controls out := by
  -- the formula of each control
  have hget : ∀ c ∈ controls, ∃ kv ∈ values, kv.1.name = c ∧ cget values c = .ok kv.2 := by
    intro c hc
    have := h.given.2 c hc
    rw [List.mem_map] at this
    obtain ⟨kv0, hkv0, e0⟩ := this
    cases hf : values.find? fun kv => decide (kv.1.text = c) with
    | none =>
      have := List.find?_eq_none.mp hf kv0 hkv0
      rw [text_of_undated (h.undated kv0 hkv0)] at this
      simp [e0] at this
    | some kv =>
      have hm := List.mem_of_find?_eq_some hf
      have hp := List.find?_some hf
      simp only [decide_eq_true_eq] at hp
      rw [text_of_undated (h.undated kv hm)] at hp
      exact ⟨kv, hm, hp, by simp [cget, hf]⟩
  have heqs : ∃ es, controls.mapM (cget values) = .ok es ∧
      List.Forall₂ (fun c e => ∃ kv ∈ values, kv.1.name = c ∧ kv.2 = e) controls es := by
    have : ∀ cs : List String, (∀ c ∈ cs, c ∈ controls) → ∃ es, cs.mapM (cget values) = .ok es ∧
        List.Forall₂ (fun c e => ∃ kv ∈ values, kv.1.name = c ∧ kv.2 = e) cs es := by
      intro cs
      induction cs with
      | nil => exact fun _ => ⟨[], rfl, .nil⟩
      | cons c cs ih =>
        intro hcs
        obtain ⟨es, h1, h2⟩ := ih fun x hx => hcs x (by simp [hx])
        obtain ⟨kv, hkv, h3, h4⟩ := hget c (hcs c (by simp))
        exact ⟨kv.2 :: es, by simp [List.mapM_cons, h1, h4, bind, Except.bind, pure, Except.pure],
          .cons ⟨kv, hkv, h3, rfl⟩ h2⟩
    exact this controls fun _ h => h
  obtain ⟨es, hes, hes2⟩ := heqs
  -- the preamble
  have hvars : exogenous ++ states ++ controls ++
      (values.filter fun kv => !decide (kv.1.text ∈ controls)).map (·.1.text) =
      ruleVars exogenous states controls values := by
    rw [auxFormulas_eq h.undated]
    unfold ruleVars auxFormulas
    rw [List.map_map]
    congr 1
    apply List.map_congr_left
    intro kv hkv
    exact text_of_undated (h.undated kv (List.mem_of_mem_filter hkv))
  generalize hV : ruleVars exogenous states controls values = vs at hvars ⊢
  have hpr : (values.filter fun kv => !decide (kv.1.text ∈ controls)).foldl
      (fun d kv => KDict.set d (.var kv.1.name 0) (kv.2.sanitize vs)) [] =
      (auxFormulas controls values).map fun a => (FKey.var a.1 0, a.2.sanitize vs) := by
    rw [auxFormulas_eq h.undated]
    have e : ∀ l : List (FormKey × Formula V), l.foldl
        (fun d kv => KDict.set d (.var kv.1.name 0) (kv.2.sanitize vs)) [] =
        (l.map fun kv => (FKey.var kv.1.name 0, kv.2.sanitize vs)).foldl
          (fun d kv => KDict.set d kv.1 kv.2) [] := by
      intro l
      rw [List.foldl_map]
    rw [e, KDict.foldl_set_nodup _ [] ?_]
    · simp [auxFormulas]
    · rw [List.nil_append, List.map_map]
      have hn : ((values.filter fun kv => !decide (kv.1.name ∈ controls)).map (·.1.name)).Nodup :=
        h.names.sublist (List.filter_sublist.map _)
      have := hn.map (f := fun s => FKey.var s 0) (fun a b hab => by simpa using hab)
      rwa [List.map_map] at this
  have hkeys : (((auxFormulas controls values).map fun a => (FKey.var a.1 0, a.2.sanitize vs)).map (·.1)).Nodup := by
    have hn : ((values.filter fun kv => !decide (kv.1.name ∈ controls)).map (·.1.name)).Nodup :=
      h.names.sublist (List.filter_sublist.map _)
    have := hn.map (f := fun s => FKey.var s 0) (fun a b hab => by simpa using hab)
    rw [List.map_map] at this
    simp only [auxFormulas, List.map_map]
    exact this
  have hin : ∀ k, (k ∈ exogenous ∨ k ∈ states ∨ k ∈ (auxFormulas controls values).map (·.1)) → k ∈ vs := by
    intro k hk
    rw [← hV]
    simp only [ruleVars, List.mem_append]
    tauto
  -- names used by a formula
  have hknown : ∀ kv ∈ values, ∀ r ∈ (kv.2.sanitize vs).refs,
      (∃ k, (k ∈ exogenous ∨ k ∈ states) ∧ r = .var k 0) ∨ (∃ k ∈ parameters, r = .sym k) ∨
        ∃ a ∈ auxFormulas controls values, a.1 ∈ kv.2.names ∧ r = .var a.1 0 := by
    intro kv hkv r hr
    obtain ⟨g1, g2⟩ := h.known kv hkv
    rw [mem_refs_sanitize] at hr
    rcases hr with ⟨kd, hkd, rfl⟩ | ⟨k, hk, rfl⟩
    · obtain ⟨e0, g⟩ := g1 kd hkd
      rw [e0]
      rcases g with g | g | g
      · exact .inl ⟨_, .inl g, rfl⟩
      · exact .inl ⟨_, .inr g, rfl⟩
      · rw [List.mem_map] at g
        obtain ⟨a, ha, e⟩ := g
        refine .inr (.inr ⟨a, ha, ?_, by rw [e]⟩)
        simp only [Formula.names, List.mem_append, List.mem_map]
        exact .inl ⟨kd, hkd, e.symm⟩
    · by_cases hkv' : k ∈ exogenous ∨ k ∈ states ∨ k ∈ (auxFormulas controls values).map (·.1)
      · simp only [hin k hkv', if_true]
        rcases hkv' with g | g | g
        · exact .inl ⟨_, .inl g, rfl⟩
        · exact .inl ⟨_, .inr g, rfl⟩
        · rw [List.mem_map] at g
          obtain ⟨a, ha, e⟩ := g
          refine .inr (.inr ⟨a, ha, ?_, by rw [e]⟩)
          simp only [Formula.names, List.mem_append]
          exact .inr (by rw [e]; exact hk)
      · obtain ⟨hc, hp⟩ := (g2 k hk).resolve_left hkv'
        have hno : k ∉ vs := by
          rw [← hV]
          simp only [ruleVars, List.mem_append]
          tauto
        exact .inr (.inl ⟨k, hp, by simp [hno]⟩)
  obtain ⟨rank, hrank⟩ := h.acyclic
  have hexT : ∃ o, TriangularOrder ((auxFormulas controls values).map fun a => (FKey.var a.1 0, a.2.sanitize vs)) o := by
    apply exists_triangular _ (fun r => match r with
      | .var k _ => rank k
      | .sym _ => 0)
    intro a ha b hb hr
    rw [List.mem_map] at ha hb
    obtain ⟨a, ha, rfl⟩ := ha
    obtain ⟨b, hb, rfl⟩ := hb
    apply hrank a ha b hb
    simp only [mem_refs_sanitize] at hr
    simp only [Formula.names, List.mem_append, List.mem_map]
    rcases hr with ⟨kd, hkd, e⟩ | ⟨k, hk, e⟩
    · simp only [FKey.var.injEq] at e
      exact .inl ⟨kd, hkd, e.1.symm⟩
    · split_ifs at e with hkv
      simp only [FKey.var.injEq, and_true] at e
      exact .inr (by rw [e]; exact hk)
  have hT := hs _ hexT
  obtain ⟨lines, l1, l2, l3⟩ := reorder_triangular _ _ hkeys hT
    (fun r => (∃ k, (k ∈ exogenous ∨ k ∈ states) ∧ r = .var k 0) ∨ ∃ k ∈ parameters, r = .sym k) (by
      intro l hl r hr
      rw [List.mem_map] at hl
      obtain ⟨a, ha, rfl⟩ := hl
      obtain ⟨kv, hkv, _, e⟩ := mem_auxFormulas.mp ha
      have e2 : kv.2 = a.2 := by rw [← e]
      rcases hknown kv hkv r (by rw [e2]; exact hr) with g | g | ⟨a', ha', _, rfl⟩
      · exact .inl (.inl g)
      · exact .inl (.inr g)
      · exact .inr ⟨_, List.mem_map_of_mem ha', rfl⟩)
  have hlen : controls.length = es.length := hes2.length_eq
  refine ⟨⟨lines, (controls.map fun e => FKey.var e 0).zip (es.map (Formula.sanitize vs)),
    [("m", exogenous.map fun e => .var e 0), ("s", states.map fun e => .var e 0), ("p", parameters.map .sym)]⟩, ?_, ?_⟩
  · simp only [customFactory, hes, hvars, hpr, l1, bind, Except.bind, pure, Except.pure]
    rw [kdictZip_nodup _ _ (h.given.1.map (fun a b hab => by simpa using hab)) (by simp [hlen])]
  · intro π ρ hsat
    have hum : ∀ f : Formula V, (f.sanitize vs).meaning π (fun k _ => ρ k) = userMeaning vs π ρ f := by
      intro f
      rw [Formula.meaning_sanitize]
      rfl
    obtain ⟨env0, b1, b2, -⟩ := bindArgs_ok (keyVal π fun k _ => ρ k)
      [exogenous.map fun e => .var e 0, states.map fun e => .var e 0, parameters.map .sym] fun _ => none
    have hb : bindArgs [exogenous.map fun e => FKey.var e 0, states.map fun e => .var e 0, parameters.map .sym]
        [exogenous.map ρ, states.map ρ, parameters.map π] (fun _ => none) = .ok env0 := by
      have e : ([exogenous.map fun e => FKey.var e 0, states.map fun e => .var e 0, parameters.map .sym].map
          fun ks => ks.map (keyVal π fun k _ => ρ k)) = [exogenous.map ρ, states.map ρ, parameters.map π] := by
        simp only [List.map_cons, List.map_nil, List.map_map]
        rfl
      rw [← e]
      exact b1
    obtain ⟨env, r1, r2, r3⟩ := runPreamble_ok π (fun k _ => ρ k) _ lines env0 l3 (by
        rintro r (⟨k, hk | hk, rfl⟩ | ⟨k, hk, rfl⟩)
        · exact b2 (exogenous.map fun e => .var e 0) (by simp) _ (List.mem_map_of_mem hk)
        · exact b2 (states.map fun e => .var e 0) (by simp) _ (List.mem_map_of_mem hk)
        · exact b2 (parameters.map .sym) (by simp) _ (List.mem_map_of_mem hk)) (by
        intro ke hke
        have := l2.mem_iff.mp hke
        rw [List.mem_map] at this
        obtain ⟨a, ha, rfl⟩ := this
        simp only [keyVal]
        rw [hum]
        exact hsat a ha)
    have hrun : ∀ kv ∈ values, (kv.2.sanitize vs).run env = .ok (userMeaning vs π ρ kv.2) := by
      intro kv hkv
      rw [Formula.run_ok env π fun k _ => ρ k, hum]
      intro r hr
      rcases hknown kv hkv r hr with g | g | ⟨a, ha, _, rfl⟩
      · exact r2 r (.inl g)
      · exact r2 r (.inr g)
      · exact r3 (.var a.1 0, a.2.sanitize vs) (l2.mem_iff.mpr (List.mem_map.mpr ⟨a, ha, rfl⟩))
    simp only [customEval, callFactory, List.map_cons, List.map_nil, hb, r1, bind, Except.bind]
    clear hes hlen hget l1 l2 l3 hT hexT hrank hknown hin hkeys hpr hvars hV h hsat hb b1 b2 r1 r2 r3
    induction hes2 with
    | nil => exact ⟨[], rfl, .nil⟩
    | cons hce _ ih =>
      obtain ⟨kv, hkv, hk1, rfl⟩ := hce
      obtain ⟨out, o1, o2⟩ := ih
      refine ⟨userMeaning vs π ρ kv.2 :: out, ?_, .cons ⟨kv, hkv, hk1, rfl⟩ o2⟩
      simp only [List.map_cons, List.zip_cons_cons, List.mapM_cons, hrun kv hkv, o1, bind, Except.bind, pure,
        Except.pure]

/-- **C106** (existence).  Whatever the values of the variables and of the parameters, the formulas that are not for
controls have values. -/
theorem C106_exists (exogenous states controls parameters : List String) (values : List (FormKey × Formula V))
    (h : RuleOK exogenous states controls parameters values) (π ρ₀ : String → V) :
    ∃ ρ : String → V, (∀ a ∈ auxFormulas controls values,
        ρ a.1 = userMeaning (ruleVars exogenous states controls values) π ρ a.2) ∧
      ∀ k, k ∉ (auxFormulas controls values).map (·.1) → ρ k = ρ₀ k := by
  classical
  obtain ⟨rank, hrank⟩ := h.acyclic
  have hnd : ((auxFormulas controls values).map (·.1)).Nodup := by
    have := h.names.sublist ((List.filter_sublist (p := fun kv => !decide (kv.1.name ∈ controls))).map _)
    simp only [auxFormulas, List.map_map]
    exact this
  generalize auxFormulas controls values = aux at hrank hnd ⊢
  generalize ruleVars exogenous states controls values = vs
  let T : (String → V) → String → V := fun ρ k =>
    match aux.find? fun a => decide (a.1 = k) with
    | some a => userMeaning vs π ρ a.2
    | none => ρ₀ k
  have hTaux : ∀ ρ, ∀ a ∈ aux, T ρ a.1 = userMeaning vs π ρ a.2 := by
    intro ρ a ha
    cases hf : aux.find? fun b => decide (b.1 = a.1) with
    | none =>
      have := List.find?_eq_none.mp hf a ha
      simp at this
    | some b =>
      have hb := List.mem_of_find?_eq_some hf
      have he := List.find?_some hf
      simp only [decide_eq_true_eq] at he
      have : b = a := List.inj_on_of_nodup_map hnd hb ha he
      subst this
      simp only [T, hf]
  have hTno : ∀ ρ k, k ∉ aux.map (·.1) → T ρ k = ρ₀ k := by
    intro ρ k hk
    have hf : aux.find? (fun b => decide (b.1 = k)) = none := by
      rw [List.find?_eq_none]
      intro b hb
      simp only [decide_eq_true_eq]
      rintro rfl
      exact hk (List.mem_map_of_mem hb)
    simp only [T, hf]
  have hitno : ∀ n k, k ∉ aux.map (·.1) → (T^[n] ρ₀) k = ρ₀ k := by
    intro n k hk
    cases n with
    | zero => rfl
    | succ n => rw [Function.iterate_succ_apply']; exact hTno _ k hk
  have hstab : ∀ n, ∀ a ∈ aux, rank a.1 < n → (T^[n + 1] ρ₀) a.1 = (T^[n] ρ₀) a.1 := by
    intro n
    induction n with
    | zero => intro a _ h; omega
    | succ n ih =>
      intro a ha hr
      rw [Function.iterate_succ_apply', hTaux _ a ha]
      conv_rhs => rw [Function.iterate_succ_apply', hTaux _ a ha]
      have hname : ∀ k ∈ a.2.names, (T^[n + 1] ρ₀) k = (T^[n] ρ₀) k := by
        intro k hk
        by_cases hka : k ∈ aux.map (·.1)
        · rw [List.mem_map] at hka
          obtain ⟨b, hb, rfl⟩ := hka
          have := hrank a ha b hb hk
          exact ih b hb (by omega)
        · rw [hitno _ _ hka, hitno _ _ hka]
      apply Formula.meaning_congr_names
      · intro kt hkt
        exact hname kt.1 (by simp only [Formula.names, List.mem_append, List.mem_map]; exact .inl ⟨kt, hkt, rfl⟩)
      · intro k hk
        rw [hname k (by simp only [Formula.names, List.mem_append]; exact .inr hk)]
  have hN : ∃ N, ∀ a ∈ aux, rank a.1 < N := by
    clear hTaux hTno hitno hstab hnd hrank
    clear T
    induction aux with
    | nil => exact ⟨0, by simp⟩
    | cons a aux ih =>
      obtain ⟨N, hN⟩ := ih
      refine ⟨max N (rank a.1 + 1), ?_⟩
      intro b hb
      rcases List.mem_cons.mp hb with rfl | hb
      · omega
      · have := hN b hb; omega
  obtain ⟨N, hN⟩ := hN
  refine ⟨T^[N] ρ₀, ?_, fun k hk => hitno N k hk⟩
  intro a ha
  rw [← hTaux _ a ha, ← Function.iterate_succ_apply' T N ρ₀]
  exact (hstab N a ha (hN a ha)).symm

/-! ### Non-vacuity and a counterexample -/

/-- `i = r*k`, `r = w + alpha`, `w = z`, in this order. -/
def ruleValues : List (FormKey × Formula ℚ) :=
  [(⟨"i", false⟩, .bin (· * ·) (.sym "r") (.sym "k")), (⟨"r", false⟩, .bin (· + ·) (.sym "w") (.sym "alpha")),
    (⟨"w", false⟩, .sym "z")]

theorem ruleValues_ok : RuleOK ["z"] ["k"] ["i"] ["alpha"] ruleValues where
  undated := by simp [ruleValues]
  names := by decide
  given := by decide
  known := by
    simp [ruleValues, UsesKnown, auxFormulas, Formula.vars, Formula.syms]
  acyclic := by
    refine ⟨fun s => if s = "r" then 1 else 0, ?_⟩
    simp [ruleValues, auxFormulas, Formula.names, Formula.vars, Formula.syms]

/-- Non-vacuity: the formulas above meet the hypotheses; with `z = 2`, `k = 3` and `alpha = 1` the rule is
`(2 + 1) * 3` (the lines of the preamble in the order `w`, `r`). -/
example : RuleOK ["z"] ["k"] ["i"] ["alpha"] ruleValues ∧
    (customFactory (fun _ => [1, 0]) ["z"] ["k"] ["i"] ["alpha"] ruleValues >>= fun ff =>
      customEval ff [1] [2] [3]) = .ok [9] :=
  ⟨ruleValues_ok, by decide +kernel⟩

/-- **C106 does not hold** for a key written with its date: with `w(0)` instead of `w`, the formula of `i` can still be
written with `w(0)`, but not with `w`. -/
theorem C106_dated_key_fails :
    (customFactory (fun pr => List.range pr.length) ["z"] ["k"] ["i"] ["alpha"]
      [(⟨"i", false⟩, (.var "w" 0 : Formula ℚ)), (⟨"w", true⟩, .sym "z")] >>= fun ff =>
      customEval ff [1] [2] [3]) = .ok [2] ∧
    (customFactory (fun pr => List.range pr.length) ["z"] ["k"] ["i"] ["alpha"]
      [(⟨"i", false⟩, (.sym "w" : Formula ℚ)), (⟨"w", true⟩, .sym "z")] >>= fun ff =>
      customEval ff [1] [2] [3]) = .error .nameError := by
  decide +kernel

end Dolo
