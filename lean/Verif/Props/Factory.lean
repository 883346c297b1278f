import Mathlib.Data.Rat.Defs
import Mathlib.Algebra.Order.Ring.Rat
import Mathlib.Data.List.Perm.Basic
import Verif.Lemmas.Factory
import Verif.Lemmas.Distribution
import Verif.Lemmas.DecisionRule

/-!
# C104: compiled functions compute the equations of the model
-/

set_option linter.unusedSectionVars false

namespace Dolo

variable {V : Type}

/-! ### Specification -/

/-- The symbols of a group. -/
def declared (symbols : PyDict (List String)) (g : String) : List String := (symbols.get? g).getD []

/-- `s[d]` is an entry of an argument. -/
def IsArgument (symbols : PyDict (List String)) (spec : Spec) (s : String) (d : ℤ) : Prop :=
  ∃ e ∈ spec.eqs, e.group ≠ "parameters" ∧ e.date = d ∧ s ∈ declared symbols e.group

/-- States and controls of date `t` are both arguments. -/
def HasDefinitionsAt (spec : Spec) (t : ℤ) : Prop :=
  (∃ e ∈ spec.eqs, e.group = "states" ∧ e.date = t) ∧ ∃ e ∈ spec.eqs, e.group = "controls" ∧ e.date = t

/-- `s[d]` is an entry of an argument, or the name of a definition at a date where both states and controls
are arguments. -/
def Known (symbols : PyDict (List String)) (names : List String) (spec : Spec) (s : String) (d : ℤ) : Prop :=
  IsArgument symbols spec s d ∨ (s ∈ names ∧ HasDefinitionsAt spec d)

/-- What an equation computes: its right-hand side if it is attached to a variable, the residual
`rhs - lhs` otherwise. -/
def Eqn.value [Sub V] (isAssign : Prop) [Decidable isAssign] (π : String → V) (ρ : String → ℤ → V) : Eqn V → V
  | .expr e => e.meaning π ρ
  | .assign l r => if isAssign then r.meaning π ρ else r.meaning π ρ - l.meaning π ρ

/-- Dated variables used for it. -/
def Eqn.vars (isAssign : Prop) [Decidable isAssign] : Eqn V → List (String × ℤ)
  | .expr e => e.vars
  | .assign l r => if isAssign then r.vars else r.vars ++ l.vars

/-- Undated symbols used for it. -/
def Eqn.syms (isAssign : Prop) [Decidable isAssign] : Eqn V → List String
  | .expr e => e.syms
  | .assign l r => if isAssign then r.syms else r.syms ++ l.syms

/-- Definitions that fit a recipe: symbols are declared, definitions have distinct names, which are not
those of variables (see C46), and a definition, moved to a date where definitions are available, uses
arguments and previous definitions that are available. -/
structure WellPosed (symbols : PyDict (List String)) (defs : List (String × Formula V)) (spec : Spec) : Prop where
  groups : ∀ e ∈ spec.eqs, (symbols.get? e.group).isSome
  argNames : (spec.eqs.map (·.name)).Nodup
  params : ∃ e ∈ spec.eqs, e.group = "parameters"
  defNames : (defs.map (·.1)).Nodup
  defFresh : ∀ d ∈ defs, ∀ t, ¬ IsArgument symbols spec d.1 t
  defs : ∀ (i : ℕ) d, defs[i]? = some d → ∀ t, HasDefinitionsAt spec t →
    (∀ k ∈ d.2.syms, k ∈ declared symbols "parameters") ∧
    ∀ su ∈ d.2.vars, Known symbols ((defs.take i).map (·.1)) spec su.1 (su.2 + t)

/-- Equations that fit a recipe. -/
structure EqsFit (symbols : PyDict (List String)) (defs : List (String × Formula V)) (spec : Spec)
    (eqs : List (Eqn V)) : Prop where
  vars : ∀ eq ∈ eqs, ∀ su ∈ eq.vars (spec.target.isSome), Known symbols (defs.map (·.1)) spec su.1 su.2
  syms : ∀ eq ∈ eqs, ∀ k ∈ eq.syms (spec.target.isSome), k ∈ declared symbols "parameters"
  /-- as many equations as variables in the target, all of the form `lhs = rhs` -/
  target : ∀ sg, spec.target = some sg → (∀ eq ∈ eqs, ∃ l r, eq = .assign l r) ∧
    ∃ names, symbols.get? sg.group = some names ∧ names.Nodup ∧ names.length = eqs.length

/-- `order` puts each line after those it uses. -/
def TriangularOrder (pr : KDict (Formula V)) (order : List ℕ) : Prop :=
  order.Perm (List.range pr.length) ∧
  ∀ (i j a b : ℕ) la lb, order[i]? = some a → order[j]? = some b → pr[a]? = some la → pr[b]? = some lb →
    lb.1 ∈ la.2.refs → j < i

/-- dolang's solver finds such an order if there is one. -/
def SolverCorrect (solver : KDict (Formula V) → List ℕ) : Prop :=
  ∀ pr, (∃ o, TriangularOrder pr o) → TriangularOrder pr (solver pr)

/-- The values `ρ` of variables and definitions satisfy the definitions at the dates where they are
available. -/
def Satisfies (defs : List (String × Formula V)) (spec : Spec) (π : String → V) (ρ : String → ℤ → V) : Prop :=
  ∀ d ∈ defs, ∀ t, HasDefinitionsAt spec t → ρ d.1 t = d.2.meaning π fun s u => ρ s (u + t)

/-- The arguments of a call: for each entry of the recipe, the values of the parameters, or of the
variables of the group at the date of the entry. -/
def argValues (symbols : PyDict (List String)) (spec : Spec) (π : String → V) (ρ : String → ℤ → V) :
    List (List V) :=
  spec.eqs.map fun e => if e.group = "parameters" then (declared symbols "parameters").map π
    else (declared symbols e.group).map fun s => ρ s e.date

/-! ### Helper lemmas -/

theorem mem_preambleDates (spec : Spec) (t : ℤ) : t ∈ preambleDates spec.eqs ↔ HasDefinitionsAt spec t := by
  simp [preambleDates, HasDefinitionsAt, and_assoc]

theorem preambleDates_nodup (l : List SpecEntry) : (preambleDates l).Nodup :=
  (List.nodup_dedup _).filter _

theorem isArgument_shift (symbols : PyDict (List String)) (spec : Spec) (k : ℤ) (s : String) (d : ℤ) :
    IsArgument symbols (shiftSpec spec k) s d ↔ IsArgument symbols spec s (d - k) := by
  constructor
  · rintro ⟨e, he, hg, hd, hs⟩
    simp only [shiftSpec, List.mem_map] at he
    obtain ⟨e0, he0, rfl⟩ := he
    by_cases hp : e0.group = "parameters"
    · simp [hp] at hg
    · simp only [hp, ne_eq, not_false_eq_true, if_true] at hg hd hs
      exact ⟨e0, he0, hp, by omega, hs⟩
  · rintro ⟨e, he, hg, hd, hs⟩
    refine ⟨⟨e.group, e.date + k, e.name⟩, ?_, hg, by simp; omega, hs⟩
    simp only [shiftSpec, List.mem_map]
    exact ⟨e, he, by simp [hg]⟩

theorem hasDefinitionsAt_shift (spec : Spec) (k t : ℤ) :
    HasDefinitionsAt (shiftSpec spec k) t ↔ HasDefinitionsAt spec (t - k) := by
  have key : ∀ g, g ≠ "parameters" → ((∃ e ∈ (shiftSpec spec k).eqs, e.group = g ∧ e.date = t) ↔
      ∃ e ∈ spec.eqs, e.group = g ∧ e.date = t - k) := by
    intro g hgp
    constructor
    · rintro ⟨e, he, hg, hd⟩
      simp only [shiftSpec, List.mem_map] at he
      obtain ⟨e0, he0, rfl⟩ := he
      by_cases hp : e0.group = "parameters"
      · simp only [hp, ne_eq, not_true_eq_false, if_false] at hg
        exact absurd hg.symm hgp
      · simp only [hp, ne_eq, not_false_eq_true, if_true] at hg hd
        exact ⟨e0, he0, hg, by omega⟩
    · rintro ⟨e, he, hg, hd⟩
      refine ⟨⟨e.group, e.date + k, e.name⟩, ?_, hg, by simp; omega⟩
      simp only [shiftSpec, List.mem_map]
      exact ⟨e, he, by simp [hg, hgp]⟩
  unfold HasDefinitionsAt
  rw [key "states" (by decide), key "controls" (by decide)]

theorem known_shift (symbols : PyDict (List String)) (names : List String) (spec : Spec) (k : ℤ)
    (s : String) (d : ℤ) :
    Known symbols names (shiftSpec spec k) s d ↔ Known symbols names spec s (d - k) := by
  unfold Known
  rw [isArgument_shift, hasDefinitionsAt_shift]

theorem wellPosed_shift (symbols : PyDict (List String)) (defs : List (String × Formula V)) (spec : Spec)
    (k : ℤ) (h : WellPosed symbols defs spec) : WellPosed symbols defs (shiftSpec spec k) where
  groups := by
    intro e he
    simp only [shiftSpec, List.mem_map] at he
    obtain ⟨e0, he0, rfl⟩ := he
    have := h.groups e0 he0
    split_ifs <;> exact this
  argNames := by
    have : (shiftSpec spec k).eqs.map (·.name) = spec.eqs.map (·.name) := by
      simp only [shiftSpec, List.map_map]
      apply List.map_congr_left
      intro e _
      simp only [Function.comp]
      split_ifs <;> rfl
    rw [this]; exact h.argNames
  params := by
    obtain ⟨e, he, hg⟩ := h.params
    refine ⟨e, ?_, hg⟩
    simp only [shiftSpec, List.mem_map]
    exact ⟨e, he, by simp [hg]⟩
  defNames := h.defNames
  defFresh := by
    intro d hd t
    rw [isArgument_shift]
    exact h.defFresh d hd _
  defs := by
    intro i d hi t ht
    rw [hasDefinitionsAt_shift] at ht
    have := h.defs i d hi _ ht
    refine ⟨this.1, fun su hsu => ?_⟩
    rw [known_shift]
    have := this.2 su hsu
    rwa [← add_sub_assoc] at this

theorem mapM_pyGet {α : Type} (pr : List α) (order : List ℕ) (h : ∀ o ∈ order, o < pr.length) :
    ∃ lines, order.mapM (fun o => pyGet pr o) = .ok lines ∧ lines.map some = order.map (fun o => pr[o]?) := by
  induction order with
  | nil => exact ⟨[], rfl, rfl⟩
  | cons o order ih =>
    obtain ⟨lines, h1, h2⟩ := ih fun o ho => h o (by simp [ho])
    have ho := h o (by simp)
    refine ⟨pr[o] :: lines, ?_, ?_⟩
    · have hg : pyGet pr o = .ok pr[o] := by simp [pyGet, ho]
      simp only [List.mapM_cons, hg, h1, bind, Except.bind, pure, Except.pure]
    · simp [h2, ho]

theorem shiftedDefs_eq (dates : List ℤ) (defs : List (String × Formula V)) (hd : dates.Nodup)
    (hn : (defs.map (·.1)).Nodup) :
    shiftedDefs dates defs = defs.flatMap fun d => dates.map fun t => (FKey.var d.1 t, d.2.shift t) := by
  unfold shiftedDefs
  rw [KDict.foldl_set_nodup _ [] ?_]
  · rfl
  · rw [List.nil_append, List.map_flatMap, List.nodup_flatMap]
    constructor
    · intro d _
      rw [List.map_map]
      apply List.Nodup.map _ hd
      intro a b hab
      simpa using hab
    · have := List.pairwise_map.mp hn
      refine this.imp ?_
      intro a b hab
      simp only [Function.onFun, List.map_map]
      intro x hx hy
      simp only [List.mem_map, Function.comp] at hx hy
      obtain ⟨t, _, rfl⟩ := hx
      obtain ⟨t', _, h2⟩ := hy
      simp only [FKey.var.injEq] at h2
      exact hab h2.1.symm

theorem mem_refs_shift (f : Formula V) (t : ℤ) (r : FKey) :
    r ∈ (f.shift t).refs ↔ (∃ su ∈ f.vars, r = .var su.1 (su.2 + t)) ∨ ∃ k ∈ f.syms, r = .sym k := by
  simp only [Formula.refs, Formula.vars_shift, Formula.syms_shift, List.map_map, List.mem_append,
    List.mem_map, Function.comp, eq_comm]

/-- a definition does not use itself nor later ones (proof device) -/
theorem wellPosed_fresh {symbols : PyDict (List String)} {defs : List (String × Formula V)} {spec : Spec}
    (h : WellPosed symbols defs spec) {i j : ℕ} {d d' : String × Formula V} (hi : defs[i]? = some d)
    (hj : defs[j]? = some d') (hij : i ≤ j) {t : ℤ} (ht : HasDefinitionsAt spec t) (t' : ℤ) :
    FKey.var d'.1 t' ∉ (d.2.shift t).refs := by
  intro hr
  rw [mem_refs_shift] at hr
  rcases hr with ⟨su, hsu, e⟩ | ⟨k, _, e⟩
  · simp only [FKey.var.injEq] at e
    rcases (h.defs i d hi t ht).2 su hsu with ha | ⟨hm, _⟩
    · rw [← e.1] at ha
      exact h.defFresh d' (List.mem_of_getElem? hj) _ ha
    · rw [← e.1, List.mem_map] at hm
      obtain ⟨d2, hd2, e2⟩ := hm
      obtain ⟨m, hm⟩ := List.mem_iff_getElem?.mp hd2
      rw [List.getElem?_take] at hm
      split_ifs at hm with hmi
      have h1 : (defs.map (·.1))[m]? = some d'.1 := by simp [hm, e2]
      have h2 : (defs.map (·.1))[j]? = some d'.1 := by simp [hj]
      have hlen : m < (defs.map (·.1)).length := (List.getElem?_eq_some_iff.mp h1).1
      have := (List.nodup_iff_injective_get.mp h.defNames)
      have hjl : j < (defs.map (·.1)).length := (List.getElem?_eq_some_iff.mp h2).1
      have hmj : (⟨m, hlen⟩ : Fin _) = ⟨j, hjl⟩ := by
        apply this
        have e1 := (List.getElem?_eq_some_iff.mp h1).2
        have e2 := (List.getElem?_eq_some_iff.mp h2).2
        simp only [List.get_eq_getElem]
        rw [e1, e2]
      have := congrArg Fin.val hmj
      simp only at this
      omega
  · cases e

theorem identity_triangular {symbols : PyDict (List String)} {defs : List (String × Formula V)} {spec : Spec}
    (h : WellPosed symbols defs spec) :
    ∃ o, TriangularOrder (shiftedDefs (preambleDates spec.eqs) defs) o := by
  rw [shiftedDefs_eq _ _ (preambleDates_nodup _) h.defNames]
  generalize hpr : (defs.flatMap fun d => (preambleDates spec.eqs).map fun t => (FKey.var d.1 t, d.2.shift t)) = pr
  have hirr : ∀ l ∈ pr, l.1 ∉ l.2.refs := by
    intro l hl
    rw [← hpr, List.mem_flatMap] at hl
    obtain ⟨d, hd, hl⟩ := hl
    rw [List.mem_map] at hl
    obtain ⟨t, ht, rfl⟩ := hl
    obtain ⟨i, hi⟩ := List.mem_iff_getElem?.mp hd
    exact wellPosed_fresh h hi hi le_rfl ((mem_preambleDates _ _).mp ht) _
  have hpw : pr.Pairwise fun la lb => lb.1 ∉ la.2.refs := by
    rw [← hpr, List.pairwise_flatMap]
    constructor
    · intro d hd
      obtain ⟨i, hi⟩ := List.mem_iff_getElem?.mp hd
      rw [List.pairwise_map]
      refine List.Pairwise.imp_of_mem (R := fun _ _ => True) ?_ (List.pairwise_iff_getElem.mpr fun _ _ _ _ _ => trivial)
      intro a b ha _ _
      exact wellPosed_fresh h hi hi le_rfl ((mem_preambleDates _ _).mp ha) _
    · rw [List.pairwise_iff_getElem]
      intro i j hi hj hij x hx y hy
      rw [List.mem_map] at hx hy
      obtain ⟨t, ht, rfl⟩ := hx
      obtain ⟨t', _, rfl⟩ := hy
      exact wellPosed_fresh h (List.getElem?_eq_getElem hi) (List.getElem?_eq_getElem hj) hij.le
        ((mem_preambleDates _ _).mp ht) _
  refine ⟨List.range pr.length, List.Perm.refl _, ?_⟩
  intro i j a b la lb hi hj ha hb hr
  have hi' := List.getElem?_eq_some_iff.mp hi
  have hj' := List.getElem?_eq_some_iff.mp hj
  obtain ⟨h1, h2⟩ := hi'
  obtain ⟨h3, h4⟩ := hj'
  simp only [List.getElem_range] at h2 h4
  subst h2 h4
  by_contra hlt
  rcases Nat.lt_or_ge i j with hij | hij
  · obtain ⟨h5, h6⟩ := List.getElem?_eq_some_iff.mp ha
    obtain ⟨h7, h8⟩ := List.getElem?_eq_some_iff.mp hb
    have := List.pairwise_iff_getElem.mp hpw i j h5 h7 hij
    rw [h6, h8] at this
    exact this hr
  · have e : i = j := by omega
    subst e
    rw [ha] at hb
    cases hb
    exact hirr la (List.mem_of_getElem? ha) hr

/-- The reordered definitions (proof device). -/
theorem reorder_lines (solver : KDict (Formula V) → List ℕ) (hs : SolverCorrect solver)
    {symbols : PyDict (List String)} {defs : List (String × Formula V)} {spec : Spec}
    (h : WellPosed symbols defs spec) :
    ∃ lines, reorderPreamble (solver (shiftedDefs (preambleDates spec.eqs) defs))
        (shiftedDefs (preambleDates spec.eqs) defs) = .ok lines ∧
      lines.Perm (defs.flatMap fun d => (preambleDates spec.eqs).map fun t => (FKey.var d.1 t, d.2.shift t)) ∧
      ∀ S : FKey → Prop, (∀ k ∈ declared symbols "parameters", S (.sym k)) →
        (∀ s d, IsArgument symbols spec s d → S (.var s d)) → OrderedLines S lines := by
  have htri := hs _ (identity_triangular h)
  revert htri
  have hkeys : ((shiftedDefs (preambleDates spec.eqs) defs).map (·.1)).Nodup := by
    rw [shiftedDefs_eq _ _ (preambleDates_nodup _) h.defNames, List.map_flatMap, List.nodup_flatMap]
    constructor
    · intro d _
      rw [List.map_map]
      apply List.Nodup.map _ (preambleDates_nodup _)
      intro a b hab
      simpa using hab
    · have := List.pairwise_map.mp h.defNames
      refine this.imp ?_
      intro a b hab
      simp only [Function.onFun, List.map_map]
      intro x hx hy
      simp only [List.mem_map, Function.comp] at hx hy
      obtain ⟨t, _, rfl⟩ := hx
      obtain ⟨t', _, h2⟩ := hy
      simp only [FKey.var.injEq] at h2
      exact hab h2.1.symm
  have hprm : ∀ l, l ∈ shiftedDefs (preambleDates spec.eqs) defs ↔
      ∃ d ∈ defs, ∃ t, HasDefinitionsAt spec t ∧ l = (FKey.var d.1 t, d.2.shift t) := by
    intro l
    rw [shiftedDefs_eq _ _ (preambleDates_nodup _) h.defNames, List.mem_flatMap]
    simp only [List.mem_map, mem_preambleDates, eq_comm]
  rw [← shiftedDefs_eq _ _ (preambleDates_nodup _) h.defNames]
  generalize shiftedDefs (preambleDates spec.eqs) defs = pr at hkeys hprm ⊢
  generalize solver pr = order
  rintro ⟨hperm, htri⟩
  obtain ⟨lines, h1, h2⟩ := mapM_pyGet pr order fun o ho => by
    have := hperm.mem_iff.mp ho
    simpa using this
  have hlp : lines.Perm pr := by
    have e1 : (lines.map some).Perm (pr.map some) := by
      rw [h2]
      refine (hperm.map _).trans (List.Perm.of_eq ?_)
      apply List.ext_getElem (by simp)
      intro i h3 h4
      simp at h3
      simp [h3]
    have := e1.filterMap id
    simpa [List.filterMap_map] using this
  refine ⟨lines, ?_, hlp, ?_⟩
  · simp only [reorderPreamble, h1, bind, Except.bind, pure, Except.pure]
    rw [KDict.foldl_set_nodup _ [] (by simpa using (hlp.map (·.1)).nodup_iff.mpr hkeys)]
    rfl
  · intro S hS1 hS2
    apply orderedLines_of
    have hline : ∀ i : ℕ, (lines[i]?).map some = (order[i]?).map fun o => pr[o]? := by
      intro i
      have := congrArg (fun l => l[i]?) h2
      simpa using this
    intro i k e hi r hr
    have hmem : (k, e) ∈ pr := hlp.mem_iff.mp (List.mem_of_getElem? hi)
    obtain ⟨d, hd, t, ht, e1⟩ := (hprm _).mp hmem
    simp only [Prod.mk.injEq] at e1
    obtain ⟨rfl, rfl⟩ := e1
    obtain ⟨m, hm⟩ := List.mem_iff_getElem?.mp hd
    obtain ⟨g1, g2⟩ := h.defs m d hm t ht
    rw [mem_refs_shift] at hr
    rcases hr with ⟨su, hsu, rfl⟩ | ⟨k, hk, rfl⟩
    · rcases g2 su hsu with ha | ⟨hn, hdt⟩
      · exact .inl (hS2 _ _ ha)
      · right
        rw [List.mem_map] at hn
        obtain ⟨d', hd', e'⟩ := hn
        have hl' : (FKey.var d'.1 (su.2 + t), d'.2.shift (su.2 + t)) ∈ pr :=
          (hprm _).mpr ⟨d', List.mem_of_mem_take hd', _, hdt, rfl⟩
        obtain ⟨j, hj⟩ := List.mem_iff_getElem?.mp (hlp.mem_iff.mpr hl')
        refine ⟨j, _, ?_, hj, by rw [e']⟩
        have hi2 := hline i
        have hj2 := hline j
        rw [hi] at hi2
        rw [hj] at hj2
        cases hoi : order[i]? with
        | none => rw [hoi] at hi2; cases hi2
        | some a =>
          cases hoj : order[j]? with
          | none => rw [hoj] at hj2; cases hj2
          | some b =>
            rw [hoi] at hi2
            rw [hoj] at hj2
            simp only [Option.map_some, Option.some.injEq] at hi2 hj2
            refine htri i j a b _ _ hoi hoj hi2.symm hj2.symm ?_
            simp only [mem_refs_shift]
            exact .inl ⟨su, hsu, by rw [e']⟩
    · exact .inl (hS1 k (g1 k hk))

/-- names of the arguments (proof device) -/
def argKeys (symbols : PyDict (List String)) (e : SpecEntry) : List FKey :=
  if e.group = "parameters" then (declared symbols "parameters").map .sym
  else (declared symbols e.group).map fun s => .var s e.date

theorem argNames_ok (symbols : PyDict (List String)) (e : SpecEntry) (h : (symbols.get? e.group).isSome) :
    argNames symbols e = .ok (argKeys symbols e) := by
  obtain ⟨g, hg⟩ := Option.isSome_iff_exists.mp h
  by_cases hp : e.group = "parameters"
  · rw [hp] at hg
    simp [argNames, argKeys, hp, PyDict.get, hg, declared, bind, Except.bind, pure, Except.pure]
  · simp [argNames, argKeys, hp, PyDict.get, hg, declared, bind, Except.bind, pure, Except.pure]

theorem argNames_error (symbols : PyDict (List String)) (e : SpecEntry) (ks : List FKey)
    (h : argNames symbols e = .ok ks) : ks = argKeys symbols e := by
  by_cases hp : e.group = "parameters"
  · cases hg : symbols.get? "parameters" with
    | none => simp [argNames, hp, PyDict.get, hg, bind, Except.bind] at h
    | some g =>
      simp only [argNames, hp, PyDict.get, hg, bind, Except.bind, if_true, pure, Except.pure,
        Except.ok.injEq] at h
      simp [argKeys, hp, declared, hg, h]
  · cases hg : symbols.get? e.group with
    | none => simp [argNames, hp, PyDict.get, hg, bind, Except.bind] at h
    | some g =>
      simp only [argNames, hp, PyDict.get, hg, bind, Except.bind, if_false, pure, Except.pure,
        Except.ok.injEq] at h
      simp [argKeys, hp, declared, hg, h]

/-- Arguments and definitions have their values after the preamble (proof device). -/
theorem preamble_env (solver : KDict (Formula V) → List ℕ) (hs : SolverCorrect solver)
    {symbols : PyDict (List String)} {defs : List (String × Formula V)} {spec : Spec}
    (h : WellPosed symbols defs spec) :
    ∃ args lines, spec.eqs.mapM (argNames symbols) = .ok args ∧ args.length = spec.eqs.length ∧
      reorderPreamble (solver (shiftedDefs (preambleDates spec.eqs) defs))
        (shiftedDefs (preambleDates spec.eqs) defs) = .ok lines ∧
      ∀ π ρ, Satisfies defs spec π ρ → ∃ env0 env,
        bindArgs args (argValues symbols spec π ρ) (fun _ => none) = .ok env0 ∧
        runPreamble lines env0 = .ok env ∧
        (∀ k ∈ declared symbols "parameters", env (.sym k) = some (π k)) ∧
        ∀ s d, Known symbols (defs.map (·.1)) spec s d → env (.var s d) = some (ρ s d) := by
  obtain ⟨lines, h1, h2, h3⟩ := reorder_lines solver hs h
  refine ⟨spec.eqs.map (argKeys symbols), lines,
    mapM_except_ok _ _ _ fun e he => argNames_ok symbols e (h.groups e he), by simp, h1, ?_⟩
  intro π ρ hsat
  have hvals : argValues symbols spec π ρ =
      (spec.eqs.map (argKeys symbols)).map fun ks => ks.map (keyVal π ρ) := by
    simp only [argValues, List.map_map]
    apply List.map_congr_left
    intro e _
    by_cases hp : e.group = "parameters"
    · simp only [Function.comp, argKeys, hp, if_true, List.map_map]
      rfl
    · simp only [Function.comp, argKeys, hp, if_false, List.map_map]
      rfl
  obtain ⟨env0, g1, g2, -⟩ := bindArgs_ok (keyVal π ρ) (spec.eqs.map (argKeys symbols)) fun _ => none
  have hp : ∀ k ∈ declared symbols "parameters", env0 (.sym k) = some (keyVal π ρ (.sym k)) := by
    intro k hk
    obtain ⟨e, he, heg⟩ := h.params
    exact g2 (argKeys symbols e) (List.mem_map_of_mem he) _ (by simp [argKeys, heg, hk])
  have ha : ∀ s d, IsArgument symbols spec s d → env0 (.var s d) = some (keyVal π ρ (.var s d)) := by
    rintro s d ⟨e, he, heg, rfl, hsd⟩
    exact g2 (argKeys symbols e) (List.mem_map_of_mem he) _ (by simp [argKeys, heg, hsd])
  obtain ⟨env, r1, r2, r3⟩ := runPreamble_ok π ρ (fun r => env0 r = some (keyVal π ρ r)) lines env0
    (h3 _ hp ha) (fun _ hr => hr) (by
      intro ke hke
      have := h2.mem_iff.mp hke
      rw [List.mem_flatMap] at this
      obtain ⟨d, hd, hk⟩ := this
      rw [List.mem_map] at hk
      obtain ⟨t, ht, rfl⟩ := hk
      simp only [keyVal, Formula.meaning_shift]
      exact hsat d hd t ((mem_preambleDates _ _).mp ht))
  refine ⟨env0, env, by rw [hvals]; exact g1, r1, fun k hk => r2 _ (hp k hk), ?_⟩
  rintro s d (hk | ⟨hn, hd⟩)
  · exact r2 _ (ha s d hk)
  · rw [List.mem_map] at hn
    obtain ⟨df, hdf, rfl⟩ := hn
    have : (FKey.var df.1 d, df.2.shift d) ∈ lines := by
      rw [h2.mem_iff, List.mem_flatMap]
      exact ⟨df, hdf, List.mem_map.mpr ⟨d, (mem_preambleDates _ _).mpr hd, rfl⟩⟩
    exact r3 _ this

/-- what is computed for an equation (proof device) -/
def Eqn.body [Sub V] (isAssign : Prop) [Decidable isAssign] : Eqn V → Formula V
  | .expr e => e
  | .assign l r => if isAssign then r else .bin (· - ·) r l

theorem Eqn.body_meaning [Sub V] (isAssign : Prop) [Decidable isAssign] (π : String → V) (ρ : String → ℤ → V)
    (eq : Eqn V) : (eq.body isAssign).meaning π ρ = eq.value isAssign π ρ := by
  cases eq with
  | expr e => rfl
  | assign l r =>
    by_cases h : isAssign
    · simp [Eqn.body, Eqn.value, h]
    · simp [Eqn.body, Eqn.value, h, Formula.meaning]

theorem Eqn.body_vars [Sub V] (isAssign : Prop) [Decidable isAssign] (eq : Eqn V) :
    (eq.body isAssign).vars = eq.vars isAssign := by
  cases eq with
  | expr e => rfl
  | assign l r =>
    by_cases h : isAssign
    · simp [Eqn.body, Eqn.vars, h]
    · simp [Eqn.body, Eqn.vars, h, Formula.vars]

theorem Eqn.body_syms [Sub V] (isAssign : Prop) [Decidable isAssign] (eq : Eqn V) :
    (eq.body isAssign).syms = eq.syms isAssign := by
  cases eq with
  | expr e => rfl
  | assign l r =>
    by_cases h : isAssign
    · simp [Eqn.body, Eqn.syms, h]
    · simp [Eqn.body, Eqn.syms, h, Formula.syms]

theorem equationBody_ok [Sub V] (spec : Spec) (k : ℤ) (eq : Eqn V)
    (h : ∀ sg, spec.target = some sg → ∃ l r, eq = .assign l r) :
    equationBody (shiftSpec spec k).target eq = .ok (eq.body spec.target.isSome) := by
  cases ht : spec.target with
  | none => cases eq <;> simp [shiftSpec, ht, equationBody, Eqn.body]
  | some sg =>
    obtain ⟨l, r, rfl⟩ := h sg ht
    simp [shiftSpec, ht, equationBody, Eqn.body]

theorem targetNames_ok (symbols : PyDict (List String)) (spec : Spec)
    (k : ℤ) (eqs : List (Eqn V))
    (h : ∀ sg, spec.target = some sg → ∃ names, symbols.get? sg.group = some names ∧ names.Nodup ∧
      names.length = eqs.length) :
    ∃ ts, targetNames symbols (shiftSpec spec k).target eqs.length = .ok ts ∧ ts.Nodup ∧
      ts.length = eqs.length := by
  cases ht : spec.target with
  | none =>
    refine ⟨_, by simp only [shiftSpec, ht, targetNames, Option.map_none]; rfl, outNames_nodup _, by simp⟩
  | some sg =>
    obtain ⟨names, h1, h2, h3⟩ := h sg ht
    refine ⟨names.map fun s => .var s (sg.date + k), ?_, ?_, by simp [h3]⟩
    · simp [shiftSpec, ht, targetNames, PyDict.get, h1, bind, Except.bind, pure, Except.pure]
    · apply List.Nodup.map _ h2
      intro a b hab
      simpa using hab

/-- The factory, and its parts (proof device). -/
theorem getFactory_parts [Sub V] (solver : KDict (Formula V) → List ℕ) (hs : SolverCorrect solver)
    (symbols : PyDict (List String)) (defs : List (String × Formula V)) (spec : Spec) (eqs : List (Eqn V))
    (k : ℤ) (h : WellPosed symbols defs spec)
    (ht : ∀ sg, spec.target = some sg → (∀ eq ∈ eqs, ∃ l r, eq = .assign l r) ∧
      ∃ names, symbols.get? sg.group = some names ∧ names.Nodup ∧ names.length = eqs.length) :
    ∃ lines, ∃ ts : List FKey, ∃ args, reorderPreamble (solver (shiftedDefs (preambleDates (shiftSpec spec k).eqs) defs))
        (shiftedDefs (preambleDates (shiftSpec spec k).eqs) defs) = .ok lines ∧
      (shiftSpec spec k).eqs.mapM (argNames symbols) = .ok args ∧ args.length = spec.eqs.length ∧
      ts.length = eqs.length ∧
      getFactory solver symbols defs spec eqs k = .ok ⟨lines,
        ts.zip (eqs.map fun eq => (eq.body spec.target.isSome).shift k), (spec.eqs.map (·.name)).zip args⟩ := by
  have hw := wellPosed_shift symbols defs spec k h
  obtain ⟨args, lines, h1, h2, h3, -⟩ := preamble_env solver hs hw
  obtain ⟨ts, t1, t2, t3⟩ := targetNames_ok symbols spec k eqs fun sg hsg => (ht sg hsg).2
  have hb : eqs.mapM (equationBody (shiftSpec spec k).target) =
      .ok (eqs.map fun eq => eq.body spec.target.isSome) :=
    mapM_except_ok _ _ _ fun eq he => equationBody_ok spec k eq fun sg hsg => (ht sg hsg).1 eq he
  have hl : (shiftSpec spec k).eqs.length = spec.eqs.length := by simp [shiftSpec]
  have hnames : (shiftSpec spec k).eqs.map (·.name) = spec.eqs.map (·.name) := by
    simp only [shiftSpec, List.map_map]
    apply List.map_congr_left
    intro e _
    simp only [Function.comp]
    split_ifs <;> rfl
  refine ⟨lines, ts, args, h3, h1, by omega, t3, ?_⟩
  simp only [getFactory, h1, t1, hb, h3, bind, Except.bind, pure, Except.pure]
  rw [kdictZip_nodup _ _ t2 (by simp [t3]), dictZip_nodup _ _ (by rw [hnames]; exact h.argNames)
    (by simp [h2]), hnames, List.map_map]
  rfl

/-! ### C104 -/

/-- **C104** (value).  For definitions and equations that fit the recipe, a function is compiled, whatever
the shift of dates; its arguments are those of the recipe, in this order.  Called with values of the
arguments, where the values of the definitions follow from them, it returns the right-hand sides of the
equations (residuals if the recipe has no target), in the order of the equations.  The shift of dates has
no effect on the result. -/
theorem C104_value [Sub V] (solver : KDict (Formula V) → List ℕ) (hs : SolverCorrect solver)
    (symbols : PyDict (List String)) (defs : List (String × Formula V)) (spec : Spec) (eqs : List (Eqn V))
    (k : ℤ) (h : WellPosed symbols defs spec) (he : EqsFit symbols defs spec eqs) :
    ∃ ff, getFactory solver symbols defs spec eqs k = .ok ff ∧
      ff.arguments.map (·.1) = spec.eqs.map (·.name) ∧
      ∀ π ρ, Satisfies defs spec π ρ →
        callFactory ff (argValues symbols spec π ρ) = .ok (eqs.map (Eqn.value spec.target.isSome π ρ)) := by
  obtain ⟨lines, ts, args, h1, h2, h3, h4, h5⟩ := getFactory_parts solver hs symbols defs spec eqs k h he.target
  refine ⟨_, h5, by simp [List.map_fst_zip, h3], ?_⟩
  intro π ρ hsat
  obtain ⟨args', lines', g1, -, g3, g4⟩ := preamble_env solver hs (wellPosed_shift symbols defs spec k h)
  rw [h2] at g1
  rw [h1] at g3
  cases g1
  cases g3
  have hsat' : Satisfies defs (shiftSpec spec k) π fun s d => ρ s (d - k) := by
    intro d hd t ht
    rw [hasDefinitionsAt_shift] at ht
    simp only
    rw [hsat d hd _ ht]
    congr 1
    funext s u
    rw [add_sub_assoc]
  have hvals : argValues symbols (shiftSpec spec k) π (fun s d => ρ s (d - k)) = argValues symbols spec π ρ := by
    simp only [argValues, shiftSpec, List.map_map]
    apply List.map_congr_left
    intro e _
    by_cases hp : e.group = "parameters"
    · simp [Function.comp, hp]
    · simp [Function.comp, hp]
  obtain ⟨env0, env, r1, r2, r3, r4⟩ := g4 π _ hsat'
  rw [hvals] at r1
  have hargs : ((spec.eqs.map (·.name)).zip args).map (·.2) = args := by
    rw [List.map_snd_zip]
    simp [h3]
  simp only [callFactory, hargs, r1, r2, bind, Except.bind]
  have hrun : ∀ eq ∈ eqs, ((eq.body spec.target.isSome).shift k).run env =
      .ok (eq.value spec.target.isSome π ρ) := by
    intro eq heq
    rw [Formula.run_ok env π (fun s d => ρ s (d - k))]
    · rw [Formula.meaning_shift]
      simp only [add_sub_cancel_right]
      rw [Eqn.body_meaning]
    · intro r hr
      rw [mem_refs_shift] at hr
      rcases hr with ⟨su, hsu, rfl⟩ | ⟨q, hq, rfl⟩
      · apply r4
        rw [known_shift, add_sub_cancel_right]
        rw [Eqn.body_vars] at hsu
        exact he.vars eq heq su hsu
      · apply r3
        rw [Eqn.body_syms] at hq
        exact he.syms eq heq q hq
  have : ∀ (ts : List FKey) (es : List (Eqn V)), ts.length = es.length → (∀ eq ∈ es, eq ∈ eqs) →
      (ts.zip (es.map fun eq => (eq.body spec.target.isSome).shift k)).mapM (fun kv => kv.2.run env) =
        .ok (es.map (Eqn.value spec.target.isSome π ρ)) := by
    intro ts
    induction ts with
    | nil =>
      intro es hl _
      have : es = [] := by simpa using hl.symm
      subst this; rfl
    | cons a ts ih =>
      intro es hl hin
      cases es with
      | nil => simp at hl
      | cons eq es =>
        simp only [List.map_cons, List.zip_cons_cons, List.mapM_cons, hrun eq (hin eq (by simp)), bind,
          Except.bind, pure, Except.pure]
        rw [ih es (by simpa using hl) fun e hE => hin e (by simp [hE])]
  exact this ts eqs h4 fun _ h => h

/-- **C104** (definitions).  The values of the definitions follow from those of the variables: whatever the
latter, there are values of the definitions that satisfy them. -/
theorem C104_definitions (symbols : PyDict (List String)) (defs : List (String × Formula V)) (spec : Spec)
    (h : WellPosed symbols defs spec) (π : String → V) (ρ₀ : String → ℤ → V) :
    ∃ ρ, Satisfies defs spec π ρ ∧ ∀ s t, s ∉ defs.map (·.1) → ρ s t = ρ₀ s t := by
  let step : (String → ℤ → V) → (String × Formula V) → (String → ℤ → V) := fun ρ d s t =>
    if s = d.1 then d.2.meaning π fun s u => ρ s (u + t) else ρ s t
  have hkeep : ∀ (l : List (String × Formula V)) (ρ : String → ℤ → V) s t, s ∉ l.map (·.1) →
      l.foldl step ρ s t = ρ s t := by
    intro l
    induction l with
    | nil => intros; rfl
    | cons d l ih =>
      intro ρ s t hs
      simp only [List.map_cons, List.mem_cons, not_or] at hs
      rw [List.foldl_cons, ih _ s t hs.2]
      simp [step, hs.1]
  refine ⟨defs.foldl step ρ₀, ?_, fun s t hs => hkeep defs ρ₀ s t hs⟩
  intro d hd t ht
  obtain ⟨i, hi⟩ := List.mem_iff_getElem?.mp hd
  obtain ⟨hlt, hget⟩ := List.getElem?_eq_some_iff.mp hi
  have hsplit : defs = defs.take i ++ d :: defs.drop (i + 1) := by
    rw [← hget, List.getElem_cons_drop hlt, List.take_append_drop]
  have hfold : defs.foldl step ρ₀ = (defs.drop (i + 1)).foldl step (step ((defs.take i).foldl step ρ₀) d) := by
    conv_lhs => rw [hsplit]
    rw [List.foldl_append, List.foldl_cons]
  have hnd : d.1 ∉ (defs.drop (i + 1)).map (·.1) := by
    have := h.defNames
    rw [hsplit, List.map_append, List.map_cons, List.nodup_append] at this
    exact (List.nodup_cons.mp this.2.1).1
  rw [hfold, hkeep _ _ _ _ hnd]
  simp only [step, if_true]
  apply Formula.meaning_congr
  intro su hsu
  have hfresh : ∀ (j : ℕ) d', defs[j]? = some d' → i ≤ j → su.1 ≠ d'.1 := by
    intro j d' hj hij e
    apply wellPosed_fresh h hi hj hij ht (su.2 + t)
    rw [mem_refs_shift]
    exact .inl ⟨su, hsu, by rw [e]⟩
  have hnd2 : su.1 ∉ (defs.drop (i + 1)).map (·.1) := by
    intro hm
    rw [List.mem_map] at hm
    obtain ⟨d', hd', e⟩ := hm
    obtain ⟨m, hm⟩ := List.mem_iff_getElem?.mp hd'
    rw [List.getElem?_drop] at hm
    exact hfresh _ d' hm (by omega) e.symm
  rw [hkeep _ _ _ _ hnd2]
  simp [hfresh i d hi le_rfl]

/-- **C104** (unknown names).  An equation that uses a variable at a date where it is neither an argument nor
an available definition can not be evaluated. -/
theorem C104_unknown [Sub V] (solver : KDict (Formula V) → List ℕ) (hs : SolverCorrect solver)
    (symbols : PyDict (List String)) (defs : List (String × Formula V)) (spec : Spec) (eqs : List (Eqn V))
    (k : ℤ) (h : WellPosed symbols defs spec)
    (ht : ∀ sg, spec.target = some sg → (∀ eq ∈ eqs, ∃ l r, eq = .assign l r) ∧
      ∃ names, symbols.get? sg.group = some names ∧ names.Nodup ∧ names.length = eqs.length)
    (eq : Eqn V) (heq : eq ∈ eqs) (su : String × ℤ) (hsu : su ∈ eq.vars (spec.target.isSome))
    (hno : ¬ Known symbols (defs.map (·.1)) spec su.1 su.2) (ff : Factory V)
    (hff : getFactory solver symbols defs spec eqs k = .ok ff) (args : List (List V)) (out : List V) :
    callFactory ff args ≠ .ok out := by
  obtain ⟨lines, ts, argk, h1, h2, h3, h4, h5⟩ := getFactory_parts solver hs symbols defs spec eqs k h ht
  rw [h5] at hff
  cases hff
  have hargs : ((spec.eqs.map (·.name)).zip argk).map (·.2) = argk := by
    rw [List.map_snd_zip]
    simp [h3]
  simp only [callFactory, hargs, bind, Except.bind]
  cases e1 : bindArgs argk args fun _ => none with
  | error e => simp
  | ok env0 =>
    cases e2 : runPreamble lines env0 with
    | error e => simp [e2]
    | ok env =>
      simp only [e2]
      intro hrun
      obtain ⟨lines', l1, l2, -⟩ := reorder_lines solver hs (wellPosed_shift symbols defs spec k h)
      rw [h1] at l1
      cases l1
      have hno' : ¬ Known symbols (defs.map (·.1)) (shiftSpec spec k) su.1 (su.2 + k) := by
        rw [known_shift, add_sub_cancel_right]; exact hno
      have henv0 : env0 (.var su.1 (su.2 + k)) = none := by
        rw [bindArgs_none argk args _ env0 e1]
        intro ks hks hmem
        rw [mapM_ok_iff] at h2
        obtain ⟨m, hm⟩ := List.mem_iff_getElem?.mp hks
        have hml := (List.getElem?_eq_some_iff.mp hm).1
        have hlen := h2.length_eq
        have := List.forall₂_iff_get.mp h2
        have hk2 := argNames_error symbols _ _ (this.2 m (by omega) hml)
        have hge : argk.get ⟨m, hml⟩ = ks := (List.getElem?_eq_some_iff.mp hm).2
        rw [hge] at hk2
        rw [hk2] at hmem
        apply hno'
        left
        unfold argKeys at hmem
        split_ifs at hmem with hp
        · simp at hmem
        · simp only [List.mem_map, FKey.var.injEq] at hmem
          obtain ⟨s, hs', rfl, hd⟩ := hmem
          exact ⟨_, List.get_mem _ _, hp, hd, hs'⟩
      have henv : env (.var su.1 (su.2 + k)) = none := by
        rw [runPreamble_none lines env0 env e2, henv0]
        intro ke hke e
        have := l2.mem_iff.mp hke
        rw [List.mem_flatMap] at this
        obtain ⟨d, hd, hkd⟩ := this
        rw [List.mem_map] at hkd
        obtain ⟨t, htt, rfl⟩ := hkd
        simp only [FKey.var.injEq] at e
        apply hno'
        right
        rw [← e.1, ← e.2]
        exact ⟨List.mem_map_of_mem hd, (mem_preambleDates _ _).mp htt⟩
      rw [mapM_ok_iff] at hrun
      obtain ⟨m, hm⟩ := List.mem_iff_getElem?.mp heq
      have hml := (List.getElem?_eq_some_iff.mp hm).1
      have hz : (ts.zip (eqs.map fun eq => (eq.body spec.target.isSome).shift k)).length = eqs.length := by
        simp [h4]
      have := List.forall₂_iff_get.mp hrun
      have hr2 := this.2 m (by omega) (by rw [← this.1]; omega)
      simp only [List.get_eq_getElem, List.getElem_zip, List.getElem_map] at hr2
      have hge : eqs[m] = eq := (List.getElem?_eq_some_iff.mp hm).2
      rw [hge] at hr2
      refine Formula.run_missing env _ (.var su.1 (su.2 + k)) ?_ henv _ hr2
      rw [mem_refs_shift]
      exact .inl ⟨su, by rw [Eqn.body_vars]; exact hsu, rfl⟩

/-- **C104** (recipes).  The dates at which definitions can be used in each type of equations. -/
theorem C104_dates (eqType : String) (spec : Spec) (h : recipe eqType = some spec) (t : ℤ) :
    HasDefinitionsAt spec t ↔
      (eqType ∈ ["arbitrage", "value", "felicity", "arbitrage_exp", "auxiliary"] ∧ t = 0) ∨
      (eqType ∈ ["arbitrage", "value", "expectation"] ∧ t = 1) ∨ (eqType = "transition" ∧ t = -1) := by
  unfold recipe at h
  split at h <;> cases h
  all_goals simp [HasDefinitionsAt, eq_comm]

/-- **C104** (recipes).  Arguments of a recipe have different names, and the last is the vector of
parameters. -/
theorem C104_recipes (eqType : String) (spec : Spec) (h : recipe eqType = some spec) :
    (spec.eqs.map (·.name)).Nodup ∧ spec.eqs.getLast? = some ⟨"parameters", 0, "p"⟩ := by
  unfold recipe at h
  split at h <;> cases h
  all_goals decide

/-- **C104** (dates of arguments).  The name of an argument tells its group and its date: there is one date for all small
letters, capital letters are one date later, and targets have date zero.  Small letters have date `-1` in `transition` and
`half_transition`, whose targets are the states of date zero, and date zero everywhere else. -/
theorem C104_argument_dates (eqType : String) (spec : Spec) (h : recipe eqType = some spec) :
    (∀ sg, spec.target = some sg → sg.date = 0) ∧
    ∀ e ∈ spec.eqs, e.name ≠ "p" →
      (e.name, e.group) ∈ [("m", "exogenous"), ("M", "exogenous"), ("s", "states"), ("S", "states"), ("x", "controls"),
        ("X", "controls"), ("v", "values"), ("V", "values"), ("a", "poststates"), ("z", "expectations")] ∧
      e.date = (if eqType = "transition" ∨ eqType = "half_transition" then -1 else 0)
        + (if e.name ∈ ["M", "S", "X", "V"] then 1 else 0) := by
  unfold recipe at h
  split at h <;> cases h
  all_goals decide

/-- **C104 does not hold** for definitions in bounds: a definition that only depends on states and
exogenous variables can be computed from the arguments of the bounds, but a bound that uses it can not be
evaluated.  The same is true of all types of equations that do not have both states and controls among
their arguments. -/
theorem C104_bounds_fails [Sub V] (solver : KDict (Formula V) → List ℕ) (hs : SolverCorrect solver)
    (symbols : PyDict (List String)) (defs : List (String × Formula V)) (eqType : String)
    (htype : eqType ∈ ["arbitrage_lb", "arbitrage_ub", "half_transition", "direct_response",
      "direct_response_egm", "reverse_state"])
    (spec : Spec) (hspec : recipe eqType = some spec) (eqs : List (Eqn V)) (k : ℤ)
    (h : WellPosed symbols defs spec)
    (ht : ∀ sg, spec.target = some sg → (∀ eq ∈ eqs, ∃ l r, eq = .assign l r) ∧
      ∃ names, symbols.get? sg.group = some names ∧ names.Nodup ∧ names.length = eqs.length)
    (eq : Eqn V) (heq : eq ∈ eqs) (d : String × Formula V) (hd : d ∈ defs) (t : ℤ)
    (hsu : (d.1, t) ∈ eq.vars (spec.target.isSome)) (ff : Factory V)
    (hff : getFactory solver symbols defs spec eqs k = .ok ff) (args : List (List V)) (out : List V) :
    callFactory ff args ≠ .ok out := by
  refine C104_unknown solver hs symbols defs spec eqs k h ht eq heq (d.1, t) hsu ?_ ff hff args out
  rintro (ha | ⟨_, hdt⟩)
  · exact h.defFresh d hd t ha
  · rw [C104_dates eqType spec hspec] at hdt
    simp only [List.mem_cons, List.not_mem_nil, or_false] at htype
    rcases htype with rfl | rfl | rfl | rfl | rfl | rfl <;> simp at hdt

/-- A solver that satisfies its contract. -/
theorem exists_solver : ∃ solver : KDict (Formula V) → List ℕ, SolverCorrect solver := by
  classical
  refine ⟨fun pr => if h : ∃ o, TriangularOrder pr o then h.choose else [], ?_⟩
  intro pr h
  simp only [h, dif_pos]
  exact h.choose_spec

/-! ### Non-vacuity -/

def facSymbols : PyDict (List String) :=
  [("exogenous", ["z"]), ("states", ["k"]), ("controls", ["i"]), ("parameters", ["alpha"])]

/-- `y[t] = z[t]*k[t]`, `c[t] = y[t] - i[t]` -/
def facDefs : List (String × Formula ℚ) :=
  [("y", .bin (· * ·) (.var "z" 0) (.var "k" 0)), ("c", .bin (· - ·) (.var "y" 0) (.var "i" 0))]

def facTransition : Spec := ⟨some ⟨"states", 0, "S"⟩, [⟨"exogenous", -1, "m"⟩, ⟨"states", -1, "s"⟩,
  ⟨"controls", -1, "x"⟩, ⟨"exogenous", 0, "M"⟩, ⟨"parameters", 0, "p"⟩]⟩

/-- `k[t] = c[t-1] + alpha` -/
def facEqs : List (Eqn ℚ) := [.assign (.var "k" 0) (.bin (· + ·) (.var "c" (-1)) (.sym "alpha"))]

theorem fac_dates (t : ℤ) : HasDefinitionsAt facTransition t ↔ t = -1 := by
  rw [C104_dates "transition" facTransition rfl]; simp

theorem fac_wellPosed : WellPosed facSymbols facDefs facTransition where
  groups := by decide
  argNames := by decide
  params := by decide
  defNames := by decide
  defFresh := by
    intro d hd t
    simp only [facDefs, List.mem_cons, List.not_mem_nil, or_false] at hd
    rintro ⟨e, he, hg, -, hs⟩
    simp only [facTransition, List.mem_cons, List.not_mem_nil, or_false] at he
    rcases hd with rfl | rfl <;> rcases he with rfl | rfl | rfl | rfl | rfl <;> revert hs <;> decide
  defs := by
    intro i d hi t ht
    rw [fac_dates] at ht
    subst ht
    have hz : IsArgument facSymbols facTransition "z" (-1) :=
      ⟨_, List.mem_cons_self, by decide, rfl, by decide⟩
    have hk : IsArgument facSymbols facTransition "k" (-1) :=
      ⟨⟨"states", -1, "s"⟩, by simp [facTransition], by decide, rfl, by decide⟩
    have hi' : IsArgument facSymbols facTransition "i" (-1) :=
      ⟨⟨"controls", -1, "x"⟩, by simp [facTransition], by decide, rfl, by decide⟩
    match i, hi with
    | 0, hi =>
      simp only [facDefs, List.getElem?_cons_zero, Option.some.injEq] at hi
      subst hi
      refine ⟨by simp [Formula.syms], ?_⟩
      intro su hsu
      simp only [Formula.vars, List.cons_append, List.nil_append, List.mem_cons, List.not_mem_nil,
        or_false] at hsu
      rcases hsu with rfl | rfl
      · exact .inl hz
      · exact .inl hk
    | 1, hi =>
      simp only [facDefs, List.getElem?_cons_succ, List.getElem?_cons_zero, Option.some.injEq] at hi
      subst hi
      refine ⟨by simp [Formula.syms], ?_⟩
      intro su hsu
      simp only [Formula.vars, List.cons_append, List.nil_append, List.mem_cons, List.not_mem_nil,
        or_false] at hsu
      rcases hsu with rfl | rfl
      · exact .inr ⟨by simp [facDefs], (fac_dates _).mpr rfl⟩
      · exact .inl hi'
    | (n + 2), hi => simp [facDefs] at hi

theorem fac_fit : EqsFit facSymbols facDefs facTransition facEqs where
  vars := by
    intro eq heq su hsu
    simp only [facEqs, List.mem_singleton] at heq
    subst heq
    simp only [facTransition, Option.isSome_some, Eqn.vars, if_true, Formula.vars, List.append_nil,
      List.mem_singleton] at hsu
    subst hsu
    exact .inr ⟨by simp [facDefs], (fac_dates _).mpr rfl⟩
  syms := by
    intro eq heq q hq
    simp only [facEqs, List.mem_singleton] at heq
    subst heq
    simp only [facTransition, Option.isSome_some, Eqn.syms, if_true, Formula.syms, List.nil_append,
      List.mem_singleton] at hq
    subst hq
    decide
  target := by
    intro sg hsg
    simp only [facTransition, Option.some.injEq] at hsg
    subst hsg
    exact ⟨by simp [facEqs], ["k"], rfl, by decide, rfl⟩

/-- Non-vacuity: the hypotheses are met, and the transition of this model, compiled with dates moved by 3
and called with `z = 2`, `k = 3`, `i = 1`, `Z = 7`, `alpha = 1/2`, returns `2*3 - 1 + 1/2`. -/
example : (∃ solver : KDict (Formula ℚ) → List ℕ, SolverCorrect solver) ∧
    WellPosed facSymbols facDefs facTransition ∧ EqsFit facSymbols facDefs facTransition facEqs ∧
    recipe "transition" = some facTransition ∧
    (getFactory (fun pr => List.range pr.length) facSymbols facDefs facTransition facEqs 3 >>= fun ff =>
      callFactory ff [[2], [3], [1], [7], [1/2]]) = .ok [11/2] :=
  ⟨exists_solver, fac_wellPosed, fac_fit, rfl, by decide +kernel⟩

/-- **C104 does not hold** for definitions with lags: `y[t] = k[t-1]` passes the checks of the definitions
(C46), but no function with definitions at date `t` can be evaluated; here the residual of `i[t] = alpha`,
which does not use the definition. -/
theorem C104_lag_fails :
    checkDefs ["alpha"] [⟨"y", 0, [], [("k", -1)], "y[t]", "k[t-1]"⟩] (variablesOf facSymbols) [] [] =
        .ok (["y"], [("y[t]", "k[t-1]")]) ∧
    (∀ args out, (getFactory (fun pr => List.range pr.length) facSymbols
        [("y", (.var "k" (-1) : Formula ℚ))] ⟨none, [⟨"exogenous", 0, "m"⟩, ⟨"states", 0, "s"⟩,
          ⟨"controls", 0, "x"⟩, ⟨"parameters", 0, "p"⟩]⟩ [.assign (.var "i" 0) (.sym "alpha")] 0 >>= fun ff =>
      callFactory ff args) ≠ .ok out) := by
  refine ⟨by decide +kernel, ?_⟩
  intro args out
  have e : getFactory (fun pr => List.range pr.length) facSymbols
      [("y", (.var "k" (-1) : Formula ℚ))] ⟨none, [⟨"exogenous", 0, "m"⟩, ⟨"states", 0, "s"⟩,
        ⟨"controls", 0, "x"⟩, ⟨"parameters", 0, "p"⟩]⟩ [.assign (.var "i" 0) (.sym "alpha")] 0 =
      .ok ⟨[(.var "y" 0, .var "k" (-1))], [(.var "out0" 0, .bin (· - ·) (.sym "alpha") (.var "i" 0))],
        [("m", [.var "z" 0]), ("s", [.var "k" 0]), ("x", [.var "i" 0]), ("p", [.sym "alpha"])]⟩ := rfl
  rw [e]
  simp only [bind, Except.bind, callFactory, List.map_cons, List.map_nil]
  cases hb : bindArgs [[.var "z" 0], [.var "k" 0], [.var "i" 0], [.sym "alpha"]] args fun _ => none with
  | error e => simp
  | ok env =>
    have : env (.var "k" (-1)) = none := by
      rw [bindArgs_none _ _ _ _ hb]
      decide
    simp [runPreamble, Formula.run, this, bind, Except.bind]

end Dolo
