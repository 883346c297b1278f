import Verif.Model.ModelFunctions
import Verif.Lemmas.Calibration
import Verif.Lemmas.Factory
import Verif.Props.SymbolicModel

/-! # C112: the functions of a model, and the bounds that the solution methods read -/

set_option linter.unusedSectionVars false

namespace Dolo

variable {F : Type}

/-! ### Specification -/

/-- Some equation of the block carries a condition. -/
def HasConditions (eqs : List ArbEq) : Prop := ∃ e ∈ eqs, e.comp ≠ none

instance (eqs : List ArbEq) : Decidable (HasConditions eqs) :=
  decidable_of_iff (eqs.any fun e => e.comp.isSome) (by simp [HasConditions, Option.isSome_iff_ne_none])

/-- The functions that a block of the section `equations` stands for, with the texts of their equations: the equations of
the block, and for `arbitrage` the lower and the upper bounds of the conditions, if there is one. -/
def blockFunctions (b : String × List ArbEq) : PyDict (List String) :=
  (b.1, b.2.map (·.text)) ::
    (if b.1 = "arbitrage" ∧ HasConditions b.2 then
      [("arbitrage_lb", b.2.map fun e => e.bounds.1), ("arbitrage_ub", b.2.map fun e => e.bounds.2)] else [])

/-- All the functions that the equations of the model stand for. -/
def declaredFunctions (blocks : List (String × List ArbEq)) : PyDict (List String) := blocks.flatMap blockFunctions

/-! ### Proofs -/

private theorem step_eq (controls : List String) (d d' : PyDict (List String)) (b : String × List ArbEq)
    (h : equationsStep controls d b = .ok d') : d' = updateDict d (blockFunctions b) := by
  unfold equationsStep at h
  split_ifs at h with hb
  · cases ha : arbitrageEquations controls b.2 with
    | error e => rw [ha] at h; simp [bind, Except.bind] at h
    | ok e =>
      have hr := (C48_accepted_iff controls b.2).1 ⟨e, ha⟩
      have hl := arbLoop_ok controls 0 b.2 ⟨[], [], [], false⟩ (by simpa using hr)
      rw [ha] at h
      simp only [bind, Except.bind, pure, Except.pure, Except.ok.injEq] at h
      unfold arbitrageEquations at ha
      rw [hl] at ha
      have hd := (Except.ok.inj ha).symm
      simp only [List.nil_append, Bool.false_or] at hd
      subst h
      congr 1
      rw [hd]
      unfold blockFunctions
      by_cases hc : HasConditions b.2
      · rw [if_pos (show (b.2.any fun e => e.comp.isSome) = true by
          simpa [HasConditions, Option.isSome_iff_ne_none] using hc), if_pos ⟨hb, hc⟩, hb]
      · rw [if_neg (show ¬ (b.2.any fun e => e.comp.isSome) = true by
          simpa [HasConditions, Option.isSome_iff_ne_none] using hc), if_neg (fun h => hc h.2), hb]
  · simp only [pure, Except.pure, Except.ok.injEq] at h
    subst h
    unfold blockFunctions
    rw [if_neg (fun h => hb h.1)]
    rfl

private theorem foldl_eq (controls : List String) (blocks : List (String × List ArbEq)) :
    ∀ d d' : PyDict (List String), blocks.foldlM (equationsStep controls) d = .ok d' →
      d' = updateDict d (declaredFunctions blocks) := by
  induction blocks with
  | nil =>
    intro d d' h
    simp only [List.foldlM_nil, pure, Except.pure, Except.ok.injEq] at h
    subst h; rfl
  | cons b rest ih =>
    intro d d' h
    rw [List.foldlM_cons] at h
    cases hs : equationsStep controls d b with
    | error e => rw [hs] at h; simp [bind, Except.bind] at h
    | ok d1 =>
      rw [hs] at h
      simp only [bind, Except.bind] at h
      have h1 := step_eq controls d d1 b hs
      have h2 := ih d1 d' h
      rw [h2, h1]
      unfold updateDict declaredFunctions
      rw [List.flatMap_cons, List.foldl_append]

/-- The equations of a model are those it declares. -/
private theorem equations_eq (controls : List String) (blocks : List (String × List ArbEq))
    (hnd : ((declaredFunctions blocks).map (·.1)).Nodup) (d : PyDict (List String))
    (h : modelEquations controls blocks = .ok d) : d = declaredFunctions blocks := by
  have := foldl_eq controls blocks [] d h
  rw [this]
  unfold updateDict
  rw [PyDict.foldl_set_nodup _ _ (by simpa using hnd)]
  simp

private theorem compile_fold (build : String → Spec → List String → Except Err F) (aux : Option (List String))
    (eqs : PyDict (List String)) (names : List String) :
    ∀ d r : LoosyDict F, names.foldlM (compileStep build aux eqs) d = .ok r →
      r.equivalences = d.equivalences ∧
      (∀ name ∈ names, ∃ i f, factoryInput aux eqs name = .ok i ∧ build name i.1 i.2 = .ok f ∧
        r.store.get? name = some f) ∧
      (∀ name, name ∉ names → r.store.get? name = d.store.get? name) := by
  induction names with
  | nil =>
    intro d r h
    simp only [List.foldlM_nil, pure, Except.pure, Except.ok.injEq] at h
    subst h
    exact ⟨rfl, by simp, fun _ _ => rfl⟩
  | cons a rest ih =>
    intro d r h
    rw [List.foldlM_cons] at h
    unfold compileStep at h
    cases hi : factoryInput aux eqs a with
    | error e => rw [hi] at h; simp [bind, Except.bind] at h
    | ok i =>
      cases hf : build a i.1 i.2 with
      | error e => rw [hi] at h; simp [bind, Except.bind, hf] at h
      | ok f =>
        rw [hi] at h
        simp only [bind, Except.bind, hf, pure, Except.pure] at h
        obtain ⟨k1, k2, k3⟩ := ih _ _ h
        refine ⟨k1, ?_, ?_⟩
        · intro name hn
          by_cases hr : name ∈ rest
          · exact k2 name hr
          · have : name = a := by
              rcases List.mem_cons.1 hn with h | h
              · exact h
              · exact absurd h hr
            subst this
            refine ⟨i, f, hi, hf, ?_⟩
            rw [k3 name hr]
            simp [LoosyDict.setitem, PyDict.get?_set]
        · intro name hn
          rw [k3 name fun h => hn (List.mem_cons_of_mem _ h)]
          have : name ≠ a := fun h => hn (by simp [h])
          simp [LoosyDict.setitem, PyDict.get?_set, this]

private theorem contains_iff (fs : LoosyDict F) (name : String) :
    fs.contains name = true ↔ ∃ f, fs.store.get? name = some f := by
  unfold LoosyDict.contains
  exact PyDict.has_iff _ _

private theorem functions_spec (build : String → Spec → List String → Except Err F) (controls : List String)
    (aux : Option (List String)) (nDefs : ℕ) (blocks : List (String × List ArbEq))
    (hnd : ((declaredFunctions blocks).map (·.1)).Nodup) (fs : LoosyDict F)
    (h : modelFunctions build controls aux nDefs blocks = .ok fs) :
    fs.equivalences = [("equilibrium", "arbitrage"), ("optimality", "arbitrage")] ∧
    (∀ name ∈ (declaredFunctions blocks).map (·.1) ++ (if nDefs > 0 then ["auxiliary"] else []),
      ∃ i f, factoryInput aux (declaredFunctions blocks) name = .ok i ∧ build name i.1 i.2 = .ok f ∧
        fs.store.get? name = some f) ∧
    (∀ name, name ∉ (declaredFunctions blocks).map (·.1) ++ (if nDefs > 0 then ["auxiliary"] else []) →
      fs.store.get? name = none) := by
  unfold modelFunctions at h
  cases he : modelEquations controls blocks with
  | error e => rw [he] at h; simp [bind, Except.bind] at h
  | ok d =>
    rw [he] at h
    simp only [bind, Except.bind] at h
    have hd := equations_eq controls blocks hnd d he
    subst hd
    exact compile_fold build aux _ _ _ _ h

/-! ### C112 -/

/-- **C112.**  The functions of a model are those that its equations declare, one for each block and the bounds of the
conditions, each compiled with its own recipe from its own equations; and `auxiliary`, if there are definitions. -/
theorem C112_functions (build : String → Spec → List String → Except Err F) (controls : List String)
    (aux : Option (List String)) (nDefs : ℕ) (blocks : List (String × List ArbEq))
    (hnd : ((declaredFunctions blocks).map (·.1)).Nodup) (fs : LoosyDict F)
    (h : modelFunctions build controls aux nDefs blocks = .ok fs) :
    (∀ name, fs.contains name = true ↔ (name ∈ (declaredFunctions blocks).map (·.1) ∨ name = "auxiliary" ∧ 0 < nDefs)) ∧
    (∀ name texts, name ≠ "auxiliary" → (name, texts) ∈ declaredFunctions blocks →
      ∃ spec f, recipe name = some spec ∧ build name spec texts = .ok f ∧ fs.getitem name = .ok f) ∧
    (0 < nDefs → ∃ spec l f, recipe "auxiliary" = some spec ∧ aux = some l ∧ build "auxiliary" spec l = .ok f ∧
      fs.getitem "auxiliary" = .ok f) := by
  obtain ⟨k1, k2, k3⟩ := functions_spec build controls aux nDefs blocks hnd fs h
  have hget : ∀ name f, name ≠ "equilibrium" → name ≠ "optimality" → fs.store.get? name = some f →
      fs.getitem name = .ok f := by
    intro name f h1 h2 h3
    have : PyDict.get? fs.equivalences name = none := by
      rw [k1]
      simp [PyDict.get?_cons, PyDict.get?_nil, Ne.symm h1, Ne.symm h2]
    simp [LoosyDict.getitem, this, PyDict.get, h3]
  refine ⟨?_, ?_, ?_⟩
  · intro name
    rw [contains_iff]
    constructor
    · rintro ⟨f, hf⟩
      by_contra hc
      have : name ∉ (declaredFunctions blocks).map (·.1) ++ (if nDefs > 0 then ["auxiliary"] else []) := by
        intro hm
        apply hc
        rcases List.mem_append.1 hm with hm | hm
        · exact .inl hm
        · split_ifs at hm with h0
          · exact .inr ⟨by simpa using hm, h0⟩
          · simp at hm
      rw [k3 name this] at hf
      simp at hf
    · intro hm
      obtain ⟨i, f, -, -, hf⟩ := k2 name (by
        rcases hm with hm | ⟨rfl, hm⟩
        · exact List.mem_append_left _ hm
        · exact List.mem_append_right _ (by rw [if_pos hm]; simp))
      exact ⟨f, hf⟩
  · intro name texts hna hmem
    obtain ⟨i, f, hi, hb, hf⟩ := k2 name (List.mem_append_left _ (List.mem_map_of_mem (f := (·.1)) hmem))
    have hg := PyDict.get?_of_mem_nodup _ hnd hmem
    unfold factoryInput at hi
    rw [if_neg hna] at hi
    simp only [PyDict.get, hg, bind, Except.bind] at hi
    cases hr : recipe name with
    | none => rw [hr] at hi; simp at hi
    | some spec =>
      rw [hr] at hi
      simp only [Except.ok.injEq] at hi
      subst hi
      refine ⟨spec, f, rfl, hb, hget name f ?_ ?_ hf⟩
      · rintro rfl; simp [recipe] at hr
      · rintro rfl; simp [recipe] at hr
  · intro h0
    obtain ⟨i, f, hi, hb, hf⟩ := k2 "auxiliary" (List.mem_append_right _ (by rw [if_pos h0]; simp))
    unfold factoryInput at hi
    rw [if_pos rfl] at hi
    cases aux with
    | none => simp [bind, Except.bind] at hi
    | some l =>
      cases hr : recipe "auxiliary" with
      | none => simp [recipe] at hr
      | some spec =>
        rw [hr] at hi
        simp only [bind, Except.bind, Except.ok.injEq] at hi
        subst hi
        exact ⟨spec, l, f, rfl, rfl, hb, hget _ f (by decide) (by decide) hf⟩

/-- **C112, bounds.**  If the block `arbitrage` has a condition, time iteration, improved time iteration, the endogenous
grid method and perfect foresight all read the same two functions: the lower and upper bounds written in the conditions,
infinite for the equations without condition. -/
theorem C112_bounds (build : String → Spec → List String → Except Err F) (controls : List String)
    (aux : Option (List String)) (nDefs : ℕ) (blocks : List (String × List ArbEq))
    (hnd : ((declaredFunctions blocks).map (·.1)).Nodup) (fs : LoosyDict F)
    (h : modelFunctions build controls aux nDefs blocks = .ok fs) (eqs : List ArbEq)
    (hb : ("arbitrage", eqs) ∈ blocks) (hc : HasConditions eqs) :
    ∃ spec lb ub, recipe "arbitrage_lb" = some spec ∧ recipe "arbitrage_ub" = some spec ∧
      build "arbitrage_lb" spec (eqs.map fun e => e.bounds.1) = .ok lb ∧
      build "arbitrage_ub" spec (eqs.map fun e => e.bounds.2) = .ok ub ∧
      tiBoundFunctions true fs = .ok (some (lb, ub)) ∧ itiBoundFunctions fs = .ok (lb, ub) ∧
      egmBoundFunctions fs = .ok (lb, ub) ∧ xBounds fs = .ok (some (lb, ub)) := by
  obtain ⟨c1, c2, -⟩ := C112_functions build controls aux nDefs blocks hnd fs h
  obtain ⟨k1, k2, k3⟩ := functions_spec build controls aux nDefs blocks hnd fs h
  have m1 : ("arbitrage_lb", eqs.map fun e => e.bounds.1) ∈ declaredFunctions blocks :=
    List.mem_flatMap.2 ⟨_, hb, by simp [blockFunctions, hc]⟩
  have m2 : ("arbitrage_ub", eqs.map fun e => e.bounds.2) ∈ declaredFunctions blocks :=
    List.mem_flatMap.2 ⟨_, hb, by simp [blockFunctions, hc]⟩
  obtain ⟨s1, lb, r1, b1, g1⟩ := c2 _ _ (by decide) m1
  obtain ⟨s2, ub, r2, b2, g2⟩ := c2 _ _ (by decide) m2
  have hs : s1 = s2 := by
    have : recipe "arbitrage_lb" = recipe "arbitrage_ub" := rfl
    rw [this, r2] at r1
    exact (Option.some.inj r1).symm
  subst hs
  have h1 : fs.contains "arbitrage_lb" = true := (c1 _).2 (.inl (List.mem_map_of_mem (f := (·.1)) m1))
  have h2 : fs.contains "arbitrage_ub" = true := (c1 _).2 (.inl (List.mem_map_of_mem (f := (·.1)) m2))
  have h3 : fs.contains "controls_ub" = false := by
    by_contra hcu
    have hcu : fs.contains "controls_ub" = true := by simpa using hcu
    rcases (c1 _).1 hcu with hm | ⟨hm, -⟩
    · obtain ⟨⟨n, texts⟩, hm, hn⟩ := List.mem_map.1 hm
      simp only [] at hn
      subst hn
      obtain ⟨spec, f, r, -⟩ := c2 _ _ (by decide) hm
      simp [recipe] at r
    · simp at hm
  have e1 : fs.store.get? "arbitrage_lb" = some lb := by
    have : PyDict.get? fs.equivalences "arbitrage_lb" = none := by rw [k1]; decide
    simp only [LoosyDict.getitem, this, PyDict.get] at g1
    cases hx : PyDict.get? fs.store "arbitrage_lb" with
    | none => rw [hx] at g1; simp at g1
    | some v => rw [hx] at g1; simp only [Except.ok.injEq] at g1; rw [g1]
  have e2 : fs.store.get? "arbitrage_ub" = some ub := by
    have : PyDict.get? fs.equivalences "arbitrage_ub" = none := by rw [k1]; decide
    simp only [LoosyDict.getitem, this, PyDict.get] at g2
    cases hx : PyDict.get? fs.store "arbitrage_ub" with
    | none => rw [hx] at g2; simp at g2
    | some v => rw [hx] at g2; simp only [Except.ok.injEq] at g2; rw [g2]
  refine ⟨s1, lb, ub, r1, r2, b1, b2, ?_, ?_, ?_, ?_⟩
  · simp [tiBoundFunctions, h1, readPair, g1, g2, bind, Except.bind, pure, Except.pure, Functor.map, Except.map]
  · simp [itiBoundFunctions, readPair, g1, g2, bind, Except.bind, pure, Except.pure]
  · simp [egmBoundFunctions, PyDict.get, e1, e2, bind, Except.bind, pure, Except.pure]
  · simp [xBounds, h2, h3, readPair, g1, g2, bind, Except.bind, pure, Except.pure, Functor.map, Except.map]

/-- **C112, no bounds.**  Without any condition, time iteration and perfect foresight impose no bound. -/
theorem C112_unbounded (build : String → Spec → List String → Except Err F) (controls : List String)
    (aux : Option (List String)) (nDefs : ℕ) (blocks : List (String × List ArbEq))
    (hnd : ((declaredFunctions blocks).map (·.1)).Nodup) (fs : LoosyDict F)
    (h : modelFunctions build controls aux nDefs blocks = .ok fs)
    (hc : ∀ eqs, ("arbitrage", eqs) ∈ blocks → ¬ HasConditions eqs)
    (hlb : "arbitrage_lb" ∉ blocks.map (·.1)) (hub : "arbitrage_ub" ∉ blocks.map (·.1)) :
    (∀ w, tiBoundFunctions w fs = .ok none) ∧ xBounds fs = .ok none := by
  obtain ⟨c1, c2, -⟩ := C112_functions build controls aux nDefs blocks hnd fs h
  have hno : ∀ name, name ∉ blocks.map (·.1) → name ∉ (declaredFunctions blocks).map (·.1) := by
    intro name hn hm
    obtain ⟨⟨n, texts⟩, hm', hn'⟩ := List.mem_map.1 hm
    simp only [] at hn'
    subst hn'
    obtain ⟨b, hb, hm⟩ := List.mem_flatMap.1 hm'
    unfold blockFunctions at hm
    rcases List.mem_cons.1 hm with hm | hm
    · exact hn (List.mem_map.2 ⟨b, hb, by rw [← (Prod.mk.inj hm).1]⟩)
    · split_ifs at hm with hh
      · obtain ⟨b1, b2⟩ := b
        simp only [] at hh
        obtain ⟨rfl, hh⟩ := hh
        exact hc b2 hb hh
      · simp at hm
  have hcont : ∀ name, name ≠ "auxiliary" → name ∉ (declaredFunctions blocks).map (·.1) → fs.contains name = false := by
    intro name h1 h2
    by_contra hcu
    have hcu : fs.contains name = true := by simpa using hcu
    rcases (c1 _).1 hcu with hm | ⟨hm, -⟩
    · exact h2 hm
    · exact h1 hm
  have h1 := hcont "arbitrage_lb" (by decide) (hno _ hlb)
  have h2 := hcont "arbitrage_ub" (by decide) (hno _ hub)
  have h3 : fs.contains "controls_ub" = false := by
    apply hcont _ (by decide)
    intro hm
    obtain ⟨⟨n, texts⟩, hm, hn⟩ := List.mem_map.1 hm
    simp only [] at hn
    subst hn
    obtain ⟨spec, f, r, -⟩ := c2 _ _ (by decide) hm
    simp [recipe] at r
  exact ⟨fun w => by simp [tiBoundFunctions, h1], by simp [xBounds, h2, h3]⟩

/-- **C112 fails for improved time iteration.**  On every model without condition, improved time iteration raises
`KeyError`, whatever its option `with_complementarities`. -/
theorem C112_iti_fails (build : String → Spec → List String → Except Err F) (controls : List String)
    (aux : Option (List String)) (nDefs : ℕ) (blocks : List (String × List ArbEq))
    (hnd : ((declaredFunctions blocks).map (·.1)).Nodup) (fs : LoosyDict F)
    (h : modelFunctions build controls aux nDefs blocks = .ok fs)
    (hc : ∀ eqs, ("arbitrage", eqs) ∈ blocks → ¬ HasConditions eqs)
    (hlb : "arbitrage_lb" ∉ blocks.map (·.1)) (hub : "arbitrage_ub" ∉ blocks.map (·.1)) :
    itiBoundFunctions fs = .error .keyError ∧ egmBoundFunctions fs = .error .keyError := by
  obtain ⟨t1, -⟩ := C112_unbounded build controls aux nDefs blocks hnd fs h hc hlb hub
  obtain ⟨k1, -, -⟩ := functions_spec build controls aux nDefs blocks hnd fs h
  have hno : fs.store.get? "arbitrage_lb" = none := by
    have ht := t1 true
    unfold tiBoundFunctions at ht
    by_cases hcn : fs.contains "arbitrage_lb" = true
    · rw [hcn] at ht
      simp only [Bool.and_self, if_true, readPair] at ht
      cases hg1 : fs.getitem "arbitrage_lb" with
      | error e => simp [hg1, bind, Except.bind, Functor.map, Except.map] at ht
      | ok l =>
        cases hg2 : fs.getitem "arbitrage_ub" with
        | error e => simp [hg1, hg2, bind, Except.bind, Functor.map, Except.map] at ht
        | ok u => simp [hg1, hg2, bind, Except.bind, pure, Except.pure, Functor.map, Except.map] at ht
    · rw [contains_iff] at hcn
      cases hx : PyDict.get? fs.store "arbitrage_lb" with
      | none => rfl
      | some v => exact absurd ⟨v, hx⟩ hcn
  have heq : PyDict.get? fs.equivalences "arbitrage_lb" = none := by rw [k1]; decide
  constructor
  · simp [itiBoundFunctions, readPair, LoosyDict.getitem, heq, PyDict.get, hno, bind, Except.bind]
  · simp [egmBoundFunctions, PyDict.get, hno, bind, Except.bind]

private theorem get?_updateDict {α : Type} (l : PyDict α) : ∀ (d : PyDict α) (k : String),
    (k ∈ l.map (·.1) ∨ ∃ v, d.get? k = some v) → ∃ v, (updateDict d l).get? k = some v := by
  induction l with
  | nil => intro d k h; simpa [updateDict] using h
  | cons kv l ih =>
    intro d k h
    unfold updateDict
    rw [List.foldl_cons]
    refine ih (d.set kv.1 kv.2) k ?_
    by_cases hk : k = kv.1
    · right
      exact ⟨kv.2, by rw [PyDict.get?_set]; simp [hk]⟩
    · rcases h with h | ⟨v, h⟩
      · left
        rw [List.map_cons, List.mem_cons] at h
        exact h.resolve_left hk
      · right
        exact ⟨v, by rw [PyDict.get?_set]; simp [hk, h]⟩

/-- **C112 fails for value iteration.**  Whatever the model, `value_iteration` raises: a model that declares the bounds
`controls_lb` and `controls_ub` it reads can not be compiled, because there is no recipe for them, and any other model does
not have them. -/
theorem C112_value_iteration_fails (build : String → Spec → List String → Except Err F) (controls : List String)
    (aux : Option (List String)) (nDefs : ℕ) (blocks : List (String × List ArbEq)) :
    (("controls_lb" ∈ blocks.map (·.1) ∨ "controls_ub" ∈ blocks.map (·.1)) →
      ∃ e, modelFunctions build controls aux nDefs blocks = .error e) ∧
    (∀ fs, modelFunctions build controls aux nDefs blocks = .ok fs → viFunctions fs = .error .keyError) := by
  have hfi : ∀ (d : PyDict (List String)) (name : String) (i : Spec × List String), recipe name = none →
      name ≠ "auxiliary" → factoryInput aux d name ≠ .ok i := by
    intro d name i hr hn hi
    unfold factoryInput at hi
    rw [if_neg hn, hr] at hi
    cases hgd : PyDict.get d name with
    | error e => simp [hgd, bind, Except.bind] at hi
    | ok t => simp [hgd, bind, Except.bind] at hi
  cases he : modelEquations controls blocks with
  | error e => simp [modelFunctions, he, bind, Except.bind]
  | ok d =>
    have hd := foldl_eq controls blocks [] d he
    have key : ∀ fs, modelFunctions build controls aux nDefs blocks = .ok fs →
        ∀ name, recipe name = none → name ≠ "auxiliary" →
          name ∉ d.map (·.1) ∧ fs.store.get? name = none ∧
          fs.equivalences = [("equilibrium", "arbitrage"), ("optimality", "arbitrage")] := by
      intro fs h name hr hn
      unfold modelFunctions at h
      rw [he] at h
      obtain ⟨k1, k2, k3⟩ := compile_fold build aux _ _ _ _ h
      have hno : name ∉ d.map (·.1) ++ (if nDefs > 0 then ["auxiliary"] else []) := by
        intro hm
        obtain ⟨i, f, hi, -⟩ := k2 name hm
        exact hfi _ _ _ hr hn hi
      exact ⟨fun hm => hno (List.mem_append_left _ hm), k3 _ hno, k1⟩
    have hdecl : ∀ name, name ∈ blocks.map (·.1) → name ∈ d.map (·.1) := by
      intro name hn
      obtain ⟨b, hb, rfl⟩ := List.mem_map.1 hn
      obtain ⟨v, hv⟩ := get?_updateDict (declaredFunctions blocks) [] b.1 (.inl (List.mem_map.2
        ⟨(b.1, b.2.map (·.text)), List.mem_flatMap.2 ⟨b, hb, by simp [blockFunctions]⟩, rfl⟩))
      rw [← hd] at hv
      exact List.mem_map.2 ⟨_, PyDict.mem_of_get? _ hv, rfl⟩
    constructor
    · intro hb
      cases h : modelFunctions build controls aux nDefs blocks with
      | error e => exact ⟨e, rfl⟩
      | ok fs =>
        exfalso
        rcases hb with hb | hb
        · exact (key fs h "controls_lb" (by simp [recipe]) (by decide)).1 (hdecl _ hb)
        · exact (key fs h "controls_ub" (by simp [recipe]) (by decide)).1 (hdecl _ hb)
    · intro fs h
      obtain ⟨-, hlb, k1⟩ := key fs h "controls_lb" (by simp [recipe]) (by decide)
      have heq : PyDict.get? fs.equivalences "controls_lb" = none := by rw [k1]; decide
      have hcl : fs.getitem "controls_lb" = .error .keyError := by
        simp [LoosyDict.getitem, heq, PyDict.get, hlb]
      have hke : ∀ name, ∃ r, fs.getitem name = r ∧ (r = .error .keyError ∨ ∃ f, r = .ok f) := by
        intro name
        refine ⟨_, rfl, ?_⟩
        unfold LoosyDict.getitem PyDict.get
        simp only []
        split
        · exact .inr ⟨_, rfl⟩
        · exact .inl rfl
      obtain ⟨r1, e1, h1⟩ := hke "transition"
      obtain ⟨r2, e2, h2⟩ := hke "felicity"
      unfold viFunctions
      rw [e1, e2, hcl]
      rcases h1 with rfl | ⟨f1, rfl⟩
      · rfl
      · rcases h2 with rfl | ⟨f2, rfl⟩ <;> rfl

/-- **C112, other names.**  `equilibrium` and `optimality` give the function `arbitrage`; a membership test with these
names fails, and a block with one of these names can not be compiled. -/
theorem C112_alias (build : String → Spec → List String → Except Err F) (controls : List String)
    (aux : Option (List String)) (nDefs : ℕ) (blocks : List (String × List ArbEq))
    (hnd : ((declaredFunctions blocks).map (·.1)).Nodup) (fs : LoosyDict F)
    (h : modelFunctions build controls aux nDefs blocks = .ok fs) (name : String)
    (hn : name = "equilibrium" ∨ name = "optimality") :
    fs.getitem name = fs.getitem "arbitrage" ∧ fs.contains name = false ∧ name ∉ blocks.map (·.1) := by
  obtain ⟨c1, c2, -⟩ := C112_functions build controls aux nDefs blocks hnd fs h
  obtain ⟨k1, -, -⟩ := functions_spec build controls aux nDefs blocks hnd fs h
  have hne : name ≠ "auxiliary" := by rcases hn with rfl | rfl <;> decide
  have hrec : recipe name = none := by rcases hn with rfl | rfl <;> simp [recipe]
  have hnd' : name ∉ (declaredFunctions blocks).map (·.1) := by
    intro hm
    obtain ⟨⟨n, texts⟩, hm', hn'⟩ := List.mem_map.1 hm
    simp only [] at hn'
    subst hn'
    obtain ⟨spec, f, r, -⟩ := c2 _ _ hne hm'
    rw [hrec] at r
    simp at r
  refine ⟨?_, ?_, ?_⟩
  · have e1 : PyDict.get? fs.equivalences name = some "arbitrage" := by
      rw [k1]; rcases hn with rfl | rfl <;> decide
    have e2 : PyDict.get? fs.equivalences "arbitrage" = none := by rw [k1]; decide
    simp [LoosyDict.getitem, e1, e2]
  · by_contra hcu
    have hcu : fs.contains name = true := by simpa using hcu
    rcases (c1 _).1 hcu with hm | ⟨hm, -⟩
    · exact hnd' hm
    · exact hne hm
  · intro hm
    obtain ⟨b, hb, rfl⟩ := List.mem_map.1 hm
    exact hnd' (List.mem_map.2 ⟨(b.1, b.2.map (·.text)), List.mem_flatMap.2 ⟨b, hb, by simp [blockFunctions]⟩, rfl⟩)

/-- A model with a condition on its first equation. -/
def functionsExample : List (String × List ArbEq) :=
  [("transition", [⟨"k[t] = i[t-1]", none⟩]),
   ("arbitrage", [⟨"c[t] - k[t]", some ("0", ("i", 0), "k[t]")⟩, ⟨"n[t] - 1", none⟩])]

example : ((declaredFunctions functionsExample).map (·.1)).Nodup ∧
    (modelFunctions (fun name _ texts => .ok (name, texts)) ["i", "n"] none 0 functionsExample).toOption.map (·.store) =
      some [("transition", "transition", ["k[t] = i[t-1]"]), ("arbitrage", "arbitrage", ["c[t] - k[t]", "n[t] - 1"]),
        ("arbitrage_lb", "arbitrage_lb", ["0", "-inf"]), ("arbitrage_ub", "arbitrage_ub", ["k[t]", "inf"])] := by
  decide +kernel

end Dolo
