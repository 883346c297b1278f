import Verif.Model.GetTypes
import Verif.Props.Multimethod

/-!
# C147: functions with several methods, as declared and as called
-/

set_option linter.unusedSectionVars false

namespace Dolo

variable {Cls F : Type} [DecidableEq Cls] [DecidableEq F]

/-! ### Specification -/

/-- The class a parameter must have: the one written, `object` otherwise. -/
def declaredClass (obj : Cls) (annotations : List (String × Cls)) (name : String) : Cls := (annotations.lookup name).getD obj

/-- A declaration as Python accepts it: parameters have different names, each has at most one annotation, only parameters
have annotations, and `return`. -/
structure ValidDeclaration (params : List String) (annotations : List (String × Cls)) : Prop where
  params_nodup : params.Nodup
  names_nodup : (annotations.map (·.1)).Nodup
  names : ∀ a ∈ annotations, a.1 = "return" ∨ a.1 ∈ params
  return_free : "return" ∉ params

/-- The declaration accepts arguments of classes `types`: there is an argument for each parameter up to the last one
annotated, and every argument has the class written for its parameter, if any. -/
def AcceptsTypes (W : Classes Cls) (params : List String) (annotations : List (String × Cls)) (types : List Cls) : Prop :=
  ∀ (i : ℕ) (name : String), params[i]? = some name → ∀ c, annotations.lookup name = some c →
    ∃ t, types[i]? = some t ∧ W.sub t c = true

/-! ### Lemmas -/

private theorem lookup_filter_ne (ann : List (String × Cls)) (p q : String) (h : q ≠ p) :
    (ann.filter fun a => a.1 != p).lookup q = ann.lookup q := by
  induction ann with
  | nil => rfl
  | cons a ann ih =>
    by_cases ha : a.1 = p
    · rw [List.filter_cons_of_neg (by simp [ha]), ih, List.lookup_cons]
      have : (q == a.1) = false := by simp [ha, h]
      rw [this]
    · rw [List.filter_cons_of_pos (by simp [ha]), List.lookup_cons, List.lookup_cons, ih]

private theorem lookup_none_of (ann : List (String × Cls)) (q : String) (h : ∀ a ∈ ann, a.1 ≠ q) : ann.lookup q = none := by
  induction ann with
  | nil => rfl
  | cons a ann ih =>
    have h1 : (q == a.1) = false := by simpa using fun e => h a (by simp) e.symm
    rw [List.lookup_cons, h1]
    exact ih fun b hb => h b (by simp [hb])

private theorem loop_nil (obj : Cls) (params : List String) : getTypesLoop obj [] params = [] := by
  induction params with
  | nil => rfl
  | cons p params ih => simp [getTypesLoop, ih]

open Classical in
/-- Entries of the signature, as long as annotations remain. -/
private theorem loop_get (obj : Cls) (params : List String) (hp : params.Nodup) (ann : List (String × Cls))
    (hn : ∀ a ∈ ann, a.1 ∈ params) (i : ℕ) (name : String) (hi : params[i]? = some name) :
    (getTypesLoop obj ann params)[i]?
      = if ∃ j, i ≤ j ∧ ∃ q, params[j]? = some q ∧ (ann.lookup q).isSome then some (declaredClass obj ann name) else none := by
  induction params generalizing ann i with
  | nil => simp at hi
  | cons p params ih =>
    rcases ann with _ | ⟨a, ann⟩
    · rw [loop_nil]
      simp
    · rw [getTypesLoop]
      simp only [List.isEmpty_cons, Bool.false_eq_true, if_false, popAnnotation]
      generalize hA : a :: ann = A at *
      have hAne : A ≠ [] := by rw [← hA]; simp
      have hp' := List.nodup_cons.1 hp
      have hn' : ∀ b ∈ A.filter (fun b => b.1 != p), b.1 ∈ params := by
        intro b hb
        rw [List.mem_filter] at hb
        rcases List.mem_cons.1 (hn b hb.1) with h | h
        · simp [h] at hb
        · exact h
      rcases i with _ | i
      · simp only [List.getElem?_cons_zero, Option.some.injEq] at hi
        subst hi
        rw [List.getElem?_cons_zero, if_pos]
        · rfl
        · obtain ⟨b, B, rfl⟩ := List.exists_cons_of_ne_nil hAne
          obtain ⟨j, hj⟩ := List.mem_iff_getElem?.1 (hn b (by simp))
          refine ⟨j, Nat.zero_le _, b.1, hj, ?_⟩
          rw [List.lookup_cons]
          simp
      · rw [List.getElem?_cons_succ] at hi ⊢
        rw [ih hp'.2 _ hn' i hi]
        have hne : ∀ (j : ℕ) q, params[j]? = some q → q ≠ p := by
          intro j q hq h
          subst h
          exact hp'.1 (List.mem_of_getElem? hq)
        have hd : declaredClass obj (A.filter fun b => b.1 != p) name = declaredClass obj A name := by
          unfold declaredClass
          rw [lookup_filter_ne _ _ _ (hne i name hi)]
        rw [hd]
        refine if_congr ?_ rfl rfl
        constructor
        · rintro ⟨j, hj, q, hq, hs⟩
          rw [lookup_filter_ne _ _ _ (hne j q hq)] at hs
          exact ⟨j + 1, by omega, q, by simpa using hq, hs⟩
        · rintro ⟨j, hj, q, hq, hs⟩
          rcases j with _ | j
          · omega
          · rw [List.getElem?_cons_succ] at hq
            refine ⟨j, by omega, q, hq, ?_⟩
            rw [lookup_filter_ne _ _ _ (hne j q hq)]
            exact hs

private theorem loop_length (obj : Cls) (params : List String) (ann : List (String × Cls)) :
    (getTypesLoop obj ann params).length ≤ params.length := by
  induction params generalizing ann with
  | nil => simp [getTypesLoop]
  | cons p params ih =>
    rw [getTypesLoop]
    split_ifs
    · exact le_trans (ih ann) (by simp)
    · simpa [popAnnotation] using ih _

/-! ### C147 -/

open Classical in
/-- **C147, signatures.**  The signature of a declaration has, for every parameter up to the last one annotated, the class
written, or `object`; parameters after it are not part of it. -/
theorem C147_signature (obj : Cls) (params : List String) (annotations : List (String × Cls))
    (h : ValidDeclaration params annotations) (i : ℕ) :
    (getTypes obj params annotations)[i]? =
      if ∃ j, i ≤ j ∧ ∃ q, params[j]? = some q ∧ (annotations.lookup q).isSome
      then (params[i]?).map (declaredClass obj annotations) else none := by
  have hne : ∀ (j : ℕ) q, params[j]? = some q → q ≠ "return" := by
    intro j q hq hr
    subst hr
    exact h.return_free (List.mem_of_getElem? hq)
  have hn : ∀ a ∈ annotations.filter (fun a => a.1 != "return"), a.1 ∈ params := by
    intro a ha
    rw [List.mem_filter] at ha
    exact (h.names a ha.1).resolve_left (by simpa using ha.2)
  rcases hi : params[i]? with _ | name
  · have h1 : (getTypes obj params annotations)[i]? = none := by
      rw [List.getElem?_eq_none_iff] at hi ⊢
      exact le_trans (loop_length _ _ _) hi
    rw [h1]
    simp
  · unfold getTypes
    rw [loop_get obj params h.params_nodup _ hn i name hi]
    have hd : declaredClass obj (annotations.filter fun a => a.1 != "return") name = declaredClass obj annotations name := by
      unfold declaredClass
      rw [lookup_filter_ne _ _ _ (hne i name hi)]
    rw [hd, Option.map_some]
    refine if_congr ?_ rfl rfl
    constructor
    · rintro ⟨j, hj, q, hq, hs⟩
      rw [lookup_filter_ne _ _ _ (hne j q hq)] at hs
      exact ⟨j, hj, q, hq, hs⟩
    · rintro ⟨j, hj, q, hq, hs⟩
      refine ⟨j, hj, q, hq, ?_⟩
      rw [lookup_filter_ne _ _ _ (hne j q hq)]
      exact hs

open Classical in
/-- **C147, which arguments are accepted.**  A declaration is applicable to positional arguments exactly when it accepts
their classes: unannotated parameters accept anything, and arguments after the last annotated parameter do not matter. -/
theorem C147_applicable (W : Classes Cls) (hobj : ∀ c, W.sub c W.object = true) (params : List String)
    (annotations : List (String × Cls)) (h : ValidDeclaration params annotations) (types : List Cls) :
    Applies W (getTypes W.object params annotations) types ↔ AcceptsTypes W params annotations types := by
  constructor
  · rintro ⟨hlen, hap⟩ i name hi c hc
    have hs := C147_signature W.object params annotations h i
    rw [if_pos ⟨i, le_rfl, name, hi, by rw [hc]; rfl⟩, hi, Option.map_some, declaredClass, hc, Option.getD_some] at hs
    have hlt : i < types.length := lt_of_lt_of_le (List.getElem?_eq_some_iff.1 hs).1 hlen
    exact ⟨types[i], List.getElem?_eq_getElem hlt, hap i c _ hs (List.getElem?_eq_getElem hlt)⟩
  · intro hac
    constructor
    · by_contra hlt
      push Not at hlt
      have hs := C147_signature W.object params annotations h types.length
      rw [List.getElem?_eq_getElem hlt] at hs
      by_cases hc : ∃ j, types.length ≤ j ∧ ∃ q, params[j]? = some q ∧ (annotations.lookup q).isSome
      · obtain ⟨j, hj, q, hq, hsome⟩ := hc
        obtain ⟨c, hc⟩ := Option.isSome_iff_exists.1 hsome
        obtain ⟨t, ht, -⟩ := hac j q hq c hc
        have := (List.getElem?_eq_some_iff.1 ht).1
        omega
      · rw [if_neg hc] at hs
        exact absurd hs (by simp)
    · intro i c t hc ht
      have hs := C147_signature W.object params annotations h i
      rw [hc] at hs
      by_cases hcond : ∃ j, i ≤ j ∧ ∃ q, params[j]? = some q ∧ (annotations.lookup q).isSome
      · rw [if_pos hcond] at hs
        rcases hi : params[i]? with _ | name
        · rw [hi] at hs
          exact absurd hs (by simp)
        · rw [hi, Option.map_some, Option.some.injEq] at hs
          rcases ha : annotations.lookup name with _ | c'
          · rw [declaredClass, ha, Option.getD_none] at hs
            rw [hs]
            exact hobj t
          · rw [declaredClass, ha, Option.getD_some] at hs
            obtain ⟨t', ht', hsub⟩ := hac i name hi c' ha
            rw [ht, Option.some.injEq] at ht'
            rw [hs, ht']
            exact hsub
      · rw [if_neg hcond] at hs
        exact absurd hs (by simp)

private theorem declare_run (W : Classes Cls) (decls : List (List String × List (String × Cls) × F)) :
    decls.foldl (fun (m : Multi Cls F) d => m.declare W d.1 d.2.1 d.2.2) ⟨[], []⟩
      = multiRun W (decls.map fun d => MultiOp.register (getTypes W.object d.1 d.2.1) d.2.2) := by
  unfold multiRun
  rw [List.foldl_map]
  rfl

private theorem declare_registered (W : Classes Cls) (decls : List (List String × List (String × Cls) × F)) (sig : List Cls)
    (g : F) (hg : registered (decls.map fun d => MultiOp.register (getTypes W.object d.1 d.2.1) d.2.2) sig = some g) :
    ∃ d ∈ decls, getTypes W.object d.1 d.2.1 = sig ∧ d.2.2 = g := by
  have key : ∀ (l : List (List String × List (String × Cls) × F)) (o : Option F),
      registered.go (l.map fun d => MultiOp.register (getTypes W.object d.1 d.2.1) d.2.2) o sig = some g →
      o = some g ∨ ∃ d ∈ l, getTypes W.object d.1 d.2.1 = sig ∧ d.2.2 = g := by
    intro l
    induction l with
    | nil => intro o ho; exact .inl ho
    | cons d l ih =>
      intro o ho
      rw [List.map_cons, registered.go] at ho
      rcases ih _ ho with h | ⟨d', hd', h⟩
      · by_cases hd : getTypes W.object d.1 d.2.1 = sig
        · rw [if_pos hd, Option.some.injEq] at h
          exact .inr ⟨d, by simp, hd, h⟩
        · rw [if_neg hd] at h
          exact .inl h
      · exact .inr ⟨d', by simp [hd'], h⟩
  rcases decls with _ | ⟨d, decls⟩
  · simp [registered] at hg
  · rcases key (d :: decls) none hg with h | h
    · exact absurd h (by simp)
    · exact h

/-- **C147, calls by position.**  A call runs a function whose declaration accepts the positional arguments, with all
arguments given, or raises `DispatchError`; the latter whenever no declaration accepts them. -/
theorem C147_positional {V R : Type} (W : Classes Cls) (hW : W.Lawful) (hobj : ∀ c, W.sub c W.object = true)
    (typeOf : V → Cls) (apply : F → List V → List (String × V) → Except Err R)
    (decls : List (List String × List (String × Cls) × F)) (hv : ∀ d ∈ decls, ValidDeclaration d.1 d.2.1)
    (args : List V) (kwargs : List (String × V)) :
    let m := decls.foldl (fun (m : Multi Cls F) d => m.declare W d.1 d.2.1 d.2.2) ⟨[], []⟩
    (m.call W typeOf apply args kwargs = .error .dispatchError ∨
      ∃ d ∈ decls, AcceptsTypes W d.1 d.2.1 (args.map typeOf) ∧ m.call W typeOf apply args kwargs = apply d.2.2 args kwargs) ∧
    ((∀ d ∈ decls, ¬AcceptsTypes W d.1 d.2.1 (args.map typeOf)) → m.call W typeOf apply args kwargs = .error .dispatchError) := by
  intro m
  have hm : m = multiRun W (decls.map fun d => MultiOp.register (getTypes W.object d.1 d.2.1) d.2.2) := declare_run W decls
  have hno : (∀ d ∈ decls, ¬AcceptsTypes W d.1 d.2.1 (args.map typeOf)) →
      m.call W typeOf apply args kwargs = .error .dispatchError := by
    intro hno
    have h1 := C52_none_applicable W hW (decls.map fun d => MultiOp.register (getTypes W.object d.1 d.2.1) d.2.2)
      (args.map typeOf) (by
        intro sig g hg hap
        obtain ⟨d, hd, rfl, -⟩ := declare_registered W decls sig g hg
        exact hno d hd ((C147_applicable W hobj _ _ (hv d hd) _).1 hap))
    rw [Multi.call, hm, h1]
  refine ⟨?_, hno⟩
  by_cases hex : ∀ d ∈ decls, ¬AcceptsTypes W d.1 d.2.1 (args.map typeOf)
  · exact .inl (hno hex)
  · rcases hs : (m.select W (args.map typeOf)).1 with e | f
    · have he : e = .dispatchError := by
        rw [Multi.select] at hs
        split at hs
        · cases hs
        · split at hs
          · cases hs
          · rename_i h
            simp only [Except.error.injEq] at hs
            subst hs
            unfold Multi.resolve at h
            simp only at h
            split at h
            · cases h
            · cases h
              rfl
      left
      rw [Multi.call, hs, he]
    · right
      rw [hm] at hs
      obtain ⟨sig, h1, h2, -⟩ := C52_most_specific W hW _ _ f hs
      obtain ⟨d, hd, rfl, rfl⟩ := declare_registered W decls sig f h1
      exact ⟨d, hd, (C147_applicable W hobj _ _ (hv d hd) _).1 h2, by rw [Multi.call, hm, hs]⟩

/-- **C147, a function declared once** is called whenever its declaration accepts the positional arguments. -/
theorem C147_single {V R : Type} (W : Classes Cls) (hobj : ∀ c, W.sub c W.object = true)
    (typeOf : V → Cls) (apply : F → List V → List (String × V) → Except Err R) (params : List String)
    (annotations : List (String × Cls)) (func : F) (hv : ValidDeclaration params annotations) (args : List V)
    (kwargs : List (String × V)) (hac : AcceptsTypes W params annotations (args.map typeOf)) :
    ((⟨[], []⟩ : Multi Cls F).declare W params annotations func).call W typeOf apply args kwargs = apply func args kwargs := by
  have hle := (applies_iff W _ _).1 ((C147_applicable W hobj _ _ hv _).2 hac)
  have hm : (⟨[], []⟩ : Multi Cls F).declare W params annotations func
      = ⟨[⟨getTypes W.object params annotations, [], func⟩], []⟩ := by
    simp [Multi.declare, Multi.setitem, Multi.parentsOf]
  rw [hm, Multi.call]
  generalize getTypes W.object params annotations = sig at hle
  generalize args.map typeOf = types at hle
  have hs : ((⟨[⟨sig, [], func⟩], []⟩ : Multi Cls F).select W types).1 = .ok func := by
    by_cases he : sig = types
    · simp [Multi.select, Multi.find, he]
    · have hlt : sigLt W sig types = true := by simp [sigLt, he, hle]
      simp [Multi.select, Multi.find, he, Multi.resolve, Multi.parentsOf, hlt, minDist]
  rw [hs]

/-- **C147 fails for arguments given by name:** whatever methods were declared, if each has an annotated parameter beyond the
positional arguments, the call raises `DispatchError`, even when that parameter is among the arguments given by name. -/
theorem C147_keyword_fails {V R : Type} (W : Classes Cls) (hW : W.Lawful) (hobj : ∀ c, W.sub c W.object = true)
    (typeOf : V → Cls) (apply : F → List V → List (String × V) → Except Err R)
    (decls : List (List String × List (String × Cls) × F)) (hv : ∀ d ∈ decls, ValidDeclaration d.1 d.2.1)
    (args : List V) (kwargs : List (String × V))
    (hshort : ∀ d ∈ decls, ∃ j, args.length ≤ j ∧ ∃ q, d.1[j]? = some q ∧ (d.2.1.lookup q).isSome) :
    (decls.foldl (fun (m : Multi Cls F) d => m.declare W d.1 d.2.1 d.2.2) ⟨[], []⟩).call W typeOf apply args kwargs
      = .error .dispatchError := by
  refine (C147_positional W hW hobj typeOf apply decls hv args kwargs).2 fun d hd hac => ?_
  obtain ⟨j, hj, q, hq, hs⟩ := hshort d hd
  obtain ⟨c, hc⟩ := Option.isSome_iff_exists.1 hs
  obtain ⟨t, ht, -⟩ := hac j q hq c hc
  have := (List.getElem?_eq_some_iff.1 ht).1
  rw [List.length_map] at this
  omega

/-! ### Cases -/

private theorem ergodic_declaration : ValidDeclaration ["model", "dr"] [("model", (1 : Fin 3)), ("dr", 2)] where
  params_nodup := by decide
  names_nodup := by decide
  names := by decide
  return_free := by decide

/-- `f(model: A, dr, grid: B, verbose) -> B` has the signature `(A, object, B)`. -/
example : getTypes (0 : Fin 3) ["model", "dr", "grid", "verbose"] [("model", 1), ("grid", 2), ("return", 2)] = [1, 0, 2] := by
  decide

/-- `f(model: A, dr: B)` is found when both arguments are given by position ... -/
example : ((⟨[], []⟩ : Multi (Fin 3) String).declare demoClasses ["model", "dr"] [("model", 1), ("dr", 2)] "f").call
    demoClasses (fun v : Fin 3 => v) (fun f _ _ => .ok f) [1, 2] [] = .ok "f" := by
  decide +kernel

/-- ... and not when the second is given by name. -/
example : ((⟨[], []⟩ : Multi (Fin 3) String).declare demoClasses ["model", "dr"] [("model", 1), ("dr", 2)] "f").call
    demoClasses (fun v : Fin 3 => v) (fun f _ _ => .ok f) [1] [("dr", 2)] = .error .dispatchError :=
  C147_keyword_fails demoClasses demoClasses_lawful (by decide) (fun v => v) (fun f _ _ => .ok f)
    [(["model", "dr"], [("model", 1), ("dr", 2)], "f")] (by simpa using ergodic_declaration) [1] [("dr", 2)]
    (by
      intro d hd
      rw [List.mem_singleton] at hd
      subst hd
      exact ⟨1, by simp, "dr", rfl, rfl⟩)

end Dolo
