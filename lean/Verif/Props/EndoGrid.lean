import Mathlib.Data.Rat.Defs
import Mathlib.Tactic.SplitIfs
import Verif.Model.EndoGrid
import Verif.Lemmas.Distribution

/-!
# C105: the grid of a model is the one described in its options
-/

set_option linter.unusedSectionVars false

namespace Dolo

variable {K α : Type}

/-! ### Specification -/

/-- The data have a section `options` with an entry `grid`, which is the node `g`. -/
def HasGrid (data g : YNode α) : Prop :=
  ∃ t t' fields opts, data = .map t fields ∧ PyDict.get? fields "options" = some (.map t' opts) ∧
    PyDict.get? opts "grid" = some g

/-- There is something at an address. -/
inductive At : YNode α → List String → YNode α → Prop
  | here (d : YNode α) : At d [] d
  | step {t f fs fields d r} (h : PyDict.get? fields f = some d) (h' : At d fs r) : At (.map t fields) (f :: fs) r

/-- The tag `tag` of a node, as written in the file, is `!name`, where `name` is one of `names` up to case. -/
def TagNamed (tag : String) (names : List String) : Prop :=
  ∃ name : String, tag.toList = '!' :: name.toList ∧ '!' ∉ name.toList ∧ name.toLower ∈ names

/-! ### Helper lemmas -/

theorem stripBang_named {tag : String} {names : List String} (h : TagNamed tag names) :
    (stripBang tag).toLower ∈ names := by
  obtain ⟨name, h1, h2, h3⟩ := h
  have aux : ∀ l : List Char, '!' ∉ l → l.dropWhile (· = '!') = l := by
    intro l hl
    cases l with
    | nil => rfl
    | cons a l =>
      have : a ≠ '!' := fun e => hl (by simp [e])
      simp [List.dropWhile, this]
  have e : stripBang tag = name := by
    unfold stripBang
    rw [h1]
    have : ('!' :: name.toList).dropWhile (· = '!') = name.toList := by
      rw [List.dropWhile_cons]
      simpa using aux _ h2
    rw [this, aux _ (by simpa using h2)]
    simp
  rw [e]
  exact h3

theorem getPath_iff (d : YNode α) (fs : List String) (r : YNode α) :
    getPath d fs = .ok (some r) ↔ At d fs r := by
  induction fs generalizing d with
  | nil =>
    constructor
    · intro h
      simp only [getPath, Except.ok.injEq, Option.some.injEq] at h
      subst h
      exact .here _
    · intro h
      cases h
      rfl
  | cons f fs ih =>
    constructor
    · intro h
      cases d with
      | leaf t v => simp [getPath, YNode.get, bind, Except.bind] at h
      | seq t v => simp [getPath, YNode.get, bind, Except.bind] at h
      | map t fields =>
        cases hf : PyDict.get? fields f with
        | none => simp [getPath, YNode.get, hf, bind, Except.bind, pure, Except.pure] at h
        | some d' =>
          simp only [getPath, YNode.get, hf, bind, Except.bind] at h
          exact .step hf ((ih d').mp h)
    · intro h
      cases h with
      | step h1 h2 =>
        simp only [getPath, YNode.get, h1, bind, Except.bind]
        exact (ih _).mpr h2

theorem hasGrid_path {data : YNode α} {t : String} {gf : List (String × YNode α)}
    (h : HasGrid data (.map t gf)) (k : String) :
    getPath data ["options", "grid", k] = .ok (PyDict.get? gf k) := by
  obtain ⟨t1, t2, fields, opts, rfl, h1, h2⟩ := h
  simp only [getPath, YNode.get, h1, h2, bind, Except.bind]
  cases PyDict.get? gf k <;> rfl

theorem hasGrid_type {data g : YNode (OptVal K)} (h : HasGrid data g) :
    gridType data = .ok (stripBang g.tag) := by
  obtain ⟨t1, t2, fields, opts, rfl, h1, h2⟩ := h
  simp [gridType, YNode.get, h1, h2, getType, bind, Except.bind, pure, Except.pure]

/-! ### C105 -/

/-- **C105** (addresses).  A lookup at several addresses gives the first that is present. -/
theorem C105_address (data : YNode α) (addresses : List (List String)) (r : YNode α)
    (h : getAddress data addresses = .ok (some r)) :
    ∃ pre a post, addresses = pre ++ a :: post ∧ At data a r ∧ ∀ b ∈ pre, ∀ r', ¬ At data b r' := by
  induction addresses with
  | nil => simp [getAddress, bind, Except.bind, pure, Except.pure] at h
  | cons a as ih =>
    cases ha : getPath data a with
    | error e => simp [getAddress, List.mapM_cons, ha, bind, Except.bind] at h
    | ok o =>
      cases has : as.mapM (getPath data) with
      | error e => simp [getAddress, List.mapM_cons, ha, has, bind, Except.bind] at h
      | ok os =>
        simp only [getAddress, List.mapM_cons, ha, has, bind, Except.bind, pure, Except.pure] at h
        cases o with
        | none =>
          have : getAddress data as = .ok (some r) := by
            simp only [getAddress, has, bind, Except.bind, pure, Except.pure]
            simpa using h
          obtain ⟨pre, a', post, rfl, h2, h3⟩ := ih this
          refine ⟨a :: pre, a', post, rfl, h2, ?_⟩
          intro b hb r' hr
          rcases List.mem_cons.mp hb with rfl | hb
          · rw [(getPath_iff _ _ _).mpr hr] at ha
            cases ha
          · exact h3 b hb r' hr
        | some d =>
          simp only [List.filterMap_cons, id, List.head?_cons, Except.ok.injEq, Option.some.injEq] at h
          subst h
          exact ⟨[], a, as, rfl, (getPath_iff _ _ _).mp ha, by simp⟩

/-- **C105** (uniform grids).  With `grid: !Cartesian`, the grid is the uniform grid on the domain, with the
numbers of points given by `n` or else by `orders`, and 20 points by dimension by default. -/
theorem C105_cartesian_partial (min max : List K) (data : YNode (OptVal K)) (tag : String)
    (fields : List (String × YNode (OptVal K))) (h : HasGrid data (.map tag fields))
    (htag : TagNamed tag ["cartesian", "cartesiangrid"]) :
    (∀ t l, PyDict.get? fields "n" = some (.leaf t (.ints l)) →
      endoGrid (some (min, max)) data = .ok (.uniform min max l)) ∧
    (∀ t l, PyDict.get? fields "n" = none → PyDict.get? fields "orders" = some (.leaf t (.ints l)) →
      endoGrid (some (min, max)) data = .ok (.uniform min max l)) ∧
    (PyDict.get? fields "n" = none → PyDict.get? fields "orders" = none →
      endoGrid (some (min, max)) data = .ok (.uniform min max (List.replicate min.length 20))) := by
  replace htag : (stripBang tag).toLower = "cartesian" ∨ (stripBang tag).toLower = "cartesiangrid" := by
    simpa using stripBang_named htag
  have ha : getAddress data [["options", "grid", "n"], ["options", "grid", "orders"]] =
      .ok ([PyDict.get? fields "n", PyDict.get? fields "orders"].filterMap id).head? := by
    simp only [getAddress, List.mapM_cons, List.mapM_nil, hasGrid_path h, bind, Except.bind, pure, Except.pure]
  simp only [endoGrid, hasGrid_type h, bind, Except.bind, buildGrid, YNode.tag, htag, if_true, ha]
  refine ⟨?_, ?_, ?_⟩
  · intro t l h1
    simp [h1, asInts, pure, Except.pure]
  · intro t l h1 h2
    simp [h1, h2, asInts, pure, Except.pure]
  · intro h1 h2
    simp [h1, h2, pure, Except.pure]

/-- **C105** (Smolyak grids).  With `grid: !Smolyak`, the grid is the Smolyak grid on the domain, of level `mu`,
2 by default. -/
theorem C105_smolyak_partial (min max : List K) (data : YNode (OptVal K)) (tag : String)
    (fields : List (String × YNode (OptVal K))) (h : HasGrid data (.map tag fields))
    (htag : TagNamed tag ["smolyak", "smolyakgrid"]) :
    (∀ t m, PyDict.get? fields "mu" = some (.leaf t (.int m)) →
      endoGrid (some (min, max)) data = .ok (.smolyak min max m)) ∧
    (PyDict.get? fields "mu" = none → endoGrid (some (min, max)) data = .ok (.smolyak min max 2)) := by
  replace htag : (stripBang tag).toLower = "smolyak" ∨ (stripBang tag).toLower = "smolyakgrid" := by
    simpa using stripBang_named htag
  have h1 : ¬ ((stripBang tag).toLower = "cartesian" ∨ (stripBang tag).toLower = "cartesiangrid") := by
    rcases htag with e | e <;> rw [e] <;> decide
  have h2 : ¬ ((stripBang tag).toLower = "nonuniformcartesian" ∨
      (stripBang tag).toLower = "nonuniformcartesiangrid") := by
    rcases htag with e | e <;> rw [e] <;> decide
  have ha : getAddress data [["options", "grid", "mu"]] =
      .ok ([PyDict.get? fields "mu"].filterMap id).head? := by
    simp only [getAddress, List.mapM_cons, List.mapM_nil, hasGrid_path h, bind, Except.bind, pure, Except.pure]
  simp only [endoGrid, hasGrid_type h, bind, Except.bind, buildGrid, YNode.tag, h1, h2, htag, if_true, if_false,
    ha]
  refine ⟨?_, ?_⟩
  · intro t m h3
    simp [h3, asInt, pure, Except.pure]
  · intro h3
    simp [h3, pure, Except.pure]

/-- **C105** (non-uniform grids).  With `grid: !NonUniformCartesian` and a list of vectors, the grid is the product
of these vectors. -/
theorem C105_nonuniform_partial (min max : List K) (data : YNode (OptVal K)) (tag : String) (vs : List (List K))
    (t : String) (h : HasGrid data (.seq tag (vs.map fun v => .leaf t (.vector v))))
    (htag : TagNamed tag ["nonuniformcartesian", "nonuniformcartesiangrid"]) :
    endoGrid (some (min, max)) data = .ok (.nonUniform vs) := by
  replace htag : (stripBang tag).toLower = "nonuniformcartesian" ∨ (stripBang tag).toLower = "nonuniformcartesiangrid" := by
    simpa using stripBang_named htag
  have h1 : ¬ ((stripBang tag).toLower = "cartesian" ∨ (stripBang tag).toLower = "cartesiangrid") := by
    rcases htag with e | e <;> rw [e] <;> decide
  have hp : getPath data ["options", "grid"] = .ok (some (.seq tag (vs.map fun v => .leaf t (.vector v)))) := by
    obtain ⟨t1, t2, fields, opts, rfl, g1, g2⟩ := h
    simp only [getPath, YNode.get, g1, g2, bind, Except.bind]
  have hm : (vs.map fun v => (YNode.leaf t (OptVal.vector v) : YNode (OptVal K))).mapM asVector = .ok vs := by
    induction vs with
    | nil => rfl
    | cons v vs ih =>
      have : (vs.map fun v => (YNode.leaf t (OptVal.vector v) : YNode (OptVal K))).mapM asVector = .ok vs := by
        clear h hp ih
        induction vs with
        | nil => rfl
        | cons w ws ih => simp [List.mapM_cons, asVector, ih, bind, Except.bind, pure, Except.pure]
      simp [List.mapM_cons, asVector, this, bind, Except.bind, pure, Except.pure]
  simp only [endoGrid, hasGrid_type h, bind, Except.bind, buildGrid, YNode.tag, h1, htag, if_true, if_false, hp,
    hm, pure, Except.pure]

/-- **C105 does not hold** for a grid without tag: `grid: {type: Cartesian, n: [10]}` is refused, whatever the
entries, as the tag that YAML gives to a mapping is taken for its type. -/
theorem C105_type_field_fails (min max : List K) (data : YNode (OptVal K))
    (fields : List (String × YNode (OptVal K))) (h : HasGrid data (.map mapTag fields)) :
    endoGrid (some (min, max)) data = .error (.exception "Unknown grid type.") := by
  have e : (stripBang mapTag).toLower = "tag:yaml.org,2002:map" := by decide +kernel
  simp [endoGrid, hasGrid_type h, bind, Except.bind, buildGrid, YNode.tag, e]

/-- **C105 does not hold** without an entry `grid`: the error is not that the geometry of the grid is missing, and
`options: grid_type` is never read. -/
theorem C105_missing_fails (min max : List K) (t t' : String) (fields opts : List (String × YNode (OptVal K)))
    (h : PyDict.get? opts "grid" = none) :
    (PyDict.get? fields "options" = some (.map t' opts) →
      endoGrid (some (min, max)) (.map t fields) = .error .attributeError) ∧
    (PyDict.get? fields "options" = none →
      endoGrid (some (min, max)) (.map t fields) = .error .attributeError) := by
  constructor
  · intro h1
    simp [endoGrid, gridType, YNode.get, h1, h, getType, bind, Except.bind]
  · intro h1
    have h2 : PyDict.get? ([] : List (String × YNode (OptVal K))) "grid" = none := rfl
    simp [endoGrid, gridType, YNode.get, h1, h2, getType, bind, Except.bind]

/-- Non-vacuity: the options of `examples/models/rbc_iid.yaml`; the same with `type:`; and the options with only
`grid_type`. -/
example :
    endoGrid (some ([0, 1], [2, 3]) : Option (List ℚ × List ℚ)) (.map mapTag [("name", .leaf "" (.str "rbc")),
      ("options", .map mapTag [("grid", .map "!Cartesian" [("orders", .leaf "" (.ints [5, 50]))])])]) =
      .ok (.uniform [0, 1] [2, 3] [5, 50]) ∧
    endoGrid (some ([0, 1], [2, 3]) : Option (List ℚ × List ℚ)) (.map mapTag [
      ("options", .map mapTag [("grid", .map mapTag [("type", .leaf "" (.str "Cartesian")),
        ("orders", .leaf "" (.ints [5, 50]))])])]) = .error (.exception "Unknown grid type.") ∧
    endoGrid (some ([0, 1], [2, 3]) : Option (List ℚ × List ℚ)) (.map mapTag [
      ("options", .map mapTag [("grid_type", .leaf "" (.str "Cartesian"))])]) = .error .attributeError := by
  refine ⟨?_, ?_, ?_⟩
  · refine (C105_cartesian_partial [0, 1] [2, 3] _ "!Cartesian" [("orders", .leaf "" (.ints [5, 50]))] ?_ ?_).2.1
      "" [5, 50] rfl rfl
    · exact ⟨_, _, _, _, rfl, rfl, rfl⟩
    · exact ⟨"Cartesian", by decide +kernel, by decide +kernel, by decide +kernel⟩
  · exact C105_type_field_fails _ _ _ _ ⟨_, _, _, _, rfl, rfl, rfl⟩
  · exact (C105_missing_fails _ _ _ _ _ _ rfl).1 rfl

end Dolo
