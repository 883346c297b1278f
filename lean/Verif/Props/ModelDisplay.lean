import Mathlib.Algebra.Order.Field.Basic
import Mathlib.Algebra.Field.Rat
import Mathlib.Algebra.Order.Ring.Unbundled.Rat
import Mathlib.Tactic.NormNum
import Mathlib.Tactic.Linarith
import Verif.Lemmas.Calibration
import Verif.Model.ModelDisplay
import Verif.Props.SymbolicModel

/-!
# C120 — printing a model
-/

set_option linter.unusedSectionVars false

namespace Dolo

variable {K : Type} [Field K] [LinearOrder K] [IsStrictOrderedRing K]

/-! ## The text a user should see -/

/-- How a residual is to be shown in a terminal: numbers below `1e-8` as zero, larger ones in red. -/
def shownResidual (fmt4 : Option K → List Char) : Option K → List Char
  | none => fmt4 none
  | some v =>
    if |v| < 1 / 10 ^ 8 then fmt4 (some 0)
    else if |v| = 1 / 10 ^ 8 then fmt4 (some v)
    else "\x1b[31m".toList ++ fmt4 (some v) ++ "\x1b[0m".toList

/-- The block of a group with residuals: the title, then one numbered line per equation. -/
def residualBlock (fmt4 : Option K → List Char) (g : String) (E : List (List Char)) (r : List (Option K)) :
    List Char :=
  g.toList ++ "\n".toList ++ ((E.zip r).zipIdx.flatMap fun p =>
    " ".toList ++ eqNumber p.2 ++ " : ".toList ++ shownResidual fmt4 p.1.2 ++ " : ".toList ++ p.1.1 ++
      "\n".toList) ++ "\n".toList

/-- The block of the definitions, with the title `g`. -/
def definitionBlock (g : String) (defs : List (String × List Char)) : List Char :=
  g.toList ++ "\n".toList ++ (defs.zipIdx.flatMap fun p =>
    " ".toList ++ eqNumber p.2 ++ " : ".toList ++ (p.1.1.toList ++ " = ".toList ++ p.1.2) ++ "\n".toList) ++
    "\n".toList

/-! ## Text -/

private theorem strLine_some (fmt4 : Option K → List Char) (i : ℕ) (eq : List Char) (v : Option K) :
    strLine false fmt4 i eq (some v) = .ok (" ".toList ++ eqNumber i ++ " : ".toList ++ shownResidual fmt4 v ++
      " : ".toList ++ eq ++ "\n".toList) := by
  have hred : ∀ t, colored false t (some "red") none none = .ok ("\x1b[31m".toList ++ t ++ "\x1b[0m".toList) := by
    intro t
    have h1 : colorCodes.get "red" = .ok 31 := by decide
    have h2 : "\x1b[".toList ++ (Nat.repr 31).toList ++ "m".toList = "\x1b[31m".toList := by decide
    simp only [colored, h1, Bool.false_eq_true, if_false, bind, Except.bind, pure, Except.pure, ansi, h2,
      Option.getD_none, List.foldlM_nil]
  cases v with
  | none => rfl
  | some v =>
    have h0 : ¬ (1 / 10 ^ 8 : K) < |(0 : K)| := by simp
    rcases lt_trichotomy |v| (1 / 10 ^ 8) with h | h | h
    · simp only [strLine, absBelow, absAbove, Option.elim_some, h, decide_true, if_true, h0, decide_false,
        Bool.false_eq_true, if_false, shownResidual, bind, Except.bind, pure, Except.pure]
    · have h1 : ¬ |v| < 1 / 10 ^ 8 := by rw [h]; exact lt_irrefl _
      have h2 : ¬ (1 / 10 ^ 8 : K) < |v| := by rw [h]; exact lt_irrefl _
      simp only [strLine, absBelow, absAbove, Option.elim_some, h1, h2, decide_false, Bool.false_eq_true, if_false,
        shownResidual, if_pos h, bind, Except.bind, pure, Except.pure]
    · have h1 : ¬ |v| < 1 / 10 ^ 8 := not_lt.2 h.le
      have h2 : ¬ |v| = 1 / 10 ^ 8 := h.ne'
      simp only [strLine, absBelow, absAbove, Option.elim_some, h1, h, decide_false, decide_true,
        Bool.false_eq_true, if_false, if_true, shownResidual, h2, bind, Except.bind, pure, Except.pure, hred]

private theorem strLines_res (fmt4 : Option K → List Char) (E : List (List Char)) :
    ∀ (pre r : List (Option K)), E.length ≤ r.length →
      strLines false fmt4 ((pre ++ r).map some) pre.length E =
        .ok (((E.zip r).zipIdx pre.length).flatMap fun p =>
          " ".toList ++ eqNumber p.2 ++ " : ".toList ++ shownResidual fmt4 p.1.2 ++ " : ".toList ++ p.1.1 ++
          "\n".toList) := by
  induction E with
  | nil => intro pre r _; rfl
  | cons e E ih =>
    intro pre r h
    cases r with
    | nil => simp at h
    | cons v r =>
      have hg : pyGet ((pre ++ v :: r).map some) pre.length = .ok (some v) := by
        simp [pyGet]
      have hih := ih (pre ++ [v]) r (by simpa using h)
      rw [List.append_assoc, List.singleton_append, List.length_append, List.length_singleton] at hih
      simp only [strLines, hg, strLine_some, hih, bind, Except.bind, pure, Except.pure]
      simp [List.zipIdx_cons]

private theorem strLines_defs (fmt4 : Option K → List Char) (E : List (List Char)) (n : ℕ) :
    ∀ i, i + E.length ≤ n →
      strLines (K := K) false fmt4 (List.replicate n none) i E =
        .ok ((E.zipIdx i).flatMap fun p =>
          " ".toList ++ eqNumber p.2 ++ " : ".toList ++ p.1 ++ "\n".toList) := by
  induction E with
  | nil => intro i _; rfl
  | cons e E ih =>
    intro i h
    rw [List.length_cons] at h
    have hg : pyGet (List.replicate n (none : Option (Option K))) i = .ok none := by
      simp [pyGet, show i < n by omega]
    simp only [strLines, hg, strLine, ih (i + 1) (by omega), bind, Except.bind, pure, Except.pure]
    simp [List.zipIdx_cons]

private theorem get_set_ne {α : Type} (d : PyDict α) (k k' : String) (v w : α) (h : d.get? k' = some w)
    (hne : k ≠ k') : (d.set k v).get k' = .ok w := by
  have : (d.set k v).get? k' = some w := by
    rw [PyDict.get?_set, if_neg hne.symm, h]
  simp [PyDict.get, this]

private theorem get_set_eq {α : Type} (d : PyDict α) (k : String) (v : α) : (d.set k v).get k = .ok v := by
  have : (d.set k v).get? k = some v := by rw [PyDict.get?_set, if_pos rfl]
  simp [PyDict.get, this]

private theorem strGroups_res (fmt4 : Option K → List Char) (equations : PyDict (List (List Char))) (g : String)
    (E : List (List Char)) (r : List (Option K)) (gs : List (String × List (Option (Option K)))) (rest : List Char)
    (hg : equations.get g = .ok E) (hr : r.length = E.length) (h1 : g ≠ "auxiliary") (h2 : g ≠ "definitions")
    (hrest : strGroups false fmt4 equations gs = .ok rest) :
    strGroups false fmt4 equations ((g, r.map some) :: gs) = .ok (residualBlock fmt4 g E r ++ rest) := by
  have h := strLines_res fmt4 E [] r hr.ge
  rw [List.nil_append, List.length_nil] at h
  rw [strGroups, if_neg h1]
  simp only [hg, if_neg h2, h, hrest, bind, Except.bind, pure, Except.pure, residualBlock, List.append_assoc]

private theorem strGroups_defs (fmt4 : Option K → List Char) (equations : PyDict (List (List Char)))
    (defs : List (String × List Char)) (r : List (Option (Option K)))
    (g : String) (h1 : g ≠ "auxiliary") (h2 : g = "definitions") (hg : equations.get g = .ok (defEquations defs)) :
    strGroups false fmt4 equations [(g, r)] = .ok (definitionBlock g defs) := by
  have h3 := strLines_defs fmt4 (defEquations defs) (defEquations defs).length 0 (by omega)
  have hd : (defEquations defs).map (fun _ => (none : Option (Option K))) =
      List.replicate (defEquations defs).length none := by
    simp
  have hz : (defEquations defs).zipIdx 0 = defs.zipIdx.map fun p =>
      (p.1.1.toList ++ " = ".toList ++ p.1.2, p.2) := by
    rw [defEquations, List.zipIdx_map]
    exact List.map_congr_left fun p _ => Prod.ext_iff.2 ⟨rfl, rfl⟩
  have h4 : strGroups false fmt4 equations ([] : List (String × List (Option (Option K)))) = .ok [] := rfl
  rw [hz, List.flatMap_map] at h3
  rw [strGroups, if_neg h1, hg]
  simp only [if_pos h2, bind, Except.bind, pure, Except.pure, hd, h3, h4]
  simp only [definitionBlock, List.append_assoc, List.append_nil]

/-- The first lines of the text. -/
def headerText (infos : ModelInfos) : List Char :=
  "\n        Model:\n        ------\n        name: \"".toList ++ infos.name ++
    "\"\n        type: \"".toList ++ infos.type ++ "\"\n        file: \"".toList ++ infos.filename ++
    "\n".toList

/-- **C120** (text).  `str(model)` shows the transition equations, the arbitrage equations and the definitions,
in this order; each equation of the first two groups with its residual, zero if it is below `1e-8` and in red
if it is above.  The equations of the model are left unchanged. -/
theorem C120_text (fmt4 : Option K → List Char) (infos : ModelInfos) (eqs : PyDict (List (List Char)))
    (defs : List (String × List Char)) (t a : List (Option K)) (T A : List (List Char))
    (hT : eqs.get? "transition" = some T) (hA : eqs.get? "arbitrage" = some A)
    (ht : t.length = T.length) (ha : a.length = A.length) :
    modelStr false fmt4 infos eqs defs [("transition", t), ("arbitrage", a)] = .ok
      (headerText infos ++ "\nEquations:\n----------\n\n".toList ++
        (residualBlock fmt4 "transition" T t ++ (residualBlock fmt4 "arbitrage" A a ++ definitionBlock "definitions" defs)),
      eqs) := by
  have hset : PyDict.set [("transition", t), ("arbitrage", a)] "definitions" [some 0] =
      [("transition", t), ("arbitrage", a), ("definitions", [some 0])] := by
    simp [PyDict.set]
  have e1 := get_set_ne eqs "definitions" "transition" (defEquations defs) T hT (by decide)
  have e2 := get_set_ne eqs "definitions" "arbitrage" (defEquations defs) A hA (by decide)
  have e3 := get_set_eq eqs "definitions" (defEquations defs)
  have g3 := strGroups_defs fmt4 _ defs ([some 0].map some) _ (by decide) rfl e3
  have g2 := strGroups_res fmt4 _ "arbitrage" A a _ _ e2 ha (by decide) (by decide) g3
  have g1 := strGroups_res fmt4 _ "transition" T t _ _ e1 ht (by decide) (by decide) g2
  unfold modelStr
  rw [hset]
  simp only [List.map_cons, List.map_nil] at g1 ⊢
  rw [g1]
  rfl

/-! ## Colours -/

private theorem esc_repr (n : ℕ) : '\x1b' ∉ (Nat.repr n).toList := by
  intro h
  rw [Nat.repr, String.toList_ofList] at h
  have := Nat.isDigit_of_mem_toDigits (by decide) (by decide) h
  exact absurd this (by decide)

private theorem esc_eqNumber (i : ℕ) : '\x1b' ∉ eqNumber i := by
  unfold eqNumber
  simp only [List.mem_append, List.mem_replicate, not_or, not_and]
  exact ⟨esc_repr _, fun _ => by decide⟩

private theorem esc_shown (fmt4 : Option K → List Char) (hf : ∀ v, '\x1b' ∉ fmt4 v) (v : Option K) :
    '\x1b' ∈ shownResidual fmt4 v ↔ ∃ w, v = some w ∧ 1 / 10 ^ 8 < |w| := by
  cases v with
  | none => simp [shownResidual, hf]
  | some v =>
    simp only [shownResidual, Option.some.injEq, exists_eq_left']
    rcases lt_trichotomy |v| (1 / 10 ^ 8) with h | h | h
    · rw [if_pos h]
      exact iff_of_false (hf _) (not_lt.2 h.le)
    · rw [if_neg (by rw [h]; exact lt_irrefl _), if_pos h]
      exact iff_of_false (hf _) (by rw [h]; exact lt_irrefl _)
    · rw [if_neg (not_lt.2 h.le), if_neg h.ne']
      refine iff_of_true ?_ h
      rw [List.mem_append, List.mem_append]
      exact .inl (.inl (by decide))

private theorem esc_residualBlock (fmt4 : Option K → List Char) (hf : ∀ v, '\x1b' ∉ fmt4 v) (g : String)
    (hg : '\x1b' ∉ g.toList) (E : List (List Char)) (hE : ∀ e ∈ E, '\x1b' ∉ e) (r : List (Option K))
    (hr : r.length = E.length) :
    '\x1b' ∈ residualBlock fmt4 g E r ↔ ∃ w, some w ∈ r ∧ 1 / 10 ^ 8 < |w| := by
  have l1 : '\x1b' ∉ "\n".toList := by decide
  have l2 : '\x1b' ∉ " ".toList := by decide
  have l3 : '\x1b' ∉ " : ".toList := by decide
  unfold residualBlock
  simp only [List.mem_append, hg, l1, false_or, or_false, List.mem_flatMap, l2, l3, esc_eqNumber,
    esc_shown fmt4 hf]
  constructor
  · rintro ⟨⟨⟨e, v⟩, i⟩, hp, h⟩
    have hz := (List.mem_zipIdx' hp).2
    have hm : (e, v) ∈ E.zip r := by rw [hz]; exact List.getElem_mem _
    rcases h with ⟨w, hw, hw2⟩ | h
    · exact ⟨w, hw ▸ (List.of_mem_zip hm).2, hw2⟩
    · exact (hE _ (List.of_mem_zip hm).1 h).elim
  · rintro ⟨w, hw, hw2⟩
    obtain ⟨i, hi, hiw⟩ := List.mem_iff_getElem.1 hw
    have hi2 : i < (E.zip r).length := by rw [List.length_zip]; omega
    refine ⟨((E.zip r)[i], i), ?_, .inl ⟨w, ?_, hw2⟩⟩
    · rw [List.mem_iff_getElem]
      exact ⟨i, by simpa using hi2, by simp⟩
    · simp [hiw]

/-- **C120** (red).  In a terminal the text of a model contains colour codes exactly if the residual of some
transition or arbitrage equation is a number above `1e-8`; hence a model whose calibration is a steady state is
shown without red. -/
theorem C120_red (fmt4 : Option K → List Char) (infos : ModelInfos) (eqs : PyDict (List (List Char)))
    (defs : List (String × List Char)) (t a : List (Option K)) (T A : List (List Char))
    (hT : eqs.get? "transition" = some T) (hA : eqs.get? "arbitrage" = some A)
    (ht : t.length = T.length) (ha : a.length = A.length) (hf : ∀ v, '\x1b' ∉ fmt4 v)
    (hi : '\x1b' ∉ infos.name ∧ '\x1b' ∉ infos.type ∧ '\x1b' ∉ infos.filename)
    (hTe : ∀ e ∈ T, '\x1b' ∉ e) (hAe : ∀ e ∈ A, '\x1b' ∉ e)
    (hd : ∀ kv ∈ defs, '\x1b' ∉ kv.1.toList ∧ '\x1b' ∉ kv.2) :
    ∃ s, modelStr false fmt4 infos eqs defs [("transition", t), ("arbitrage", a)] = .ok (s, eqs) ∧
      ('\x1b' ∈ s ↔ ∃ v, (some v ∈ t ∨ some v ∈ a) ∧ 1 / 10 ^ 8 < |v|) := by
  refine ⟨_, C120_text fmt4 infos eqs defs t a T A hT hA ht ha, ?_⟩
  have hh : '\x1b' ∉ headerText infos := by
    unfold headerText
    simp only [List.mem_append, hi.1, hi.2.1, hi.2.2, or_false]
    decide
  have hl : '\x1b' ∉ "\nEquations:\n----------\n\n".toList := by decide
  have hdb : '\x1b' ∉ definitionBlock "definitions" defs := by
    have l1 : '\x1b' ∉ "\n".toList := by decide
    have l2 : '\x1b' ∉ " ".toList := by decide
    have l3 : '\x1b' ∉ " : ".toList := by decide
    have l4 : '\x1b' ∉ " = ".toList := by decide
    have l5 : '\x1b' ∉ "definitions".toList := by decide
    unfold definitionBlock
    simp only [List.mem_append, l1, l2, l3, l4, l5, false_or, or_false, List.mem_flatMap, esc_eqNumber, not_exists,
      not_and, not_or]
    rintro ⟨kv, i⟩ hp
    have hz := (List.mem_zipIdx' hp).2
    have hm : kv ∈ defs := by rw [hz]; exact List.getElem_mem _
    exact hd kv hm
  simp only [List.mem_append, hh, hl, hdb, false_or, or_false]
  rw [esc_residualBlock fmt4 hf _ (by decide) T hTe t ht, esc_residualBlock fmt4 hf _ (by decide) A hAe a ha]
  constructor
  · rintro (⟨w, h1, h2⟩ | ⟨w, h1, h2⟩)
    · exact ⟨w, .inl h1, h2⟩
    · exact ⟨w, .inr h1, h2⟩
  · rintro ⟨w, h1 | h1, h2⟩
    · exact .inl ⟨w, h1, h2⟩
    · exact .inr ⟨w, h1, h2⟩

/-- **C120** (no colours).  With `ANSI_COLORS_DISABLED` set, or without any argument but the text, no colour is
added; otherwise the text is preceded by its codes and followed by the reset code. -/
theorem C120_colored (text : List Char) :
    (∀ c o at_, colored true text c o at_ = .ok text) ∧
    colored false text none none none = .ok (text ++ "\x1b[0m".toList) ∧
    (∀ c n, (c, n) ∈ colorCodes → colored false text (some c) none none =
      .ok ("\x1b[".toList ++ (Nat.repr n).toList ++ "m".toList ++ text ++ "\x1b[0m".toList)) ∧
    (∀ c, (∀ n, (c, n) ∉ colorCodes) → ∀ o at_, colored false text (some c) o at_ = .error .keyError) := by
  refine ⟨fun _ _ _ => rfl, rfl, ?_, ?_⟩
  · intro c n h
    have hg : colorCodes.get c = .ok n := by
      have := PyDict.get?_of_mem_nodup colorCodes (by decide) h
      simp [PyDict.get, this]
    simp only [colored, hg, Bool.false_eq_true, if_false, bind, Except.bind, pure, Except.pure, ansi,
      Option.getD_none, List.foldlM_nil]
  · intro c h o at_
    have hg : colorCodes.get c = .error .keyError := by
      rcases hg : colorCodes.get? c with _ | n
      · simp [PyDict.get, hg]
      · exact (h n (PyDict.mem_of_get? _ hg)).elim
    simp only [colored, hg, Bool.false_eq_true, if_false, bind, Except.bind]

/-! ## HTML -/

/-- How a residual is to be shown in a notebook. -/
def htmlResidual (fmt3 fmt4 : Option K → List Char) : Option K → List Char
  | none => fmt3 none
  | some v => if 1 / 10 ^ 8 < |v| then "<span style=\"color: red;\">".toList ++ fmt4 (some v) ++ "</span>".toList
      else fmt3 (some v)

/-- The line of equation `i` of a group `g`, with the residual cell `c`. -/
def htmlRow (texf : List Char → List Char) (g : String) (i : ℕ) (eq c : List Char) : List Char :=
  "<tr><td>".toList ++ (if i = 0 then g.toList else []) ++ "</td><td>".toList ++
    ("$".toList ++ texf eq ++ "$".toList) ++ "</td><td>".toList ++ c ++ "</td></tr>".toList

/-- The residual cells of a group: those of the two groups of equilibrium conditions are filled. -/
def htmlCells (fmt3 fmt4 : Option K → List Char) (t a : List (Option K)) (g : String) (i : ℕ) : List Char :=
  if g = "transition" then (t[i]?).elim [] (htmlResidual fmt3 fmt4)
  else if g = "arbitrage" then (a[i]?).elim [] (htmlResidual fmt3 fmt4) else []

private theorem htmlVal_eq (fmt3 fmt4 : Option K → List Char) (t a : List (Option K)) (g : String) (i : ℕ)
    (h1 : g = "transition" → i < t.length) (h2 : g = "arbitrage" → i < a.length) (h3 : g ≠ "arbitrage_exp") :
    htmlVal fmt3 fmt4 [("transition", t), ("arbitrage", a)] g i = .ok (htmlCells fmt3 fmt4 t a g i) := by
  have hcell : ∀ v : Option K, (if absAbove v = true then
      (Except.ok ("<span style=\"color: red;\">".toList ++ fmt4 v ++ "</span>".toList) : Except Err (List Char))
      else .ok (fmt3 v)) = .ok (htmlResidual fmt3 fmt4 v) := by
    intro v
    cases v with
    | none => rfl
    | some v =>
      by_cases h : 1 / 10 ^ 8 < |v|
      · simp only [absAbove, Option.elim_some, h, decide_true, if_true, htmlResidual]
      · simp only [absAbove, Option.elim_some, h, decide_false, Bool.false_eq_true, if_false, htmlResidual]
  by_cases ht : g = "transition"
  · have hi := h1 ht
    have hg : PyDict.get [("transition", t), ("arbitrage", a)] g = .ok t := by
      rw [ht]; simp [PyDict.get, PyDict.get?]
    have hv : pyGet t i = .ok t[i] := by simp [pyGet, hi]
    rw [htmlVal, if_pos (.inr (.inl ht))]
    simp only [hg, hv, bind, Except.bind, pure, Except.pure, hcell, htmlCells, if_pos ht,
      List.getElem?_eq_getElem hi, Option.elim_some]
  · by_cases ha : g = "arbitrage"
    · have hi := h2 ha
      have hg : PyDict.get [("transition", t), ("arbitrage", a)] g = .ok a := by
        rw [ha]; simp [PyDict.get, PyDict.get?]
      have hv : pyGet a i = .ok a[i] := by simp [pyGet, hi]
      rw [htmlVal, if_pos (.inl ha)]
      simp only [hg, hv, bind, Except.bind, pure, Except.pure, hcell, htmlCells, if_neg ht, if_pos ha,
        List.getElem?_eq_getElem hi, Option.elim_some]
    · rw [htmlVal, if_neg (by simp [ht, ha, h3])]
      simp only [htmlCells, if_neg ht, if_neg ha, pure, Except.pure]

private theorem htmlLine_eq (tex : List Char → Except Err (List Char)) (texf : List Char → List Char)
    (htex : ∀ e, tex e = .ok (texf e)) (fmt3 fmt4 : Option K → List Char) (res : PyDict (List (Option K)))
    (g : String) (i : ℕ) (e c : List Char) (hs1 : '⟂' ∉ e) (hs2 : '|' ∉ e)
    (hv : htmlVal fmt3 fmt4 res g i = .ok c) :
    htmlLine tex fmt3 fmt4 res g i e = .ok (htmlRow texf g i e c) := by
  have h1 : beforeSep '⟂' e = .ok e := by rw [beforeSep, if_neg hs1]
  have h2 : beforeSep '|' e = .ok e := by rw [beforeSep, if_neg hs2]
  unfold htmlLine htmlRow
  rw [hv]
  simp only [h1, h2, htex, bind, Except.bind, pure, Except.pure]

private theorem htmlLines_eq (tex : List Char → Except Err (List Char)) (texf : List Char → List Char)
    (htex : ∀ e, tex e = .ok (texf e)) (fmt3 fmt4 : Option K → List Char) (t a : List (Option K)) (g : String)
    (h3 : g ≠ "arbitrage_exp") (E : List (List Char)) :
    ∀ i, (∀ e ∈ E, '⟂' ∉ e ∧ '|' ∉ e) → (g = "transition" → i + E.length ≤ t.length) →
      (g = "arbitrage" → i + E.length ≤ a.length) →
      htmlLines tex fmt3 fmt4 [("transition", t), ("arbitrage", a)] g i E =
        .ok ((E.zipIdx i).map fun p => htmlRow texf g p.2 p.1 (htmlCells fmt3 fmt4 t a g p.2)) := by
  induction E with
  | nil => intro i _ _ _; rfl
  | cons e E ih =>
    intro i he h1 h2
    rw [List.length_cons] at h1 h2
    have hv := htmlVal_eq fmt3 fmt4 t a g i (fun h => by have := h1 h; omega) (fun h => by have := h2 h; omega) h3
    have hih := ih (i + 1) (fun e' h' => he e' (List.mem_cons_of_mem _ h')) (fun h => by have := h1 h; omega)
      (fun h => by have := h2 h; omega)
    obtain ⟨hs1, hs2⟩ := he e (List.mem_cons_self ..)
    rw [htmlLines, hih, htmlLine_eq tex texf htex fmt3 fmt4 _ g i e _ hs1 hs2 hv, List.zipIdx_cons, List.map_cons]
    rfl

/-- **C120** (notebook).  `_repr_html_` shows the equations of all groups and the definitions, one line per
equation; the lines of the transition and arbitrage equations carry their residuals, which are red exactly if
they are above `1e-8`, as in the terminal.  The equations of the model are left unchanged. -/
theorem C120_html (tex : List Char → Except Err (List Char)) (texf : List Char → List Char)
    (htex : ∀ e, tex e = .ok (texf e)) (fmt3 fmt4 : Option K → List Char) (eqs : PyDict (List (List Char)))
    (defs : List (String × List Char)) (t a : List (Option K))
    (hkeys : ∀ E, ("arbitrage_exp", E) ∉ eqs)
    (ht : ∀ E, ("transition", E) ∈ eqs → E.length = t.length)
    (ha : ∀ E, ("arbitrage", E) ∈ eqs → E.length = a.length)
    (hsep : ∀ g E, (g, E) ∈ eqs → ∀ e ∈ E, '⟂' ∉ e ∧ '|' ∉ e)
    (hdef : ∀ e ∈ defEquations defs, '⟂' ∉ e ∧ '|' ∉ e) :
    modelHtml tex fmt3 fmt4 eqs defs [("transition", t), ("arbitrage", a)] =
      .ok ((PyDict.set eqs "definitions" (defEquations defs)).map fun ge =>
        ge.2.zipIdx.map fun p => htmlRow texf ge.1 p.2 p.1 (htmlCells fmt3 fmt4 t a ge.1 p.2), eqs) := by
  have hmem : ∀ g E, (g, E) ∈ PyDict.set eqs "definitions" (defEquations defs) →
      (g, E) ∈ eqs ∨ (g = "definitions" ∧ E = defEquations defs) := by
    intro g E h
    unfold PyDict.set at h
    split_ifs at h
    · obtain ⟨⟨g', E'⟩, h1, h2⟩ := List.mem_map.1 h
      by_cases hd : g' = "definitions"
      · rw [if_pos hd] at h2
        exact .inr ⟨(Prod.mk.inj h2).1.symm, (Prod.mk.inj h2).2.symm⟩
      · rw [if_neg hd] at h2
        exact .inl (h2 ▸ h1)
    · rcases List.mem_append.1 h with h | h
      · exact .inl h
      · rw [List.mem_singleton] at h
        exact .inr ⟨(Prod.mk.inj h).1, (Prod.mk.inj h).2⟩
  have hmap : (PyDict.set eqs "definitions" (defEquations defs)).mapM
      (fun ge => htmlLines tex fmt3 fmt4 [("transition", t), ("arbitrage", a)] ge.1 0 ge.2) =
      .ok ((PyDict.set eqs "definitions" (defEquations defs)).map fun ge =>
        ge.2.zipIdx.map fun p => htmlRow texf ge.1 p.2 p.1 (htmlCells fmt3 fmt4 t a ge.1 p.2)) := by
    have hgen : ∀ (l : List (String × List (List Char))) (f : String × List (List Char) → List (List Char)),
        (∀ ge ∈ l, htmlLines tex fmt3 fmt4 [("transition", t), ("arbitrage", a)] ge.1 0 ge.2 = .ok (f ge)) →
        l.mapM (fun ge => htmlLines tex fmt3 fmt4 [("transition", t), ("arbitrage", a)] ge.1 0 ge.2) =
          .ok (l.map f) := by
      intro l f hl
      induction l with
      | nil => rfl
      | cons x l ih =>
        rw [List.mapM_cons, hl x (List.mem_cons_self ..), ih fun y hy => hl y (List.mem_cons_of_mem _ hy)]
        rfl
    refine hgen _ _ ?_
    rintro ⟨g, E⟩ h
    rcases hmem g E h with h | ⟨hgd, hE⟩
    · refine htmlLines_eq tex texf htex fmt3 fmt4 t a g ?_ E 0 (hsep g E h) ?_ ?_
      · rintro rfl; exact hkeys E h
      · rintro rfl; rw [ht E h, Nat.zero_add]
      · rintro rfl; rw [ha E h, Nat.zero_add]
    · subst hE
      refine htmlLines_eq tex texf htex fmt3 fmt4 t a g ?_ _ 0 hdef ?_ ?_
      · rw [hgd]; decide
      · intro h'; rw [hgd] at h'; exact absurd h' (by decide)
      · intro h'; rw [hgd] at h'; exact absurd h' (by decide)
  unfold modelHtml
  simp only [hmap, bind, Except.bind, pure, Except.pure]

/-- **C120** (conditions).  What follows a single separator is left out of the line; with a second separator of
the same kind nothing is shown, for the unpacking raises. -/
theorem C120_html_condition (tex : List Char → Except Err (List Char)) (texf : List Char → List Char)
    (htex : ∀ e, tex e = .ok (texf e)) (fmt3 fmt4 : Option K → List Char) (res : PyDict (List (Option K)))
    (i : ℕ) (e c : List Char) (sep : Char) (hsep : sep = '⟂' ∨ sep = '|') (he : '⟂' ∉ e ∧ '|' ∉ e)
    (hc : '⟂' ∉ c ∧ '|' ∉ c) :
    htmlLine tex fmt3 fmt4 res "felicity" i (e ++ sep :: c) = .ok (htmlRow texf "felicity" i e []) ∧
    ∀ c', sep = '⟂' ∨ '⟂' ∉ c' → htmlLine tex fmt3 fmt4 res "felicity" i (e ++ sep :: (c ++ sep :: c')) = .error .valueError := by
  have hv : htmlVal fmt3 fmt4 res "felicity" i = .ok [] := by
    rw [htmlVal, if_neg (by decide)]; rfl
  have hes : sep ∉ e := by rcases hsep with rfl | rfl; exacts [he.1, he.2]
  have hcs : sep ∉ c := by rcases hsep with rfl | rfl; exacts [hc.1, hc.2]
  have h1 : beforeSep sep (e ++ sep :: c) = .ok e := by
    rw [beforeSep, if_pos (by simp), splitOn1_append_sep sep e c hes, splitOn1_of_notMem sep c hcs]
  have h2 : ∀ c', beforeSep sep (e ++ sep :: (c ++ sep :: c')) = .error .valueError := by
    intro c'
    rw [beforeSep, if_pos (by simp), splitOn1_append_sep sep e _ hes, splitOn1_append_sep sep c _ hcs]
    cases hq : splitOn1 sep c' with
    | nil => exact absurd hq (splitOn1_ne_nil _ _)
    | cons w ws => rfl
  have h3 : beforeSep '⟂' e = .ok e := by rw [beforeSep, if_neg he.1]
  have h4 : beforeSep '|' e = .ok e := by rw [beforeSep, if_neg he.2]
  have hb : ∀ x : List Char, '⟂' ∉ x → beforeSep '⟂' x = .ok x := fun x hx => by rw [beforeSep, if_neg hx]
  have hte := htex e
  have hv' := hv
  generalize "felicity" = g at hv ⊢
  rcases hsep with rfl | rfl
  · constructor
    · unfold htmlLine htmlRow
      rw [hv]
      simp only [h1, h4, hte, bind, Except.bind, pure, Except.pure]
    · intro c' _
      unfold htmlLine
      rw [hv]
      simp only [h2 c', bind, Except.bind]
  · constructor
    · unfold htmlLine htmlRow
      rw [hv]
      have := hb (e ++ '|' :: c) (by simp [he.1, hc.1])
      simp only [this, h1, hte, bind, Except.bind, pure, Except.pure]
    · intro c' hc'
      have hc2 : '⟂' ∉ c' := hc'.resolve_left (by decide)
      have := hb (e ++ '|' :: (c ++ '|' :: c')) (by simp [he.1, hc.1, hc2])
      unfold htmlLine
      rw [hv]
      simp only [this, h2 c', bind, Except.bind]

/-- **C120** is false of numbers that could not be computed: a residual that is `nan` (the logarithm of a
negative number, say) is shown without red, as if the equation was satisfied. -/
theorem C120_nan_fails (fmt4 : Option K → List Char) (hf : ∀ v, '\x1b' ∉ fmt4 v) :
    ∃ s, modelStr false fmt4 ⟨"rbc".toList, "dtcc".toList, "rbc.yaml".toList⟩
      [("transition", ["k[t] = 0.9*k[t-1]".toList]), ("arbitrage", ["log(c[t]) = k[t]".toList])] []
      [("transition", [some 0]), ("arbitrage", [none])] = .ok (s, 
      [("transition", ["k[t] = 0.9*k[t-1]".toList]), ("arbitrage", ["log(c[t]) = k[t]".toList])]) ∧
      '\x1b' ∉ s := by
  obtain ⟨s, h1, h2⟩ := C120_red fmt4 ⟨"rbc".toList, "dtcc".toList, "rbc.yaml".toList⟩
    [("transition", ["k[t] = 0.9*k[t-1]".toList]), ("arbitrage", ["log(c[t]) = k[t]".toList])] []
    [some 0] [none] ["k[t] = 0.9*k[t-1]".toList] ["log(c[t]) = k[t]".toList]
    (by simp [PyDict.get?]) (by simp [PyDict.get?]) rfl rfl hf ⟨by decide, by decide, by decide⟩
    (by decide) (by decide) (by simp)
  refine ⟨s, h1, fun hc => ?_⟩
  obtain ⟨v, hv, hv2⟩ := h2.1 hc
  rcases hv with hv | hv
  · rw [List.mem_singleton, Option.some.injEq] at hv
    rw [hv, abs_zero] at hv2
    exact absurd hv2 (not_lt.2 (by positivity))
  · simp at hv

/-! ## Non-vacuity -/

/-- A wrong transition equation is shown in red, and only it. -/
example : ∃ s e, modelStr (K := ℚ) false (fun v => if v = some 0 then "0".toList else "1".toList)
    ⟨[], [], []⟩ [("transition", ["k".toList]), ("arbitrage", ["c".toList])] [("y", "k".toList)]
    [("transition", [some 1]), ("arbitrage", [some 0])] = .ok (s, e) ∧
    ("transition\n 1  : \x1b[31m1\x1b[0m : k\n\narbitrage\n 1  : 0 : c\n\ndefinitions\n 1  : y = k\n\n".toList <:+ s) := by
  refine ⟨_, _, C120_text _ _ _ _ [some 1] [some 0] ["k".toList] ["c".toList] (by simp [PyDict.get?])
    (by simp [PyDict.get?]) rfl rfl, ?_⟩
  refine ⟨headerText ⟨[], [], []⟩ ++ "\nEquations:\n----------\n\n".toList, ?_⟩
  congr 1
  decide +kernel

/-- The hypotheses of `C120_html` hold for a model with three groups. -/
example : ∃ ls e, modelHtml (K := ℚ) .ok (fun _ => "0".toList) (fun _ => "1".toList)
    [("transition", ["k".toList]), ("arbitrage", ["c".toList]), ("felicity", ["u".toList])] []
    [("transition", [some 1]), ("arbitrage", [some 0])] = .ok (ls, e) ∧
    ls.map List.length = [1, 1, 1, 0] ∧
    ls[0]? = some ["<tr><td>transition</td><td>$k$</td><td><span style=\"color: red;\">1</span></td></tr>".toList] ∧
    ls[1]? = some ["<tr><td>arbitrage</td><td>$c$</td><td>0</td></tr>".toList] := by
  refine ⟨_, _, C120_html _ id (fun _ => rfl) _ _ _ _ [some 1] [some 0] (by simp) (by simp) (by simp)
    ?_ (by simp [defEquations]), ?_⟩
  · intro g E h
    simp only [List.mem_cons, Prod.mk.injEq, List.not_mem_nil, or_false] at h
    rcases h with ⟨-, rfl⟩ | ⟨-, rfl⟩ | ⟨-, rfl⟩ <;> decide
  · decide +kernel

end Dolo
