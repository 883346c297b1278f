import Mathlib.Data.List.Basic
import Mathlib.Tactic.NormNum
import Verif.Model.ItPrinter
import Verif.Lemmas.Calibration

/-!
# C122: progress tables

Specification: a row of a table is a text `| c1 | c2 | ... |`; it fits a table when the cells have the widths of the
columns, so that the bars of all rows are at the same places.
-/

set_option linter.unusedSectionVars false

namespace Dolo

variable {V : Type}

/-! ### Specification -/

/-- A row with the given cells. -/
def rowText (cells : List Text) : Text := '|' :: cells.flatMap fun c => ' ' :: c ++ [' ', '|']

/-- The width of a column: nine characters for floats, at least four for integers, enough for the name. -/
def colWidth (k : String) : ColType → ℕ
  | .int => max 4 k.toList.length
  | _ => 9

/-- The length of a row with columns of the given widths. -/
def tableWidth (ws : List ℕ) : ℕ := (ws.map (· + 3)).sum + 1

/-- The line is a row with columns of the given widths. -/
def FitsTable (ws : List ℕ) (line : Text) : Prop := ∃ cells : List Text, line = rowText cells ∧ cells.map List.length = ws

/-- The names of the columns are distinct, each is of type `int` or `float`, and there is one. -/
structure GoodColumns (cols : List (String × ColType)) : Prop where
  ne : cols ≠ []
  nodup : (cols.map (·.1)).Nodup
  types : ∀ c ∈ cols, c.2 ≠ .other

/-- Zero is written `0` and `0.000e+00`. -/
def ZeroOK (N : NumText V) : Prop := (N.reprV N.zero).length = 1 ∧ (N.sciV N.zero).length = 9

/-- The value fits in the column: an integer with no more characters than the column, a float written with at most nine
characters (two digits in the exponent, not negative; or `nan`). -/
def ValueFits (N : NumText V) (k : String) (ty : ColType) (v : V) : Prop :=
  match ty with
  | .int => (N.reprV v).length ≤ max 4 k.toList.length
  | _ => (N.sciV v).length ≤ 9

/-- The text of the value in the column, before alignment. -/
def valueText (N : NumText V) (ty : ColType) (v : V) : Text :=
  match ty with
  | .int => N.reprV v
  | _ => N.sciV v

/-- The cell shows the text, possibly after some spaces. -/
def ShowsRight (t cell : Text) : Prop := ∃ n, cell = List.replicate n ' ' ++ t

/-- The cell shows the text, possibly before some spaces. -/
def ShowsLeft (t cell : Text) : Prop := ∃ n, cell = t ++ List.replicate n ' '

/-! ### Lemmas -/

theorem rowText_length (cells : List Text) : (rowText cells).length = tableWidth (cells.map List.length) := by
  unfold rowText tableWidth
  simp only [List.length_cons, List.length_flatMap, List.map_map]
  congr 2
  refine List.map_congr_left fun c _ => ?_
  simp

private theorem join_row (c : Text) (cs : List Text) :
    ['|', ' '] ++ joinText [' ', '|', ' '] (c :: cs) ++ [' ', '|'] = rowText (c :: cs) := by
  unfold joinText rowText
  induction cs generalizing c with
  | nil => simp
  | cons d ds ih =>
    have h := ih d
    simp only [List.cons_append, List.nil_append, List.cons.injEq, true_and] at h
    rw [List.intercalate_cons_cons]
    simp only [List.flatMap_cons, List.cons_append, List.nil_append, List.append_assoc, List.cons.injEq, true_and]
      at h ⊢
    rw [h]

private theorem dict_good_aux (cols acc : List (String × ColType))
    (h : ((acc ++ cols).map (·.1)).Nodup) :
    cols.foldl (fun d kv => PyDict.set d kv.1 kv.2) acc = acc ++ cols := by
  induction cols generalizing acc with
  | nil => simp
  | cons c cs ih =>
    have hc : (acc.any fun kv => decide (kv.1 = c.1)) = false := by
      rw [List.any_eq_false]
      intro kv hkv
      simp only [decide_eq_true_eq]
      intro e
      rw [List.map_append, List.nodup_append] at h
      exact h.2.2 _ (List.mem_map_of_mem hkv) _ (by simp) e
    rw [List.foldl_cons]
    have : PyDict.set acc c.1 c.2 = acc ++ [c] := by
      unfold PyDict.set
      rw [hc]
      rfl
    rw [this, ih]
    · simp
    · simpa using h

private theorem dict_good (cols : List (String × ColType)) (h : (cols.map (·.1)).Nodup) :
    cols.foldl (fun d kv => PyDict.set d kv.1 kv.2) [] = cols := by
  rw [dict_good_aux cols [] (by simpa using h)]
  simp

/-- The texts of the fields of good columns. -/
private theorem fields_good (N : NumText V) (cols : List (String × ColType)) (h : ∀ c ∈ cols, c.2 ≠ .other)
    (vals : List V) (hl : vals.length = cols.length) :
    ∃ cells, fieldTexts N (cols.flatMap fun kv => colFmt kv.1 kv.2) vals = .ok cells ∧
      (∃ hc : cells.length = cols.length, ∀ i (hi : i < cols.length),
        ShowsRight (valueText N cols[i].2 (vals[i]'(by omega))) (cells[i]'(by omega))) ∧
      ((∀ i (hi : i < cols.length), ValueFits N cols[i].1 cols[i].2 (vals[i]'(by omega))) →
        cells.map List.length = cols.map fun kv => colWidth kv.1 kv.2) := by
  induction cols generalizing vals with
  | nil => exact ⟨[], by simp [fieldTexts], ⟨rfl, by simp⟩, by simp⟩
  | cons c cs ih =>
    cases vals with
    | nil => simp at hl
    | cons v vs =>
      obtain ⟨cells, h1, ⟨h2, h4⟩, h3⟩ := ih (fun c hc => h c (List.mem_cons_of_mem _ hc)) vs (by simpa using hl)
      have hc := h c (by simp)
      obtain ⟨k, ty⟩ := c
      have hfit : (∀ i (hi : i < (( k, ty) :: cs).length), ValueFits N ((k, ty) :: cs)[i].1 ((k, ty) :: cs)[i].2
          ((v :: vs)[i]'(by rw [hl]; exact hi))) → ValueFits N k ty v ∧
          ∀ i (hi : i < cs.length), ValueFits N cs[i].1 cs[i].2 (vs[i]'(by simp at hl; omega)) := by
        intro hf
        exact ⟨hf 0 (by simp), fun i hi => hf (i + 1) (by simpa using hi)⟩
      cases ty with
      | other => exact absurd rfl hc
      | int =>
        refine ⟨padLeft (max 4 k.toList.length) (N.reprV v) :: cells, ?_, ⟨by simp [h2], fun i hi => ?_⟩, fun hf => ?_⟩
        · rw [List.flatMap_cons]
          generalize cs.flatMap (fun kv => colFmt kv.1 kv.2) = fs at h1
          simp only [colFmt, List.cons_append, List.nil_append, fieldTexts, h1, bind, Except.bind]
          rfl
        · cases i with
          | zero => exact ⟨_, rfl⟩
          | succ i => exact h4 i (by simpa using hi)
        · obtain ⟨f1, f2⟩ := hfit hf
          have : (N.reprV v).length ≤ max 4 k.toList.length := f1
          simp only [List.map_cons, h3 f2, colWidth, padLeft, List.length_append, List.length_replicate]
          congr 1
          omega
      | float =>
        refine ⟨padLeft 9 (N.sciV v) :: cells, ?_, ⟨by simp [h2], fun i hi => ?_⟩, fun hf => ?_⟩
        · rw [List.flatMap_cons]
          generalize cs.flatMap (fun kv => colFmt kv.1 kv.2) = fs at h1
          simp only [colFmt, List.cons_append, List.nil_append, fieldTexts, h1, bind, Except.bind]
          rfl
        · cases i with
          | zero => exact ⟨_, rfl⟩
          | succ i => exact h4 i (by simpa using hi)
        · obtain ⟨f1, f2⟩ := hfit hf
          have : (N.sciV v).length ≤ 9 := f1
          simp only [List.map_cons, h3 f2, colWidth, padLeft, List.length_append, List.length_replicate]
          congr 1
          omega

private theorem format_good (N : NumText V) (cols : List (String × ColType)) (hg : GoodColumns cols)
    (vals : List V) (hl : vals.length = cols.length) :
    ∃ cells, formatLine N (cols.flatMap fun kv => colFmt kv.1 kv.2) vals = .ok (rowText cells) ∧
      (∃ hc : cells.length = cols.length, ∀ i (hi : i < cols.length),
        ShowsRight (valueText N cols[i].2 (vals[i]'(by omega))) (cells[i]'(by omega))) ∧
      ((∀ i (hi : i < cols.length), ValueFits N cols[i].1 cols[i].2 (vals[i]'(by omega))) →
        cells.map List.length = cols.map fun kv => colWidth kv.1 kv.2) := by
  obtain ⟨cells, h1, ⟨h2, h4⟩, h3⟩ := fields_good N cols hg.types vals hl
  refine ⟨cells, ?_, ⟨h2, h4⟩, h3⟩
  simp only [formatLine, h1, bind, Except.bind]
  congr 1
  cases cells with
  | nil =>
    exact absurd (List.length_eq_zero_iff.1 (by simpa using h2.symm)) hg.ne
  | cons c cs => exact join_row c cs

/-- The printer built for good columns. -/
private theorem init_good (N : NumText V) (hz : ZeroOK N) (cols : List (String × ColType)) (hg : GoodColumns cols)
    (verbose : Bool) :
    ItPrinter.init N cols verbose = .ok ⟨verbose, cols.map (·.1), cols.map (·.2),
      cols.flatMap fun kv => colFmt kv.1 kv.2, tableWidth (cols.map fun kv => colWidth kv.1 kv.2)⟩ := by
  obtain ⟨cells, h1, -, h2⟩ := format_good N cols hg (cols.map fun _ => N.zero) (by simp)
  have hw : cells.map List.length = cols.map fun kv => colWidth kv.1 kv.2 := by
    refine h2 fun i hi => ?_
    rw [List.getElem_map]
    have a := hz.1
    have b := hz.2
    unfold ValueFits
    split <;> omega
  unfold ItPrinter.init
  rw [dict_good cols hg.nodup]
  simp only [h1, bind, Except.bind]
  rw [rowText_length, hw]

/-! ### Theorems -/

/-- **C122, silence.**  With `verbose=False` nothing is printed and nothing can fail, whatever the values given: neither
in a whole run nor by any of the methods of the printer. -/
theorem C122_silent (N : NumText V) (p : ItPrinter) (hp : p.verbose = false) (msg : Text) (passes : List (PyDict V))
    (elapsed : Text) : p.run N msg passes elapsed = .ok [] ∧ p.printLine = [] ∧ (∀ m, p.printHeader m = []) ∧
      (∀ args, p.printIteration N args = .ok []) ∧ p.printFinished elapsed = [] := by
  have h1 : passes.mapM (p.printIteration N) = .ok (passes.map fun _ => []) := by
    induction passes with
    | nil => rfl
    | cons a l ih =>
      rw [List.mapM_cons, ih]
      simp [ItPrinter.printIteration, hp, bind, Except.bind, pure, Except.pure]
  have h2 : (passes.map fun _ => ([] : List Text)).flatten = [] := by
    rw [List.flatten_eq_nil_iff]
    intro l hl
    obtain ⟨_, _, e⟩ := List.mem_map.1 hl
    exact e.symm
  refine ⟨?_, ?_, fun m => ?_, fun args => ?_, ?_⟩
  · unfold ItPrinter.run
    rw [h1]
    simp only [bind, Except.bind, h2]
    simp [ItPrinter.printHeader, ItPrinter.printFinished, hp]
  · simp [ItPrinter.printLine, hp]
  · simp [ItPrinter.printHeader, hp]
  · simp [ItPrinter.printIteration, hp]
  · simp [ItPrinter.printFinished, hp]

/-- **C122, the lines of the table.**  A pass for which all columns are given prints one line, and when the values fit
this line is a row of the table, with the values in the order of the columns; if a column is missing, `print_iteration` raises a `KeyError`. -/
theorem C122_iteration (N : NumText V) (hz : ZeroOK N) (cols : List (String × ColType)) (hg : GoodColumns cols) :
    ∃ p, ItPrinter.init N cols true = .ok p ∧ p.width = tableWidth (cols.map fun kv => colWidth kv.1 kv.2) ∧
      (∀ args : PyDict V, (∀ c ∈ cols, ∃ v, args.get? c.1 = some v) →
        ∃ cells, p.printIteration N args = .ok [rowText cells] ∧
          (∃ hc : cells.length = cols.length, ∀ i (hi : i < cols.length), ∀ v, args.get? cols[i].1 = some v →
            ShowsRight (valueText N cols[i].2 v) (cells[i]'(by omega))) ∧
          ((∀ c ∈ cols, ∀ v, args.get? c.1 = some v → ValueFits N c.1 c.2 v) →
            cells.map List.length = cols.map fun kv => colWidth kv.1 kv.2)) ∧
      (∀ args : PyDict V, (∃ c ∈ cols, args.get? c.1 = none) → p.printIteration N args = .error .keyError) := by
  refine ⟨_, init_good N hz cols hg true, rfl, fun args ha => ?_, fun args ha => ?_⟩
  · obtain ⟨vals, hv, hvl, hvi⟩ : ∃ vals, (cols.map (·.1)).mapM (fun k => args.get k) = .ok vals ∧
        ∃ hl : vals.length = cols.length, ∀ i (hi : i < cols.length), args.get? cols[i].1 = some (vals[i]'(by omega)) := by
      clear hg
      induction cols with
      | nil => exact ⟨[], rfl, rfl, by simp⟩
      | cons c cs ih =>
        obtain ⟨vals, h1, h2, h3⟩ := ih (fun c hc => ha c (List.mem_cons_of_mem _ hc))
        obtain ⟨v, hv⟩ := ha c (by simp)
        refine ⟨v :: vals, ?_, by simp [h2], ?_⟩
        · rw [List.map_cons, List.mapM_cons, h1]
          simp [PyDict.get, hv, bind, Except.bind, pure, Except.pure]
        · intro i hi
          cases i with
          | zero => simpa using hv
          | succ i => simpa using h3 i (by simpa using hi)
    obtain ⟨cells, h1, ⟨hc, h3⟩, h2⟩ := format_good N cols hg vals hvl
    refine ⟨cells, ?_, ⟨hc, fun i hi v hv => ?_⟩, fun hf => h2 fun i hi => hf _ (List.getElem_mem hi) _ (hvi i hi)⟩
    · simp only [ItPrinter.printIteration, if_true, hv, bind, Except.bind, h1]
    · rw [hvi i hi] at hv
      injection hv with hv
      rw [← hv]
      exact h3 i hi
  · have : (cols.map (·.1)).mapM (fun k => args.get k) = .error .keyError := by
      clear hg
      induction cols with
      | nil => obtain ⟨c, hc, -⟩ := ha; simp at hc
      | cons c cs ih =>
        rw [List.map_cons, List.mapM_cons]
        cases hc : args.get? c.1 with
        | none => simp [PyDict.get, hc, bind, Except.bind]
        | some v =>
          rw [ih ?_]
          · simp [PyDict.get, hc, bind, Except.bind]
          · obtain ⟨d, hd, e⟩ := ha
            rcases List.mem_cons.1 hd with rfl | hd
            · rw [hc] at e; cases e
            · exact ⟨d, hd, e⟩
    simp only [ItPrinter.printIteration, if_true, this, bind, Except.bind]

/-- **C122, titles, rules and messages.**  The line of titles is a row of the table if (and only if its length is right)
no column of floats has a name of more than nine characters.  Rules have the length of the table, and lines with a message
too when the message fits. -/
theorem C122_header_partial (N : NumText V) (hz : ZeroOK N) (cols : List (String × ColType)) (hg : GoodColumns cols)
    (p : ItPrinter) (hp : ItPrinter.init N cols true = .ok p) :
    (∃ cells, p.titles = rowText cells ∧ List.Forall₂ ShowsLeft (cols.map fun c => c.1.toList) cells ∧
      cells.map List.length = cols.map fun kv => max (colWidth kv.1 kv.2) kv.1.toList.length) ∧
    ((∀ c ∈ cols, c.2 = .float → c.1.toList.length ≤ 9) →
      FitsTable (cols.map fun kv => colWidth kv.1 kv.2) p.titles) ∧
    ((∃ c ∈ cols, c.2 = .float ∧ 9 < c.1.toList.length) → p.width < p.titles.length) ∧
    p.printLine = [List.replicate p.width '-'] ∧
    ∀ msg : Text, (p.message msg).length = max p.width (msg.length + 3) ∧
      ∃ n, p.message msg = ['|', ' '] ++ msg ++ List.replicate n ' ' ++ ['|'] := by
  rw [init_good N hz cols hg true] at hp
  injection hp with hp
  subst hp
  obtain ⟨cells, h1, h3, h2⟩ : ∃ cells, (['|'] ++ (cols.flatMap fun kt => titleField kt.1 kt.2)) = rowText cells ∧
      List.Forall₂ ShowsLeft (cols.map fun c => c.1.toList) cells ∧
      cells.map List.length = cols.map fun kv => max (colWidth kv.1 kv.2) kv.1.toList.length := by
    have ht := hg.types
    clear hg
    induction cols with
    | nil => exact ⟨[], rfl, .nil, rfl⟩
    | cons c cs ih =>
      obtain ⟨cells, h1, h3, h2⟩ := ih (fun c hc => ht c (List.mem_cons_of_mem _ hc))
      have hc := ht c (by simp)
      obtain ⟨k, ty⟩ := c
      simp only [rowText, List.cons_append, List.nil_append, List.cons.injEq, true_and] at h1
      cases ty with
      | other => exact absurd rfl hc
      | int =>
        refine ⟨padRight 4 k.toList :: cells, ?_, .cons ⟨_, rfl⟩ h3, ?_⟩
        · rw [List.flatMap_cons, h1]
          simp [rowText, titleField]
        · simp only [List.map_cons, h2, colWidth, padRight, List.length_append, List.length_replicate]
          congr 1
          omega
      | float =>
        refine ⟨padRight 9 k.toList :: cells, ?_, .cons ⟨_, rfl⟩ h3, ?_⟩
        · rw [List.flatMap_cons, h1]
          simp [rowText, titleField]
        · simp only [List.map_cons, h2, colWidth, padRight, List.length_append, List.length_replicate]
          congr 1
          omega
  have hz : (cols.map (·.1)).zip (cols.map (·.2)) = cols := by
    rw [List.zip_map']
    simp
  have ht : (⟨true, cols.map (·.1), cols.map (·.2), cols.flatMap fun kv => colFmt kv.1 kv.2,
      tableWidth (cols.map fun kv => colWidth kv.1 kv.2)⟩ : ItPrinter).titles = rowText cells := by
    unfold ItPrinter.titles
    simp only [hz]
    exact h1
  refine ⟨⟨cells, ht, h3, h2⟩, fun hf => ⟨cells, ht, h2.trans ?_⟩, fun hf => ?_, rfl, fun msg => ⟨?_, _, rfl⟩⟩
  · refine List.map_congr_left fun c hc => ?_
    have := hf c hc
    have hty := hg.types c hc
    obtain ⟨k, ty⟩ := c
    cases ty with
    | other => exact absurd rfl hty
    | int => simp [colWidth]
    | float => simpa [colWidth] using this
  · rw [ht, rowText_length, h2]
    show tableWidth _ < tableWidth _
    unfold tableWidth
    simp only [List.map_map]
    refine Nat.add_lt_add_right ?_ 1
    obtain ⟨c, hc, e1, e2⟩ := hf
    refine List.sum_lt_sum _ _ (fun d _ => ?_) ⟨c, hc, ?_⟩
    · simp
    · simp only [Function.comp, e1, colWidth]
      omega
  · simp only [ItPrinter.message, List.length_append, List.length_cons, List.length_nil, List.length_replicate]
    omega

/-- **C122, the whole table.**  With `verbose=True` a run prints a rule, the message, a rule, the titles, a rule, then the
lines of the passes in order, a rule, the elapsed time, a rule and an empty line. -/
theorem C122_run (N : NumText V) (p : ItPrinter) (hp : p.verbose = true) (msg elapsed : Text) (passes : List (PyDict V))
    (rows : List Text) (hr : List.Forall₂ (fun a l => p.printIteration N a = .ok [l]) passes rows) :
    p.run N msg passes elapsed = .ok ([List.replicate p.width '-', p.message msg, List.replicate p.width '-', p.titles,
      List.replicate p.width '-'] ++ rows ++ [List.replicate p.width '-', p.message elapsed,
      List.replicate p.width '-', []]) := by
  have h : ∃ ls, passes.mapM (p.printIteration N) = .ok ls ∧ ls.flatten = rows := by
    induction hr with
    | nil => exact ⟨[], rfl, rfl⟩
    | cons h1 _ ih =>
      obtain ⟨ls, e1, e2⟩ := ih
      exact ⟨_ :: ls, by rw [List.mapM_cons, h1, e1]; rfl, by simp [e2]⟩
  obtain ⟨ls, e1, e2⟩ := h
  unfold ItPrinter.run
  rw [e1]
  simp only [bind, Except.bind, e2]
  simp [ItPrinter.printHeader, ItPrinter.printFinished, ItPrinter.printLine, hp]

/-- The columns of the three solvers. -/
theorem columns_good : GoodColumns tiColumns ∧ GoodColumns viColumns ∧ GoodColumns itiColumns :=
  ⟨⟨by decide, by decide, by decide⟩, ⟨by decide, by decide, by decide⟩, ⟨by decide, by decide, by decide⟩⟩

/-- **C122, the solvers.**  `time_iteration`, `improved_time_iteration` and `value_iteration` give a value for each of
their columns in every pass: setting `verbose` never makes them fail.  The titles of `time_iteration` and
`value_iteration` are rows of their tables. -/
theorem C122_solvers (N : NumText V) (hz : ZeroOK N) :
    (∀ ps : List (V × V × V × V × V), ∀ msg e, ∃ p ls, ItPrinter.init N tiColumns true = .ok p ∧
      p.run N msg (ps.map fun ⟨a, b, c, d, e⟩ => tiLine a b c d e) e = .ok ls ∧
      FitsTable [4, 9, 9, 9, 4] p.titles) ∧
    (∀ ps : List (V × V × V × V × V × V × V), ∀ msg e, ∃ p ls, ItPrinter.init N viColumns true = .ok p ∧
      p.run N msg (ps.map fun ⟨a, b, c, d, e, f, g⟩ => viLine a b c d e f g) e = .ok ls ∧
      FitsTable [4, 9, 9, 9, 9, 6, 9] p.titles) ∧
    (∀ ps : List (V × V × V × V × V × V × V × V × V), ∀ msg e, ∃ p ls, ItPrinter.init N itiColumns true = .ok p ∧
      p.run N msg (ps.map fun ⟨a, b, c, d, e, f, g, h, i⟩ => itiLine a b c d e f g h i) e = .ok ls) := by
  have hrun : ∀ (cols : List (String × ColType)), GoodColumns cols → ∀ passes : List (PyDict V),
      (∀ a ∈ passes, ∀ c ∈ cols, ∃ v, a.get? c.1 = some v) → ∀ msg e, ∃ p ls, ItPrinter.init N cols true = .ok p ∧
        p.run N msg passes e = .ok ls := by
    intro cols hg passes hpass msg e
    obtain ⟨p, hp, -, hit, -⟩ := C122_iteration N hz cols hg
    have : ∃ ls, passes.mapM (p.printIteration N) = .ok ls := by
      clear hp
      induction passes with
      | nil => exact ⟨[], rfl⟩
      | cons a l ih =>
        obtain ⟨ls, hls⟩ := ih (fun a ha => hpass a (List.mem_cons_of_mem _ ha))
        obtain ⟨line, hline, -⟩ := hit a (hpass a (by simp))
        exact ⟨[rowText line] :: ls, by rw [List.mapM_cons, hline, hls]; rfl⟩
    obtain ⟨ls, hls⟩ := this
    exact ⟨p, _, hp, by unfold ItPrinter.run; rw [hls]; rfl⟩
  refine ⟨fun ps msg e => ?_, fun ps msg e => ?_, fun ps msg e => ?_⟩
  · obtain ⟨p, ls, h1, h2⟩ := hrun tiColumns columns_good.1 (ps.map fun ⟨a, b, c, d, e⟩ => tiLine a b c d e) (by
      intro a ha c hc
      obtain ⟨⟨x1, x2, x3, x4, x5⟩, -, rfl⟩ := List.mem_map.1 ha
      simp only [tiColumns, List.mem_cons, List.not_mem_nil, or_false] at hc
      rcases hc with rfl | rfl | rfl | rfl | rfl <;> exact ⟨_, rfl⟩) msg e
    refine ⟨p, ls, h1, h2, ?_⟩
    exact (C122_header_partial N hz tiColumns columns_good.1 p h1).2.1 (by decide)
  · obtain ⟨p, ls, h1, h2⟩ := hrun viColumns columns_good.2.1 (ps.map fun ⟨a, b, c, d, e, f, g⟩ => viLine a b c d e f g) (by
      intro a ha c hc
      obtain ⟨⟨x1, x2, x3, x4, x5, x6, x7⟩, -, rfl⟩ := List.mem_map.1 ha
      simp only [viColumns, List.mem_cons, List.not_mem_nil, or_false] at hc
      rcases hc with rfl | rfl | rfl | rfl | rfl | rfl | rfl <;> exact ⟨_, rfl⟩) msg e
    refine ⟨p, ls, h1, h2, ?_⟩
    exact (C122_header_partial N hz viColumns columns_good.2.1 p h1).2.1 (by decide)
  · exact hrun itiColumns columns_good.2.2 (ps.map fun ⟨a, b, c, d, e, f, g, h, i⟩ => itiLine a b c d e f g h i) (by
      intro a ha c hc
      obtain ⟨⟨x1, x2, x3, x4, x5, x6, x7, x8, x9⟩, -, rfl⟩ := List.mem_map.1 ha
      simp only [itiColumns, List.mem_cons, List.not_mem_nil, or_false] at hc
      rcases hc with rfl | rfl | rfl | rfl | rfl | rfl | rfl | rfl | rfl <;> exact ⟨_, rfl⟩) msg e

/-- **C122 fails for improved time iteration.**  Three of its columns have names longer than nine characters: the line of
titles is twelve characters longer than the table (whose lines have 102). -/
theorem C122_iti_titles_fail (N : NumText V) (hz : ZeroOK N) (p : ItPrinter)
    (hp : ItPrinter.init N itiColumns true = .ok p) : p.width = 102 ∧ p.titles.length = 114 := by
  obtain ⟨⟨cells, h1, -, h2⟩, -⟩ := C122_header_partial N hz itiColumns columns_good.2.2 p hp
  obtain ⟨q, hq, hw, -⟩ := C122_iteration N hz itiColumns columns_good.2.2
  rw [hp] at hq
  injection hq with hq
  subst hq
  rw [hw, h1, rowText_length, h2]
  decide

/-- **C122 fails for egm.**  With `verbose=False` the endogenous grid method still prints a line in every pass, for every
pair of nodes of the process. -/
theorem C122_egm_fails (show3 : ℕ → ℕ → ℕ → Text) (row : ℕ → Text) (nm : ℕ) (nInodes : ℕ → ℕ) (it : ℕ) :
    (egmPrints show3 row false nm nInodes it).length = ((List.range nm).map nInodes).sum ∧
    ∀ i_m < nm, ∀ i_M < nInodes i_m, show3 it i_m i_M ∈ egmPrints show3 row false nm nInodes it := by
  refine ⟨?_, fun i hi j hj => ?_⟩
  · simp [egmPrints, List.length_flatMap]
  · simp only [egmPrints, Bool.false_eq_true, if_false, List.append_nil, List.mem_flatMap, List.mem_map,
      List.mem_range]
    exact ⟨i, hi, j, hj, rfl⟩

/-- A way of writing numbers with the assumed lengths, and a row of the table of `time_iteration`. -/
example : ∃ N : NumText ℕ, ZeroOK N ∧ ∃ p line, ItPrinter.init N tiColumns true = .ok p ∧
    p.printIteration N (tiLine 12 1 2 3 4) = .ok [line] ∧ line.length = 51 := by
  refine ⟨⟨fun n => if n < 10 then ['0'] else ['1', '2'], fun _ => ['0', '.', '0', '0', '0', 'e', '+', '0', '0'], 0⟩,
    ⟨rfl, rfl⟩, _, _, rfl, rfl, by decide⟩

end Dolo
