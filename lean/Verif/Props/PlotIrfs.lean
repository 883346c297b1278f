import Mathlib.Algebra.Order.Field.Rat
import Mathlib.Tactic.IntervalCases
import Mathlib.Tactic.Linarith
import Mathlib.Tactic.NormNum
import Verif.Model.PlotIrfs

/-!
# C146: plots of impulse responses
-/

set_option linter.unusedSectionVars false

namespace Dolo

variable {K : Type} [Field K] [LinearOrder K] [IsStrictOrderedRing K] {O : Type}

/-! ### Specification -/

/-- The values of a series. -/
def PlotFrame.values (f : PlotFrame K) (v : String) : List K := (f.series v).1 :: (f.series v).2

/-- The panel that belongs to the variable `v`: one line for each simulation, with the first `h` values of the variable. -/
def ShowsVariable (update : O → O → O) (plot_options : O) (line_options : List O) (sims : List (PlotFrame K)) (h : ℕ) (v : String)
    (title : String) (p : Panel K O) : Prop :=
  p.lines = (sims.zip line_options).map (fun a => ((a.1.values v).take h, update plot_options a.2)) ∧ p.title = title ∧
  p.xlim = h ∧ ∀ lim ∈ p.ylim, ∀ f ∈ sims, ∀ y ∈ f.values v, lim.1 < y ∧ y < lim.2

/-! ### Lemmas -/

private theorem foldl_max_le (l : List K) (a : K) : a ≤ l.foldl max a ∧ ∀ x ∈ l, x ≤ l.foldl max a := by
  induction l generalizing a with
  | nil => simp
  | cons b l ih =>
    have h := ih (max a b)
    refine ⟨le_trans (le_max_left _ _) h.1, ?_⟩
    intro x hx
    rcases List.mem_cons.1 hx with rfl | hx
    · exact le_trans (le_max_right _ _) h.1
    · exact h.2 x hx

private theorem foldl_min_le (l : List K) (a : K) : l.foldl min a ≤ a ∧ ∀ x ∈ l, l.foldl min a ≤ x := by
  induction l generalizing a with
  | nil => simp
  | cons b l ih =>
    have h := ih (min a b)
    refine ⟨le_trans h.1 (min_le_left _ _), ?_⟩
    intro x hx
    rcases List.mem_cons.1 hx with rfl | hx
    · exact le_trans h.1 (min_le_right _ _)
    · exact h.2 x hx

private theorem mem_le_seriesMax (x : K × List K) : ∀ y ∈ x.1 :: x.2, y ≤ seriesMax x := by
  intro y hy
  rcases List.mem_cons.1 hy with rfl | hy
  · exact (foldl_max_le _ _).1
  · exact (foldl_max_le _ _).2 y hy

private theorem mem_ge_seriesMin (x : K × List K) : ∀ y ∈ x.1 :: x.2, seriesMin x ≤ y := by
  intro y hy
  rcases List.mem_cons.1 hy with rfl | hy
  · exact (foldl_min_le _ _).1
  · exact (foldl_min_le _ _).2 y hy

private theorem get_ok {f : PlotFrame K} {v : String} (h : v ∈ f.columns) : f.get v = .ok (f.series v) := by
  simp [PlotFrame.get, h]

private theorem mapM_get {sims : List (PlotFrame K)} {v : String} (h : ∀ f ∈ sims, v ∈ f.columns) :
    (sims.mapM fun f => f.get v) = .ok (sims.map fun f => f.series v) := by
  induction sims with
  | nil => rfl
  | cons f sims ih =>
    rw [List.mapM_cons, get_ok (h f (by simp)), ih fun g hg => h g (by simp [hg])]
    rfl

private theorem ylim_ok {sims : List (PlotFrame K)} {v : String} (hne : sims ≠ []) (h : ∀ f ∈ sims, v ∈ f.columns) :
    ∃ lim, panelYlim v sims = .ok lim ∧ ∀ l ∈ lim, ∀ f ∈ sims, ∀ y ∈ f.values v, l.1 < y ∧ y < l.2 := by
  obtain ⟨f, sims, rfl⟩ := List.exists_cons_of_ne_nil hne
  unfold panelYlim
  rw [mapM_get h]
  simp only [List.map_cons]
  set M := ((sims.map fun f => f.series v).map seriesMax).foldl max (seriesMax (f.series v)) with hM
  set m := ((sims.map fun f => f.series v).map seriesMin).foldl min (seriesMin (f.series v)) with hm
  have hMx : ∀ g ∈ f :: sims, ∀ y ∈ g.values v, y ≤ M := by
    intro g hg y hy
    rcases List.mem_cons.1 hg with rfl | hg
    · exact le_trans (mem_le_seriesMax _ y hy) (foldl_max_le _ _).1
    · exact le_trans (mem_le_seriesMax _ y hy) ((foldl_max_le _ _).2 _ (by
        simp only [List.map_map, List.mem_map]
        exact ⟨g, hg, rfl⟩))
  have hmn : ∀ g ∈ f :: sims, ∀ y ∈ g.values v, m ≤ y := by
    intro g hg y hy
    rcases List.mem_cons.1 hg with rfl | hg
    · exact le_trans (foldl_min_le _ _).1 (mem_ge_seriesMin _ y hy)
    · exact le_trans ((foldl_min_le _ _).2 _ (by
        simp only [List.map_map, List.mem_map]
        exact ⟨g, hg, rfl⟩)) (mem_ge_seriesMin _ y hy)
  by_cases hc : M - m > 1 / 1000
  · refine ⟨_, if_pos hc, ?_⟩
    rintro l hl g hg y hy
    cases hl
    have hpos : (0 : K) < M - m := lt_trans (by norm_num) hc
    have : (0 : K) < (M - m) * (5 / 100) := mul_pos hpos (by norm_num)
    have h1 := hMx g hg y hy
    have h2 := hmn g hg y hy
    exact ⟨by simp only; linarith, by simp only; linarith⟩
  · exact ⟨none, if_neg hc, by simp⟩

private theorem lines_ok (update : O → O → O) (po : O) (lo : List O) (h : ℕ) (v : String) (j : ℕ) (sims : List (PlotFrame K))
    (hlo : j + sims.length ≤ lo.length) (hv : ∀ f ∈ sims, v ∈ f.columns) :
    panelLines update po lo h v j sims
      = .ok ((sims.zip (lo.drop j)).map fun a => ((a.1.values v).take h, update po a.2)) := by
  induction sims generalizing j with
  | nil => rfl
  | cons f sims ih =>
    have hj : j < lo.length := by simp only [List.length_cons] at hlo; omega
    rw [panelLines, List.getElem?_eq_getElem hj, List.drop_eq_getElem_cons hj]
    change (f.get v >>= _) = _
    rw [get_ok (hv f (by simp)), ih (j + 1) (by simp only [List.length_cons] at hlo; omega) fun g hg => hv g (by simp [hg])]
    rfl

private theorem lines_short (update : O → O → O) (po : O) (lo : List O) (h : ℕ) (v : String) (j : ℕ) (sims : List (PlotFrame K))
    (hlo : lo.length < j + sims.length) (hj : j ≤ lo.length) (hv : ∀ f ∈ sims, v ∈ f.columns) :
    panelLines update po lo h v j sims = .error .indexError := by
  induction sims generalizing j with
  | nil => simp at hlo; omega
  | cons f sims ih =>
    by_cases hj' : j < lo.length
    · rw [panelLines, List.getElem?_eq_getElem hj']
      change (f.get v >>= _) = _
      rw [get_ok (hv f (by simp)), ih (j + 1) (by simp only [List.length_cons] at hlo; omega) hj'
        fun g hg => hv g (by simp [hg])]
      rfl
    · rw [panelLines, List.getElem?_eq_none (by omega)]

private theorem panels_ok (update : O → O → O) (po : O) (lo : List O) (titles : List String) (h n : ℕ) (sims : List (PlotFrame K))
    (hne : sims ≠ []) (hlo : sims.length ≤ lo.length) (i : ℕ) (vs : List String) (hn : i + vs.length ≤ n)
    (ht : i + vs.length ≤ titles.length) (hv : ∀ v ∈ vs, ∀ f ∈ sims, v ∈ f.columns) :
    ∃ ps, panels update po lo titles h n sims i vs = .ok ps ∧
      List.Forall₂ (fun (a : String × String) p => ShowsVariable update po lo sims h a.1 a.2 p) (vs.zip (titles.drop i)) ps := by
  induction vs generalizing i with
  | nil => exact ⟨[], rfl, by simp⟩
  | cons v vs ih =>
    simp only [List.length_cons] at hn ht
    have hi : i < titles.length := by omega
    obtain ⟨ps, h1, h2⟩ := ih (i + 1) (by omega) (by omega) fun w hw => hv w (by simp [hw])
    obtain ⟨lim, h3, h4⟩ := ylim_ok hne (hv v (by simp))
    refine ⟨⟨(sims.zip (lo.drop 0)).map fun a => ((a.1.values v).take h, update po a.2), titles[i], h, lim⟩ :: ps, ?_, ?_⟩
    · rw [panels, if_pos (show i < n by omega), lines_ok update po lo h v 0 sims (by omega) (hv v (by simp)),
        List.getElem?_eq_getElem hi, h3, h1]
      rfl
    · rw [List.drop_eq_getElem_cons hi, List.zip_cons_cons]
      exact List.Forall₂.cons ⟨by simp, rfl, rfl, h4⟩ h2

/-! ### C146 -/

/-- **C146 (partial).**  With two to twelve variables, present in all simulations, and at least as many options of lines (by
default: variables) as simulations, `plot_irfs` draws one panel for each variable, in the order and with the titles given
(by default the names), showing for each simulation the first values of the variable up to the horizon; all values are inside
the limits when limits are set.  Missing: one variable (`C146_one_variable_fails`) and, by default, more simulations than
variables (`C146_many_simulations_fails`). -/
theorem C146_panels_partial (update : O → O → O) (empty : O) (sims : List (PlotFrame K)) (hne : sims ≠ []) (vs : List String)
    (h2 : 2 ≤ vs.length) (h12 : vs.length ≤ 12) (hv : ∀ v ∈ vs, ∀ f ∈ sims, v ∈ f.columns) (titles : Option (List String))
    (ht : ∀ t ∈ titles, vs.length ≤ t.length) (h : ℕ) (plot_options : O) (line_options : Option (List O))
    (hlo : sims.length ≤ (line_options.getD (List.replicate vs.length empty)).length) :
    ∃ ps, plotIrfs update empty sims (some vs) titles none (some h) plot_options line_options = .ok ps ∧
      List.Forall₂ (fun (a : String × String) p => ShowsVariable update plot_options
        (line_options.getD (List.replicate vs.length empty)) sims h a.1 a.2 p) (vs.zip (titles.getD vs)) ps := by
  have hl : ∃ l n, defaultLayout.lookup vs.length = some l ∧ subplotsRavel l = .ok n ∧ vs.length ≤ n := by
    generalize vs.length = m at h2 h12
    interval_cases m <;> exact ⟨_, _, rfl, rfl, by norm_num⟩
  obtain ⟨l, n, hl1, hl2, hl3⟩ := hl
  have ht' : vs.length ≤ (titles.getD vs).length := by
    rcases titles with _ | t
    · exact le_rfl
    · exact ht t rfl
  obtain ⟨ps, h3, h4⟩ := panels_ok update plot_options (line_options.getD (List.replicate vs.length empty)) (titles.getD vs) h n
    sims hne hlo 0 vs (by omega) (by omega) hv
  refine ⟨ps, ?_, h4⟩
  rw [← h3]
  unfold plotIrfs
  change (if vs.length > 12 then _ else _) = _
  rw [if_neg (by omega), hl1]
  change (subplotsRavel l >>= _) = _
  rw [hl2]
  rfl

/-- **C146, layouts without panels.**  A layout with no rows or no columns is refused, whatever is plotted. -/
theorem C146_empty_layout (update : O → O → O) (empty : O) (sims : List (PlotFrame K)) (vs : List String) (h12 : vs.length ≤ 12)
    (titles : Option (List String)) (r c : ℕ) (hrc : r = 0 ∨ c = 0) (h : ℕ) (plot_options : O) (line_options : Option (List O)) :
    plotIrfs update empty sims (some vs) titles (some (r, c)) (some h) plot_options line_options = .error .valueError := by
  unfold plotIrfs
  change (if vs.length > 12 then _ else _) = _
  rw [if_neg (by omega)]
  change (subplotsRavel (r, c) >>= _) = _
  have : subplotsRavel (r, c) = .error .valueError := by
    unfold subplotsRavel
    rw [if_neg (by simp only [Prod.mk.injEq]; omega), if_pos hrc]
  rw [this]
  rfl

/-- **C146 fails for one variable:** whatever the simulations, a plot of one variable raises an exception, since `subplots`
then returns a single panel, not an array. -/
theorem C146_one_variable_fails (update : O → O → O) (empty : O) (sims : List (PlotFrame K)) (v : String)
    (titles : Option (List String)) (h : ℕ) (plot_options : O) (line_options : Option (List O)) :
    plotIrfs update empty sims (some [v]) titles none (some h) plot_options line_options = .error .attributeError := rfl

/-- **C146 fails for more simulations than variables:** the default options of lines are counted by the variables, and read by
the number of the simulation. -/
theorem C146_many_simulations_fails (update : O → O → O) (empty : O) (sims : List (PlotFrame K)) (vs : List String)
    (h2 : 2 ≤ vs.length) (h12 : vs.length ≤ 12) (hv : ∀ v ∈ vs, ∀ f ∈ sims, v ∈ f.columns) (hs : vs.length < sims.length)
    (titles : Option (List String)) (h : ℕ) (plot_options : O) :
    plotIrfs update empty sims (some vs) titles none (some h) plot_options none = .error .indexError := by
  have hl : ∃ l n, defaultLayout.lookup vs.length = some l ∧ subplotsRavel l = .ok n ∧ vs.length ≤ n := by
    generalize vs.length = m at h2 h12
    interval_cases m <;> exact ⟨_, _, rfl, rfl, by norm_num⟩
  obtain ⟨l, n, hl1, hl2, hl3⟩ := hl
  unfold plotIrfs
  change (if vs.length > 12 then _ else _) = _
  rw [if_neg (by omega), hl1]
  change (subplotsRavel l >>= _) = _
  rw [hl2]
  change panels update plot_options (List.replicate vs.length empty) _ h n sims 0 vs = _
  rcases vs with _ | ⟨v, vs⟩
  · simp at h2
  · rw [panels, if_pos (show 0 < n by simp only [List.length_cons] at hl3; omega),
      lines_short _ _ _ _ _ _ _ (by simpa using hs) (by simp) (hv v (by simp))]
    rfl

/-- Two variables, two simulations: the hypotheses of `C146_panels_partial` hold, and the first panel shows the first two
values of `y` of both. -/
example :
    let f : PlotFrame ℚ := ⟨["y", "k"], 3, fun v => if v = "y" then (1, [2, 3]) else (0, [0, 0])⟩
    let g : PlotFrame ℚ := ⟨["y", "k"], 3, fun v => if v = "y" then (4, [5, 6]) else (0, [0, 0])⟩
    ∃ ps, plotIrfs (fun (_ : ℕ) b => b) 0 [f, g] (some ["y", "k"]) none none (some 2) 0 none = .ok ps ∧
      (ps.map fun p => (p.lines, p.title)) = [([([1, 2], 0), ([4, 5], 0)], "y"), ([([0, 0], 0), ([0, 0], 0)], "k")] ∧
      (ps.map fun p => p.ylim) = [some (3 / 4, 25 / 4), none] := by
  intro f g
  obtain ⟨ps, h1, h2⟩ := C146_panels_partial (fun (_ : ℕ) b => b) 0 [f, g] (by simp) ["y", "k"] (by simp) (by simp)
    (by intro v hv x hx; simp only [List.mem_cons, List.not_mem_nil, or_false] at hx; rcases hx with rfl | rfl <;> exact hv)
    none (by simp) 2 0 none (by simp)
  have e1 : (plotIrfs (fun (_ : ℕ) b => b) 0 [f, g] (some ["y", "k"]) none none (some 2) 0 none).toOption.map
      (fun ps => ps.map fun p => (p.lines, p.title))
      = some [([([1, 2], 0), ([4, 5], 0)], "y"), ([([0, 0], 0), ([0, 0], 0)], "k")] := by decide +kernel
  have e2 : (plotIrfs (fun (_ : ℕ) b => b) 0 [f, g] (some ["y", "k"]) none none (some 2) 0 none).toOption.map
      (fun ps => ps.map fun p => p.ylim) = some [some (3 / 4, 25 / 4), none] := by decide +kernel
  rw [h1] at e1 e2
  exact ⟨ps, h1, Option.some_injective _ e1, Option.some_injective _ e2⟩

/-- `C146_empty_layout` for two variables and no rows. -/
example (f : PlotFrame ℚ) : plotIrfs (fun (_ : ℕ) b => b) 0 [f] (some ["y", "k"]) none (some (0, 2)) (some 2) 0 none
    = .error .valueError :=
  C146_empty_layout _ _ _ _ (by simp) _ _ _ (.inl rfl) _ _ _

end Dolo
