import Mathlib.Algebra.Order.Ring.Defs
import Mathlib.Algebra.Order.Field.Basic
import Verif.Model.Err

/-!
# Plots of impulse responses

`dolo/misc/graphs.py`.  A figure is the list of what is drawn in its panels.  A simulation is a data frame: its columns
and, for each, a series, given by its first value and the others.

Simplified: all simulations are given as a list (lines 35-37 make one of a single simulation); series are not empty; the
size of the figure and the grid lines are left out; options of lines are a parameter type with an empty element, joined by
`update`.
-/

namespace Dolo

variable {K : Type} [Field K] [LinearOrder K] {O : Type}

/-- A data frame. -/
structure PlotFrame (K : Type) where
  columns : List String
  rows : ℕ
  series : String → K × List K

/-- `sim[v]`. -/
def PlotFrame.get (f : PlotFrame K) (v : String) : Except Err (K × List K) :=
  if v ∈ f.columns then .ok (f.series v) else .error .keyError

/-- `default_layout`, `dolo/misc/graphs.py:6-19`, without the sizes of figures. -/
def defaultLayout : List (ℕ × (ℕ × ℕ)) :=
  [(1, 1, 1), (2, 1, 2), (3, 1, 3), (4, 2, 2), (5, 2, 3), (6, 2, 3), (7, 4, 2), (8, 4, 2), (9, 3, 3), (10, 4, 3),
    (11, 4, 3), (12, 4, 3)]

/-- `fig, axes = plt.subplots(r, c)` and `axes = axes.ravel()`, lines 62-63: with one row and one column `axes` is a single
object, which has no method `ravel`.  The result is the number of panels. -/
def subplotsRavel (layout : ℕ × ℕ) : Except Err ℕ :=
  if layout = (1, 1) then .error .attributeError
  else if layout.1 = 0 ∨ layout.2 = 0 then .error .valueError
  else .ok (layout.1 * layout.2)

/-- What is drawn in a panel: the lines with their options, the title, the upper limit of the horizontal axis, and the
limits of the vertical axis when they are set. -/
structure Panel (K O : Type) where
  lines : List (List K × O)
  title : String
  xlim : ℕ
  ylim : Option (K × K)

/-- The lines of one panel, `for j, sim in enumerate(sims)`, lines 66-70. -/
def panelLines (update : O → O → O) (plot_options : O) (line_options : List O) (horizon : ℕ) (v : String) :
    ℕ → List (PlotFrame K) → Except Err (List (List K × O))
  | _, [] => .ok []
  | j, sim :: sims =>
    match line_options[j]? with
    | none => .error .indexError
    | some o => do
      let x ← sim.get v
      let rest ← panelLines update plot_options line_options horizon v (j + 1) sims
      .ok (((x.1 :: x.2).take horizon, update plot_options o) :: rest)

/-- `max([sim[v].max() for sim in sims])`, line 73; `series.max()` is the largest value of the whole series. -/
def seriesMax (x : K × List K) : K := x.2.foldl max x.1

/-- The same for `min`, line 74. -/
def seriesMin (x : K × List K) : K := x.2.foldl min x.1

/-- Lines 73-77. -/
def panelYlim (v : String) (sims : List (PlotFrame K)) : Except Err (Option (K × K)) := do
  let xs ← sims.mapM fun sim => sim.get v
  match xs with
  | [] => .error .valueError
  | x :: xs =>
    let max_ := (xs.map seriesMax).foldl max (seriesMax x)
    let min_ := (xs.map seriesMin).foldl min (seriesMin x)
    if max_ - min_ > 1 / 1000 then
      let margin := (max_ - min_) * (5 / 100)
      .ok (some (min_ - margin, max_ + margin))
    else .ok none

/-- `for i, v in enumerate(variables)`, lines 64-78, with `n` panels. -/
def panels (update : O → O → O) (plot_options : O) (line_options : List O) (titles : List String) (horizon n : ℕ)
    (sims : List (PlotFrame K)) : ℕ → List String → Except Err (List (Panel K O))
  | _, [] => .ok []
  | i, v :: vs =>
    if i < n then do
      let lines ← panelLines update plot_options line_options horizon v 0 sims
      match titles[i]? with
      | none => .error .indexError
      | some title => do
        let ylim ← panelYlim v sims
        let rest ← panels update plot_options line_options titles horizon n sims (i + 1) vs
        .ok (⟨lines, title, horizon, ylim⟩ :: rest)
    else .error .indexError

/-- `plot_irfs(sims, variables, titles, layout, horizon, plot_options=..., line_options=...)`,
`dolo/misc/graphs.py:22-81`. -/
def plotIrfs (update : O → O → O) (empty : O) (sims : List (PlotFrame K)) (vars : Option (List String))
    (titles : Option (List String)) (layout : Option (ℕ × ℕ)) (horizon : Option ℕ) (plot_options : O)
    (line_options : Option (List O)) : Except Err (List (Panel K O)) := do
  let vars ← match vars, sims with
    | some vs, _ => .ok vs
    | none, sim :: _ => .ok sim.columns
    | none, [] => .error .indexError
  let horizon ← match horizon, sims with
    | some h, _ => .ok h
    | none, sim :: _ => .ok sim.rows
    | none, [] => .error .indexError
  let titles := titles.getD vars
  let n_v := vars.length
  let max_v := 12
  if n_v > max_v then .error (.exception "Too many graphs")
  else
    let layout ← match layout with
      | some l => .ok l
      | none => match defaultLayout.lookup n_v with
        | some l => .ok l
        | none => .error .keyError
    let line_options := line_options.getD (List.replicate n_v empty)
    let n ← subplotsRavel layout
    panels update plot_options line_options titles horizon n sims 0 vars

end Dolo
