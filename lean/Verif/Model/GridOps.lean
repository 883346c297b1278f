import Verif.Model.Cartesian

/-!
# Operators on grids

Models the classes of `dolo/numeric/grids.py` with their operators `+`, `*`, `n_nodes` and `node`.
-/

namespace Dolo

variable {K : Type} [Field K]

/-- The grid objects of `dolo/numeric/grids.py:48-181`. -/
inductive AnyGrid (K : Type) where
  | empty
  | point (p : List K)
  | unstructured (nodes : List (List K))
  | uniform (g : UniformGrid K)
  | nonUniform (g : NonUniformGrid K)
  | smolyak (nodes : List (List K))

/-- `isinstance(g, CartesianGrid)`: the two subclasses of lines 104 and 141. -/
def AnyGrid.isCartesian : AnyGrid K → Bool
  | .uniform _ => true
  | .nonUniform _ => true
  | _ => false

/-- `cat_grids(grid_1, grid_2)`, `dolo/numeric/grids.py:184-194`.  Line 192 calls `CartesianGrid(min, max, n)`; this
class (lines 99-101) has no constructor of its own, and Python raises `TypeError`. -/
def catGrids : AnyGrid K → AnyGrid K → Except Err (AnyGrid K)
  | .empty, g => .ok g
  | a, b => if a.isCartesian && b.isCartesian then .error .typeError else .error (.exception "Not Implemented.")

/-- `g1 * g2`: `Grid.__mul__`, line 21-22. -/
def AnyGrid.mul (a b : AnyGrid K) : Except Err (AnyGrid K) := catGrids a b

/-- `g1 + g2`: `__add__` of `EmptyGrid` (lines 63-64), of `UniformCartesianGrid` (126-135) and of `NonUniformCartesianGrid`
(154-158).  The other classes have none, and Python raises `TypeError`. -/
def AnyGrid.add : AnyGrid K → AnyGrid K → Except Err (AnyGrid K)
  | .empty, g => .ok g
  | .uniform a, .uniform b => (UniformGrid.add a b).map .uniform
  | .uniform _, _ => .error (.exception "Not implemented.")
  | .nonUniform a, .nonUniform b => (NonUniformGrid.add a b).map .nonUniform
  | .nonUniform _, _ => .error (.exception "Not implemented.")
  | _, _ => .error .typeError

/-- `g.nodes`, lines 24-26; `None` for the empty grid (52-54) and the grid with one point (74-76). -/
def AnyGrid.nodes : AnyGrid K → Option (List (List K))
  | .empty => none
  | .point _ => none
  | .unstructured nodes => some nodes
  | .uniform g => some g.nodes
  | .nonUniform g => some g.nodes
  | .smolyak nodes => some nodes

/-- `g.n_nodes`, lines 28-30, 56-58 and 78-81. -/
def AnyGrid.nNodes : AnyGrid K → ℕ
  | .empty => 0
  | .point _ => 1
  | g => (g.nodes.getD []).length

/-- `g.node(i)` for `i ≥ 0`, lines 32-33, 60-61 and 83-84; `none` is Python's `None`. -/
def AnyGrid.node (g : AnyGrid K) (i : ℕ) : Except Err (Option (List K)) :=
  match g.nodes with
  | none => .ok none
  | some l => (pyGet l i).map some

end Dolo
