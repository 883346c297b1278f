import Mathlib.Algebra.Field.Defs
import Mathlib.Algebra.BigOperators.Group.List.Basic
import Verif.Model.Cartesian
import Verif.Model.Taylor

/-!
# Interpolated decision rules

Models `DecisionRule` and its multimethods (`dolo/numeric/decision_rule.py:81-463`) together with the grids
(`dolo/numeric/grids.py:48-161`).  The routines of the package `interpolation.splines` (`eval_linear`, `eval_cubic`,
`prefilter_cubic`) are parameters; they are applied to every row of the array of points.  Smolyak grids (for which no
method is registered, so that every call raises `NotImplementedError`) are not modelled.
-/

namespace Dolo

/-- An array of floats: its shape, and its entries in C order. -/
structure NdArr (K : Type) where
  shape : List ℕ
  data : List K

section
variable {K : Type}

/-- `x.reshape(tuple(n) + (-1,))`. -/
def NdArr.reshapeLast (x : NdArr K) (n : List ℕ) : Except Err (NdArr K) :=
  if n.prod = 0 then .error .valueError
  else if x.data.length % n.prod = 0 then .ok ⟨n ++ [x.data.length / n.prod], x.data⟩
  else .error .valueError

/-- `x[i]` for `i` in `range(x.shape[0])` (and `IndexError` past the end). -/
def NdArr.item (x : NdArr K) (i : ℕ) : Except Err (NdArr K) :=
  match x.shape with
  | [] => .error .indexError
  | n :: rest => if i < n then .ok ⟨rest, (x.data.drop (i * rest.prod)).take rest.prod⟩ else .error .indexError

/-- `l[i]` for a Python integer: negative numbers count from the end. -/
def pyGetInt {α : Type} (l : List α) (i : ℤ) : Except Err α :=
  if 0 ≤ i then pyGet l i.toNat
  else if 0 ≤ i + l.length then pyGet l (i + l.length).toNat
  else .error .indexError

/-- One dimension of a grid as given to the interpolation routines (`__numba_repr__`): `(min, max, n)` or the nodes. -/
inductive Axis (K : Type) where
  | uniform (min max : K) (n : ℕ)
  | nodes (l : List K)

/-- The routines of `interpolation.splines`, on one point. -/
structure Splines (K : Type) where
  evalLinear : List (Axis K) → NdArr K → List K → Except Err (List K)
  prefilterCubic : List (Axis K) → NdArr K → Except Err (NdArr K)
  evalCubic : List (Axis K) → NdArr K → List K → Except Err (List K)

/-- A Cartesian grid of either class. -/
inductive CGrid (K : Type) where
  | uniform (g : UniformGrid K)
  | nonUniform (g : NonUniformGrid K)

/-- The grids for the exogenous process. -/
inductive ExoGrid (K : Type) where
  | empty
  | unstructured (nodes : List (List K))
  | cartesian (g : CGrid K)

/-- `grid.n`. -/
def CGrid.n : CGrid K → List ℕ
  | .uniform g => g.n
  | .nonUniform g => g.listOfNodes.map List.length

/-- `grid.nodes`. -/
def CGrid.nodes : CGrid K → List (List K)
  | .uniform g => g.nodes
  | .nonUniform g => g.nodes

/-- `UniformCartesianGrid.__numba_repr__`, `dolo/numeric/grids.py:137-138`, where `d = len(min)`. -/
def uniformAxes : List K → List K → List ℕ → Except Err (List (Axis K))
  | [], _, _ => .ok []
  | a :: as, b :: bs, n :: ns => do
    let rest ← uniformAxes as bs ns
    pure (.uniform a b n :: rest)
  | _ :: _, _, _ => .error .indexError

/-- `__numba_repr__`, `dolo/numeric/grids.py:137-138` and `160-161`. -/
def CGrid.numbaRepr : CGrid K → Except Err (List (Axis K))
  | .uniform g => uniformAxes g.min g.max g.n
  | .nonUniform g => .ok (g.listOfNodes.map .nodes)

/-- `exo_grid + endo_grid` for two Cartesian grids, `dolo/numeric/grids.py:126-135` and `154-158`. -/
def CGrid.add [Field K] : CGrid K → CGrid K → Except Err (CGrid K)
  | .uniform g, .uniform h => do pure (.uniform (← g.add h))
  | .nonUniform g, .nonUniform h => do pure (.nonUniform (← g.add h))
  | _, _ => .error (.exception "Not implemented.")

/-- `interp_methods`, `dolo/numeric/decision_rule.py:44-49` (no method is registered for `Chebychev`). -/
inductive Interp where
  | linear
  | cubic
  | chebychev

/-- `interp_methods[interp_method]` with the check of lines 95-98. -/
def interpOf (name : String) : Except Err Interp :=
  if name = "cubic" then .ok .cubic
  else if name = "linear" then .ok .linear
  else if name = "multilinear" then .ok .linear
  else if name = "chebychev" then .ok .chebychev
  else .error (.exception "Unknown interpolation type")

/-- What `get_coefficients` returns: one array, or a list with one array per exogenous node. -/
inductive Coefs (K : Type) where
  | one (a : NdArr K)
  | list (l : List (NdArr K))

variable [Field K] (B : Splines K)

/-- `x.shape[0]`. -/
def NdArr.len (x : NdArr K) : Except Err ℕ := pyGet x.shape 0

/-- `get_coefficients`, `dolo/numeric/decision_rule.py:161-419`.  Two methods are registered for an unstructured grid with linear
interpolation (lines 271-279, which reshape the values, and lines 342-350, which do not): the later registration replaces
the earlier one. -/
def getCoefficients (exo : ExoGrid K) (endo : CGrid K) (interp : Interp) (x : NdArr K) : Except Err (Coefs K) :=
  match exo, interp with
  | .cartesian g, .linear => do
    let grid ← g.add endo
    let xx ← x.reshapeLast grid.n
    pure (.one xx)
  | .cartesian g, .cubic => do
    let grid ← g.add endo
    let x ← x.reshapeLast grid.n
    let gg ← grid.numbaRepr
    let c ← B.prefilterCubic gg x
    pure (.one c)
  | .unstructured _, .linear => do
    let n ← x.len
    let l ← (List.range n).mapM fun i => x.item i
    pure (.list l)
  | .unstructured _, .cubic => do
    let gg ← endo.numbaRepr
    let n ← x.len
    let l ← (List.range n).mapM fun i => do
      let xi ← x.item i
      let xi ← xi.reshapeLast endo.n
      B.prefilterCubic gg xi
    pure (.list l)
  | .empty, .linear => do
    let xx ← x.reshapeLast endo.n
    pure (.one xx)
  | .empty, .cubic => do
    let gg ← endo.numbaRepr
    let x0 ← x.item 0
    let x0 ← x0.reshapeLast endo.n
    let c ← B.prefilterCubic gg x0
    pure (.one c)
  | _, .chebychev => .error .dispatchError

/-- A `DecisionRule` object: `coefficients` is absent until values are set; `inode` is the one of its discretized
process. -/
structure DecisionRule (K : Type) where
  exoGrid : ExoGrid K
  endoGrid : CGrid K
  interp : Interp
  inode : ℕ → ℕ → List K
  coefficients : Option (Coefs K)

/-- `DecisionRule.__init__`, lines 86-114, with `set_values` (lines 116-119). -/
def DecisionRule.init (exo : ExoGrid K) (endo : CGrid K) (interp_method : String) (inode : ℕ → ℕ → List K)
    (values : Option (NdArr K)) : Except Err (DecisionRule K) := do
  let interp ← interpOf interp_method
  match values with
  | none => pure ⟨exo, endo, interp, inode, none⟩
  | some x =>
    let c ← getCoefficients B exo endo interp x
    pure ⟨exo, endo, interp, inode, some c⟩

/-- `itp.coefficients`, used as one array. -/
def DecisionRule.coefs (r : DecisionRule K) : Except Err (NdArr K) :=
  match r.coefficients with
  | some (.one a) => .ok a
  | some (.list _) => .error .typeError
  | none => .error .attributeError

/-- `itp.coefficients[i]` for a list of arrays. -/
def DecisionRule.coefsAt (r : DecisionRule K) (i : ℤ) : Except Err (NdArr K) :=
  match r.coefficients with
  | some (.list l) => pyGetInt l i
  | some (.one _) => .error .typeError
  | none => .error .attributeError

/-- `np.concatenate([m, s], axis=1)`: both arrays need the same number of rows. -/
def concatCols (m s : List (List K)) : Except Err (List (List K)) :=
  if m.length = s.length then .ok (List.zipWith (· ++ ·) m s) else .error .valueError

/-- `eval_linear` or `eval_cubic`, on every row. -/
def splineEval (interp : Interp) (gg : List (Axis K)) (c : NdArr K) (x : List (List K)) : Except Err (List (List K)) :=
  match interp with
  | .linear => x.mapM (B.evalLinear gg c)
  | .cubic => x.mapM (B.evalCubic gg c)
  | .chebychev => .error .dispatchError

/-- `eval_s`, lines 389-402 and 423-436: only for an empty exogenous grid. -/
def DecisionRule.evalS (r : DecisionRule K) (s : List (List K)) : Except Err (List (List K)) :=
  match r.exoGrid, r.interp with
  | _, .chebychev => .error .dispatchError
  | .empty, _ => do
    let coeffs ← r.coefs
    let gg ← r.endoGrid.numbaRepr
    splineEval B r.interp gg coeffs s
  | _, _ => .error .dispatchError

/-- `eval_ms`, lines 174-195 and 231-252 (Cartesian exogenous grid) and 454-463 (empty grid). -/
def DecisionRule.evalMS (r : DecisionRule K) (m s : List (List K)) : Except Err (List (List K)) :=
  match r.exoGrid, r.interp with
  | .empty, _ => r.evalS B s
  | _, .chebychev => .error .dispatchError
  | .cartesian g, _ => do
    let grid ← g.add r.endoGrid
    let coeffs ← r.coefs
    let gg ← grid.numbaRepr
    let x ← concatCols m s
    splineEval B r.interp gg coeffs x
  | .unstructured _, _ => .error .dispatchError

/-- `eval_is`, lines 198-208 and 255-264 (Cartesian exogenous grid), 321-336 and 353-370 (unstructured), 442-451
(empty). -/
def DecisionRule.evalIS (r : DecisionRule K) (i : ℤ) (s : List (List K)) : Except Err (List (List K)) :=
  match r.exoGrid, r.interp with
  | .empty, _ => r.evalS B s
  | _, .chebychev => .error .dispatchError
  | .cartesian g, _ => do
    let m ← pyGetInt g.nodes i
    r.evalMS B [m] s
  | .unstructured _, _ => do
    let coeffs ← r.coefsAt i
    let gg ← r.endoGrid.numbaRepr
    splineEval B r.interp gg coeffs s

/-- `DecisionRule.eval_ijs`, lines 136-148. -/
def DecisionRule.evalIJS (r : DecisionRule K) (i j : ℕ) (s : List (List K)) : Except Err (List (List K)) :=
  match r.exoGrid with
  | .unstructured _ => r.evalIS B j s
  | .empty => r.evalS B s
  | .cartesian _ =>
    let m := List.replicate s.length (r.inode i j)
    r.evalMS B m s

/-- The methods used by `__call__`. -/
def DecisionRule.ops (r : DecisionRule K) : RuleOps (List K) (List K) (List K) where
  evalS := r.evalS B
  evalIS := some (r.evalIS B)
  evalMS := r.evalMS B

end

end Dolo
