import Verif.Model.DecisionRule

/-!
# Tabulating a decision rule

Models `tabulate` and `tabulate_2d` (`dolo/algos/simulations.py:239-350`).  The result is the list of the rows of the
table, without the names of the columns (exogenous, states, controls, auxiliaries, in that order).
-/

namespace Dolo

section
variable {K : Type} [Field K]

/-- The discretized process used by `tabulate`: whether its grid is unstructured, its number of nodes, its nodes. -/
structure TabProcess (K : Type) where
  unstructured : Bool
  nNodes : ℕ
  node : ℤ → Except Err (List K)

/-- A rule as seen by `tabulate`: `endo_grid.min/max` and `dprocess` if it has them, `eval_is` if it has it, and `eval_ms`
applied to *one vector* and an array of states. -/
structure TabRule (K : Type) where
  endoBounds : Option (List (K × K))
  dprocess : Option (TabProcess K)
  evalIS : Option (ℤ → List (List K) → Except Err (List (List K)))
  evalMS : List K → List (List K) → Except Err (List (List K))

/-- What `tabulate` reads in the model. -/
structure TabModel (K : Type) where
  states : List String
  calStates : List K
  calExo : List K
  /-- The bounds of `model.domain`, in its own order; `None` if the model has no domain. -/
  domain : Option (List (K × K))
  /-- `model.exogenous.discretize()` -/
  process : TabProcess K
  /-- `model.functions["auxiliary"]` at the calibrated parameters, if there is one -/
  auxiliary : Option (List K → List K → List K → List K)

/-- The bounds given, or `dr.endo_grid.min[index], dr.endo_grid.max[index]`, or the bounds of the domain, lines 252-260. -/
def tabBounds (mod : TabModel K) (dr : TabRule K) (bounds : Option (K × K)) (index : ℕ) : Except Err (K × K) :=
  match bounds with
  | some b => .ok b
  | none =>
    match dr.endoBounds.bind fun b => b[index]? with
    | some b => .ok b
    | none =>
      match mod.domain with
      | none => .error .attributeError
      | some d => pyGet d index

/-- `model.symbols["states"].index(str(state))`, line 250. -/
def strIndex (l : List String) (s : String) : Except Err ℕ :=
  if s ∈ l then .ok (l.idxOf s) else .error .valueError

/-- Choice of the exogenous value, lines 277-285: a node number or a vector. -/
def tabExo (mod : TabModel K) (dp : TabProcess K) (i0 : Option ℤ) (m0 : Option (List K)) : ℤ ⊕ List K :=
  match i0, m0 with
  | some i, _ => .inl i
  | none, some m => .inr m
  | none, none =>
    if dp.unstructured then .inl ((dp.nNodes / 2 : ℕ) - 1 + (dp.nNodes % 2 : ℕ)) else .inr mod.calExo

/-- The exogenous value and the controls, lines 287-292. -/
def tabEval (dr : TabRule K) (dp : TabProcess K) (svec : List (List K)) :
    ℤ ⊕ List K → Except Err (List K × List (List K))
  | .inl i => do
    let m ← dp.node i
    match dr.evalIS with
    | some f => do
      let x ← f i svec
      pure (m, x)
    | none => throw .attributeError
  | .inr m => do
    let x ← dr.evalMS m svec
    pure (m, x)

/-- `tabulate`, lines 239-311. -/
def tabulate (mod : TabModel K) (dr : TabRule K) (state : String) (bounds : Option (K × K)) (n_steps : ℕ)
    (s0 : Option (List K)) (i0 : Option ℤ) (m0 : Option (List K)) : Except Err (List (List K)) := do
  let index ← strIndex mod.states state
  let b ← tabBounds mod dr bounds index
  let values := linspace b.1 b.2 n_steps
  let s0 := s0.getD mod.calStates
  if n_steps = 0 then throw .valueError
  let svec := values.map fun v => s0.set index v
  let dp := dr.dprocess.getD mod.process
  let mx ← tabEval dr dp svec (tabExo mod dp i0 m0)
  pure (List.zipWith (fun s x => mx.1 ++ (s ++ (x ++
    match mod.auxiliary with
    | none => []
    | some aux => aux mx.1 s x))) svec mx.2)

/-- `grid.min` and `grid.max` of a Cartesian grid (`dolo/numeric/grids.py:112-113` and `147-148`). -/
def CGrid.bounds [LinearOrder K] : CGrid K → List (K × K)
  | .uniform g => g.min.zip g.max
  | .nonUniform g => g.listOfNodes.map fun l => (l.foldl min (l.headD 0), l.foldl max (l.headD 0))

/-- A `DecisionRule` in `tabulate`.  `eval_ms` is called with a one-dimensional `m`: for a Cartesian exogenous grid the
assertions `m.ndim == s.ndim == 2` (`dolo/numeric/decision_rule.py:184` and `243`) come first. -/
def DecisionRule.tab [LinearOrder K] (B : Splines K) (r : DecisionRule K) (dp : TabProcess K) : TabRule K where
  endoBounds := some r.endoGrid.bounds
  dprocess := some dp
  evalIS := some (r.evalIS B)
  evalMS := fun m s =>
    match r.exoGrid, r.interp with
    | .cartesian _, .linear => .error .assertionError
    | .cartesian _, .cubic => .error .assertionError
    | _, _ => r.evalMS B [m] s

/-- A `TaylorExpansion` in `tabulate`: neither `endo_grid` nor `dprocess` nor `eval_is`; `eval_ms` ignores `m`. -/
def TaylorExp.tab {ns nx : ℕ} (t : TaylorExp ns nx K) : TabRule K where
  endoBounds := none
  dprocess := none
  evalIS := none
  evalMS := fun _ s => do
    let s ← s.mapM fun v => if h : v.length = ns then .ok (fun i : Fin ns => v.get (i.cast h.symm)) else .error .valueError
    let x ← t.evalS s
    pure (x.map List.ofFn)

/-- `dr.eval_is(i0, s)` with one vector `s`, as in `tabulate_2d`, line 339: every method of `DecisionRule` asserts that `s`
has two dimensions. -/
def DecisionRule.evalIS1 (r : DecisionRule K) (i : ℤ) (_s : List K) : Except Err (List K) :=
  match r.exoGrid, r.interp with
  | .empty, .chebychev => .error .dispatchError
  | .unstructured _, .chebychev => .error .dispatchError
  | .cartesian _, .chebychev => .error .dispatchError
  | .cartesian g, _ => do
    let _ ← pyGetInt g.nodes i
    .error .assertionError
  | .empty, _ => .error .assertionError
  | .unstructured _, _ => .error .assertionError

/-- `domain[s]`: the two bounds. -/
def domainGet (domain : List (String × (K × K))) (s : String) : Except Err (K × K) :=
  match domain.lookup s with
  | some b => .ok b
  | none => .error .keyError

/-- `tabulate_2d`, lines 314-350: the array `vv` indexed by the values of the first state, those of the second, and the variables.
`evalIS1` is `dr.eval_is` applied to a one-dimensional array of states (`None`: the rule has no such method). -/
def tabulate2d (states : List String) (calStates : List K) (domain : List (String × (K × K)))
    (evalIS1 : Option (ℤ → List K → Except Err (List K))) (sel : Option (List String)) (i0 : ℤ) (s0 : Option (List K))
    (n : ℕ × ℕ) : Except Err (List (List (List K))) := do
  let s0 := s0.getD calStates
  match sel.getD states with
  | [s1, s2] =>
    let b1 ← domainGet domain s1
    let b2 ← domainGet domain s2
    let i_x ← strIndex states s1
    let i_y ← strIndex states s2
    (linspace b1.1 b1.2 n.1).mapM fun xx =>
      (linspace b2.1 b2.2 n.2).mapM fun yy => do
        let s := (s0.set i_x xx).set i_y yy
        match evalIS1 with
        | some f => do
          let x ← f i0 s
          pure (s ++ x)
        | none => throw .attributeError
  | _ => throw .assertionError

end

end Dolo
