import Verif.Model.DecisionRule
import Verif.Model.Perturbation

/-!
# Handing a solution to another method

What the solvers do first with the rule they are given: `time_iteration` (`dolo/algos/time_iteration.py:126-138`),
`improved_time_iteration` (`dolo/algos/improved_time_iteration.py:335-337`), `evaluate_policy`
(`dolo/algos/value_iteration.py:286-291, 390`) and `egm` (`dolo/algos/egm.py:83-84, 110`).  A rule object is described
by its methods; a method a class does not have is `none`, and reading it is an `AttributeError`.  Arrays of states and
controls are lists of rows; the arrays of controls have one entry of `N` rows per exogenous node.
-/

namespace Dolo

/-- A rule object: the methods of `CallableDecisionRule` (Model/Taylor), and `eval_ijs` if it has it. -/
structure RuleObject (M S V : Type) where
  ops : RuleOps M S V
  evalIJS : Option (ℕ → ℕ → List S → Except Err (List V))

/-- What the user may give: a rule object; the result of a solver with `details=True` (`dolo/algos/results.py`), whose
field `dr` is the rule; or a Python function of the exogenous value (or index) and the states. -/
inductive SolverArg (M S V : Type) where
  | rule (o : RuleObject M S V)
  | result (o : RuleObject M S V)
  | function (f : Exo M → Pts S → Except Err (Pts V))

/-- `dr0(m, s)`: the result classes of `dolo/algos/results.py` are not callable. -/
def SolverArg.call {M S V : Type} : SolverArg M S V → Exo M → Pts S → Except Err (Pts V)
  | .rule o => o.ops.call2
  | .result _ => fun _ _ => .error .typeError
  | .function f => f

/-- `dr0.eval_is(i, s)`: neither a function nor a result has this attribute. -/
def SolverArg.evalIS {M S V : Type} : SolverArg M S V → ℤ → List S → Except Err (List V)
  | .rule o => match o.ops.evalIS with
    | some f => f
    | none => fun _ _ => .error .attributeError
  | .result _ => fun _ _ => .error .attributeError
  | .function _ => fun _ _ => .error .attributeError

/-- `dr.eval_ijs(i, j, s)`. -/
def SolverArg.evalIJS {M S V : Type} : SolverArg M S V → ℕ → ℕ → List S → Except Err (List V)
  | .rule o => match o.evalIJS with
    | some f => f
    | none => fun _ _ _ => .error .attributeError
  | .result _ => fun _ _ _ => .error .attributeError
  | .function _ => fun _ _ _ => .error .attributeError

/-- `controls[i, :, :] = x`: an array with `N` rows, or one row (or a vector), repeated. -/
def assignRows {V : Type} (N : ℕ) : Pts V → Except Err (List V)
  | .vec v => .ok (List.replicate N v)
  | .rows l =>
    if l.length = N then .ok l
    else match l with
      | [v] => .ok (List.replicate N v)
      | _ => .error .valueError

/-- `isinstance(dr0, AlgoResult)`, `dolo/algos/time_iteration.py:130-131` (also
`dolo/algos/simulations.py:110-111, 245-246, 319-320`). -/
def SolverArg.unwrap {M S V : Type} : SolverArg M S V → SolverArg M S V
  | .result o => .rule o
  | a => a

/-- The initial controls of `time_iteration`, `dolo/algos/time_iteration.py:130-138`; `nodes` are the nodes of the
process, `s` the grid. -/
def startTI {M S V : Type} (a : SolverArg M S V) (nodes : List M) (s : List S) : Except Err (List (List V)) :=
  let a := a.unwrap
  match (List.range nodes.length).mapM fun (i : ℕ) => do assignRows s.length (← a.call (.int i) (.rows s)) with
  | .ok t => .ok t
  | .error _ => nodes.mapM fun m => do assignRows s.length (← a.call (.float (.vec m)) (.rows s))

/-- The initial controls of `improved_time_iteration`, `dolo/algos/improved_time_iteration.py:307, 335-337`; `n` is
`dprocess.n_nodes`. -/
def startITI {M S V : Type} (a : SolverArg M S V) (n : ℕ) (s : List S) : Except Err (List (List V)) :=
  (List.range (max n 1)).mapM fun (i : ℕ) => do assignRows s.length (.rows (← a.evalIS i s))

/-- The controls of `evaluate_policy`, `dolo/algos/value_iteration.py:289-291`, and the first future controls,
line 390, at the states `S`. -/
def startEval {M S V : Type} (a : SolverArg M S V) (n : ℕ) (s S : List S) : Except Err (List (List V) × List V) := do
  let controls ← (List.range n).mapM fun (i : ℕ) => do assignRows s.length (.rows (← a.evalIS i s))
  let X ← a.evalIJS 0 0 S
  pure (controls, X)

/-- The future controls of the first iteration of `egm`, `dolo/algos/egm.py:83-84, 105-110`: `S i j` are the states
that follow node `i` when the next node is `j`. -/
def startEGM {M S V : Type} (a : SolverArg M S V) (n k : ℕ) (S : ℕ → ℕ → List S) :
    Except Err (List (List (Pts V))) :=
  (List.range n).mapM fun i => (List.range k).mapM fun (j : ℕ) => a.call (.int j) (.rows (S i j))

section
variable {K : Type} [Field K]

/-- A `DecisionRule`. -/
def DecisionRule.object (B : Splines K) (r : DecisionRule K) : RuleObject (List K) (List K) (List K) :=
  ⟨r.ops B, some (r.evalIJS B)⟩

/-- A `ConstantDecisionRule`, `dolo/numeric/decision_rule.py:469-484`: no `eval_ijs`. -/
def constantObject {V : Type} (x0 : V) (M S : Type) : RuleObject M S V := ⟨constantOps x0 M S, none⟩

/-- A `TaylorExpansion`, `dolo/numeric/taylor_expansion.py:5-54`: neither `eval_is` nor `eval_ijs`. -/
def TaylorExp.object {ns nx : ℕ} (t : TaylorExp ns nx K) (nm : ℕ) :
    RuleObject (Fin nm → K) (Fin ns → K) (Fin nx → K) :=
  ⟨t.ops nm, none⟩

/-- A `BivariateTaylor`, the rule returned by `perturb`, `dolo/algos/perturbation.py:65-109`: `eval_s` and `eval_ms`
only. -/
def BiTaylor.object {nm ns nx : ℕ} (t : BiTaylor nm ns nx K) : RuleObject (Fin nm → K) (Fin ns → K) (Fin nx → K) where
  ops := {
    evalS := fun s => t.evalRows none s
    evalIS := none
    evalMS := fun m s => t.evalRows (some m) s }
  evalIJS := none

/-- A `CustomDR`, `dolo/numeric/decision_rule.py:495-559`: `eval_ms` only; `gufun` is the compiled function, applied to
rows. -/
def customObject {M S V : Type} (gufun : List M → List S → Except Err (List V)) : RuleObject M S V where
  ops := { evalS := fun _ => .error .attributeError, evalIS := none, evalMS := gufun }
  evalIJS := none

end

end Dolo
