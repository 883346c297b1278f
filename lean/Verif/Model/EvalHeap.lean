import Verif.Model.Loops

/-!
# Decision rules as objects

`time_iteration` and `evaluate_policy` as they act on rule objects: `set_values` (decision_rule.py:116-119)
replaces the coefficients of an object in place, and assigning an object to another variable makes no copy.

Models `dolo/algos/value_iteration.py:230-364` and `dolo/algos/time_iteration.py:92-95, 117-138, 192-253`.

The store of rule objects is a list; a reference is a position in it.  The cell of a rule is `none` until
`set_values` has been called (the attribute `coefficients` does not exist yet) and the table last set
afterwards; the interpolating rule depends on nothing else that changes (`get_coefficients` copies,
decision_rule.py:162-171, 283, 354, 377-386, 409-419 or computes a new array).  What a failing call leaves in the
store is part of the model.  All rules of a call live on the same grids; a rule supplied by the caller on other
grids is not modelled, nor printing, timing and `hook`.
-/

namespace Dolo

variable {K : Type} [Field K] [LinearOrder K]

/-- The rule objects alive, by reference. -/
abbrev RuleStore (X : Type) := List (Option X)

/-- Evaluating the rule `r` (`eval_is`, `eval_ijs`): it reads `self.coefficients`, which is missing on a rule
never set, `dolo/numeric/decision_rule.py:126-150, 283-300`. -/
def readRule {X : Type} (h : RuleStore X) (r : ℕ) : Except Err X :=
  match h[r]? with
  | some (some x) => .ok x
  | _ => .error .attributeError

/-- `r.set_values(x)`, `dolo/numeric/decision_rule.py:116-119`. -/
def setRule {X : Type} (h : RuleStore X) (r : ℕ) (x : X) : RuleStore X := h.set r (some x)

/-- The argument `mdr` of `evaluate_policy`: a rule object, or the array of controls on the grid
(`isinstance(mdr, np.ndarray)`, `dolo/algos/value_iteration.py:286-287`). -/
inductive PolicyArg (C : Type) where
  | rule (r : ℕ)
  | array (x : C)

/-- The result of `evaluate_policy(..., details=True)`, line 364; `solution` is the object `mdrv`. -/
structure EvalRef (K : Type) where
  solution : ℕ
  iterations : ℕ
  tol : K
  error : K

/-- The loop of `dolo/algos/value_iteration.py:325-340`, the first argument being `maxit - it`.
`U controls v p d` is `update_value` (lines 367-397) at the controls `controls` and the values `v`, with the rules
`mdr` and `mdrv` holding the tables `p` and `d`.  An array has no `eval_ijs` (line 390; `n_inodes(0)` is at least
one).  A failing pass leaves `mdrv` as set on line 331. -/
def epHeapLoop {X : Type} (U : X → X → X → X → X) (dist : X → X → K) (tol : K) (mdr : PolicyArg X) (mdrv : ℕ)
    (controls : X) : ℕ → ℕ → K → X → RuleStore X → RuleStore X × Except Err (EvalRef K)
  | 0, it, err, _, h => (h, .ok ⟨mdrv, it, tol, err⟩)
  | k + 1, it, err, values_0, h =>
    if err > tol then
      let h := setRule h mdrv values_0
      match mdr with
      | .array _ => (h, .error .attributeError)
      | .rule r =>
        match readRule h r, readRule h mdrv with
        | .ok p, .ok d =>
          let values := U controls values_0 p d
          let err := dist values values_0
          epHeapLoop U dist tol mdr mdrv controls k (it + 1) err values h
        | .error e, _ => (h, .error e)
        | .ok _, .error e => (h, .error e)
    else (h, .ok ⟨mdrv, it, tol, err⟩)

/-- `controls`, lines 286-291: the array itself, or the rule at the grid points (on which it returns the table
it was set to, C79). -/
def epControls {X : Type} (h : RuleStore X) : PolicyArg X → Except Err X
  | .array x => .ok x
  | .rule r => readRule h r

/-- `evaluate_policy(model, mdr, tol, maxit, dr0)`, `dolo/algos/value_iteration.py:278-364`: without `dr0` a new
rule is built (line 281) and the values start from the calibrated ones `vcal` (296-298); with it, the object
`dr0` itself is used (278-279), and the values start from what it returns on the grid (299-301). -/
def evaluatePolicyHeap {X : Type} (U : X → X → X → X → X) (dist : X → X → K) (tol : K) (maxit : ℕ) (vcal : X)
    (mdr : PolicyArg X) (dr0 : Option ℕ) (h : RuleStore X) : RuleStore X × Except Err (EvalRef K) :=
  let mdrv := match dr0 with
    | some r => r
    | none => h.length
  let h' := match dr0 with
    | some _ => h
    | none => h ++ [none]
  match epControls h' mdr with
  | .error e => (h', .error e)
  | .ok controls =>
    match dr0 with
    | none => epHeapLoop U dist tol mdr mdrv controls maxit 0 10 vcal h'
    | some r =>
      match readRule h' r with
      | .error e => (h', .error e)
      | .ok values_0 => epHeapLoop U dist tol mdr mdrv controls maxit 0 10 values_0 h'

/-- Successive calls `ev = evaluate_policy(model, mdr, dr0=ev.solution, ...)`, the way `value_iteration` uses it
from its third pass on (`dolo/algos/value_iteration.py:119-125`): the list of the references returned. -/
def evaluateChain {X : Type} (U : X → X → X → X → X) (dist : X → X → K) (tol : K) (maxit : ℕ) (vcal : X) :
    List (PolicyArg X) → ℕ → RuleStore X → RuleStore X × Except Err (List ℕ)
  | [], _, h => (h, .ok [])
  | p :: ps, r, h =>
    match evaluatePolicyHeap U dist tol maxit vcal p (some r) h with
    | (h', .error e) => (h', .error e)
    | (h', .ok ev) =>
      match evaluateChain U dist tol maxit vcal ps ev.solution h' with
      | (h'', .error e) => (h'', .error e)
      | (h'', .ok rs) => (h'', .ok (ev.solution :: rs))

/-! ### Time iteration -/

/-- The loop of `dolo/algos/time_iteration.py:192-230`; `update d x` is the call of the inner solver started at
the controls `x`, on the residuals against the rule `mdr` holding `d`.  `trace` are the references appended on line
201: `copy.deepcopy(mdr)` is a new object with the values `mdr` has then. -/
def tiHeapLoop {X : Type} (update : X → X → X) (dist : X → X → K) (tol : K) (trace : Bool) (mdr : ℕ) :
    ℕ → ℕ → K → X → Option X → List ℕ → RuleStore X →
      RuleStore X × Except Err (ℕ × K × Option X × List ℕ)
  | 0, it, err, _, last, tr, h => (h, .ok (it, err, last, tr))
  | k + 1, it, err, controls_0, last, tr, h =>
    if err > tol then
      let h := setRule h mdr controls_0
      let tr := if trace then tr ++ [h.length] else tr
      let h := if trace then h ++ [h[mdr]?.join] else h
      match readRule h mdr with
      | .error e => (h, .error e)
      | .ok d =>
        let controls := update d controls_0
        let err := dist controls controls_0
        tiHeapLoop update dist tol trace mdr k (it + 1) err controls (some controls) tr h
    else (h, .ok (it, err, last, tr))

/-- The result of `time_iteration(..., details=True)`, lines 243-253: `dr` is the object `mdr`. -/
structure TIRef (K : Type) where
  dr : ℕ
  iterations : ℕ
  converged : Bool
  err : K
  trace : Option (List ℕ)

/-- `time_iteration(model, dr0, tol, maxit, trace)`, lines 92-95, 117-138, 192-253: a new rule is built (line 117),
and `dr0` is only evaluated, once per exogenous node (line 134).  (The fallback `dr0(m, s)` of lines 135-138 is
for other kinds of rules; on a rule never set it fails as well.) -/
def timeIterationHeap {X : Type} (update : X → X → X) (dist : X → X → K) (tol : K) (maxit : ℕ) (trace : Bool)
    (xcal : X) (dr0 : Option ℕ) (h : RuleStore X) : RuleStore X × Except Err (TIRef K) :=
  let mdr := h.length
  let h := h ++ [none]
  match (match dr0 with
    | none => .ok xcal
    | some r => readRule h r : Except Err X) with
  | .error e => (h, .error e)
  | .ok controls_0 =>
    match tiHeapLoop update dist tol trace mdr maxit 0 10 controls_0 none [] h with
    | (h, .error e) => (h, .error e)
    | (h, .ok (_, _, none, _)) => (h, .error .nameError)
    | (h, .ok (it, err, some controls, tr)) =>
      let h := setRule h mdr controls
      let tr := if trace then tr ++ [h.length] else tr
      let h := if trace then h ++ [h[mdr]?.join] else h
      (h, .ok ⟨mdr, it, decide (err < tol), err, if trace then some tr else none⟩)

end Dolo
