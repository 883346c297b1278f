import Verif.Model.HigherOrder

/-!
# Taylor-expansion decision rules

Models `CallableDecisionRule.__call__` (`dolo/numeric/decision_rule.py:54-77`), `TaylorExpansion`
(`dolo/numeric/taylor_expansion.py:5-108`) and `perturb` of `dolo/algos/perturbations_higher_order.py:9-87` after the
call of `state_perturb`.  Exact arithmetic.  The attributes `A`, `B` and `sigma` that `perturb` attaches to the rule
are modelled as the two matrices returned beside it.
-/

namespace Dolo

section
variable {K : Type} [Field K]

/-- Object of class `TaylorExpansion`: `order`, `S_bar`, `X_bar`, `X_s`, and `X_ss`, `X_sss` if set. -/
structure TaylorExp (ns nx : ℕ) (K : Type) where
  order : ℕ
  S_bar : Fin ns → K
  X_bar : Fin nx → K
  X_s : Fin nx → Fin ns → K
  X_ss : Option (Fin nx → Fin ns → Fin ns → K)
  X_sss : Option (Fin nx → Fin ns → Fin ns → Fin ns → K)

/-- The coefficients given after `X_s`: none, `X_ss`, `X_ss` and `X_sss`, or these and more (of whatever shape). -/
inductive TaylorTail (ns nx : ℕ) (K : Type) where
  | one
  | two (X_ss : Fin nx → Fin ns → Fin ns → K)
  | three (X_ss : Fin nx → Fin ns → Fin ns → K) (X_sss : Fin nx → Fin ns → Fin ns → Fin ns → K)
  | more (X_ss : Fin nx → Fin ns → Fin ns → K) (X_sss : Fin nx → Fin ns → Fin ns → Fin ns → K) (extra : ℕ)

variable {ns nx ne : ℕ}

/-- `TaylorExpansion(S_bar, X_bar, X_s, ...)`, `dolo/numeric/taylor_expansion.py:6-24`. -/
def TaylorExp.init (S_bar : Fin ns → K) (X_bar : Fin nx → K) (X_s : Fin nx → Fin ns → K) :
    TaylorTail ns nx K → Except Err (TaylorExp ns nx K)
  | .one => .ok ⟨1, S_bar, X_bar, X_s, none, none⟩
  | .two X_ss => .ok ⟨2, S_bar, X_bar, X_s, some X_ss, none⟩
  | .three X_ss X_sss => .ok ⟨3, S_bar, X_bar, X_s, some X_ss, some X_sss⟩
  | .more _ _ _ => .error (.exception "Not implemented")

/-- `eval_te_order_1`, lines 58-66, entry `n`. -/
def evalTE1 (s0 : Fin ns → K) (x0 : Fin nx → K) (x1 : Fin nx → Fin ns → K) (points : Fin ns → K) (n : Fin nx) : K :=
  (List.finRange ns).foldl (fun out i => out + x1 n i * (points i - s0 i)) (x0 n)

/-- `eval_te_order_2`, lines 71-84, entry `n`. -/
def evalTE2 (s0 : Fin ns → K) (x0 : Fin nx → K) (x1 : Fin nx → Fin ns → K) (x2 : Fin nx → Fin ns → Fin ns → K)
    (points : Fin ns → K) (n : Fin nx) : K :=
  (List.finRange ns).foldl (fun out i =>
    (List.finRange ns).foldl (fun out j => out + x2 n i j * (points i - s0 i) * (points j - s0 j) / 2)
      (out + x1 n i * (points i - s0 i))) (x0 n)

/-- `eval_te_order_3`, lines 87-108, entry `n`. -/
def evalTE3 (s0 : Fin ns → K) (x0 : Fin nx → K) (x1 : Fin nx → Fin ns → K) (x2 : Fin nx → Fin ns → Fin ns → K)
    (x3 : Fin nx → Fin ns → Fin ns → Fin ns → K) (points : Fin ns → K) (n : Fin nx) : K :=
  (List.finRange ns).foldl (fun out i =>
    (List.finRange ns).foldl (fun out j =>
      (List.finRange ns).foldl (fun out k =>
          out + x3 n i j k * (points i - s0 i) * (points j - s0 j) * (points k - s0 k) / 6)
        (out + x2 n i j * (points i - s0 i) * (points j - s0 j) / 2))
      (out + x1 n i * (points i - s0 i))) (x0 n)

/-- One row of `TaylorExpansion.eval_s`, lines 37-46 (`guvectorize` applies the kernel to every row). -/
def TaylorExp.evalRow (t : TaylorExp ns nx K) (s : Fin ns → K) : Except Err (Fin nx → K) :=
  if t.order = 1 then .ok (evalTE1 t.S_bar t.X_bar t.X_s s)
  else if t.order = 2 then
    match t.X_ss with
    | some X_ss => .ok (evalTE2 t.S_bar t.X_bar t.X_s X_ss s)
    | none => .error .attributeError
  else if t.order = 3 then
    match t.X_ss, t.X_sss with
    | some X_ss, some X_sss => .ok (evalTE3 t.S_bar t.X_bar t.X_s X_ss X_sss s)
    | _, _ => .error .attributeError
  else .error .typeError

/-- `TaylorExpansion.eval_s`, on an array of rows. -/
def TaylorExp.evalS (t : TaylorExp ns nx K) (s : List (Fin ns → K)) : Except Err (List (Fin nx → K)) :=
  s.mapM t.evalRow

/-- `TaylorExpansion.eval_ms`, lines 48-50. -/
def TaylorExp.evalMS {nm : ℕ} (t : TaylorExp ns nx K) (_m : List (Fin nm → K)) (s : List (Fin ns → K)) :
    Except Err (List (Fin nx → K)) :=
  t.evalS s

/-- `TaylorExpansion.__getitem__`, lines 26-35, for a list `ind` of positions of controls. -/
def TaylorExp.getItem (t : TaylorExp ns nx K) {m : ℕ} (ind : Fin m → Fin nx) : Except Err (TaylorExp ns m K) := do
  let X_bar := fun i => t.X_bar (ind i)
  let X_s := fun i => t.X_s (ind i)
  if t.order ≥ 3 then
    match t.X_ss, t.X_sss with
    | some X_ss, some X_sss => TaylorExp.init t.S_bar X_bar X_s (.three (fun i => X_ss (ind i)) fun i => X_sss (ind i))
    | _, _ => throw .attributeError
  else if t.order ≥ 2 then
    match t.X_ss with
    | some X_ss => TaylorExp.init t.S_bar X_bar X_s (.two fun i => X_ss (ind i))
    | none => throw .attributeError
  else TaylorExp.init t.S_bar X_bar X_s .one

/-- A one-dimensional array (a vector) or a two-dimensional one (rows). -/
inductive Pts (V : Type) where
  | vec (v : V)
  | rows (l : List V)

/-- First argument of a rule: floats, or an integer (a node number). -/
inductive Exo (M : Type) where
  | float (m : Pts M)
  | int (i : ℤ)

/-- What the classes deriving from `CallableDecisionRule` provide: `eval_s`, `eval_is` (if defined) and `eval_ms`,
on arrays of rows. -/
structure RuleOps (M S V : Type) where
  evalS : List S → Except Err (List V)
  evalIS : Option (ℤ → List S → Except Err (List V))
  evalMS : List M → List S → Except Err (List V)

/-- `[0, :]` of an array of rows. -/
def headRow {V : Type} (l : List V) : Except Err (Pts V) := do
  let r ← pyGet l 0
  pure (.vec r)

/-- `CallableDecisionRule.__call__(s)`, `dolo/numeric/decision_rule.py:55-61`. -/
def RuleOps.call1 {M S V : Type} (r : RuleOps M S V) : Pts S → Except Err (Pts V)
  | .vec s => do headRow (← r.evalS [s])
  | .rows s => do pure (.rows (← r.evalS s))

/-- `CallableDecisionRule.__call__(m, s)`, lines 62-77. -/
def RuleOps.call2 {M S V : Type} (r : RuleOps M S V) (m : Exo M) (s : Pts S) : Except Err (Pts V) :=
  match m, s with
  | .int i, .vec s =>
    match r.evalIS with
    | some f => do headRow (← f i [s])
    | none => .error .attributeError
  | .int i, .rows s =>
    match r.evalIS with
    | some f => do pure (.rows (← f i s))
    | none => .error .attributeError
  | .float (.vec m), .vec s => do headRow (← r.evalMS [m] [s])
  | .float (.vec m), .rows s => do pure (.rows (← r.evalMS [m] s))
  | .float (.rows m), .vec s => do pure (.rows (← r.evalMS m [s]))
  | .float (.rows m), .rows s => do pure (.rows (← r.evalMS m s))

/-- The methods of a `TaylorExpansion`: it has no `eval_is`. -/
def TaylorExp.ops (t : TaylorExp ns nx K) (nm : ℕ) : RuleOps (Fin nm → K) (Fin ns → K) (Fin nx → K) where
  evalS := t.evalS
  evalIS := none
  evalMS := t.evalMS

/-- `ConstantDecisionRule`, `dolo/numeric/decision_rule.py:469-484`. -/
def constantOps {V : Type} (x0 : V) (M S : Type) : RuleOps M S V where
  evalS := fun s => .ok (s.map fun _ => x0)
  evalIS := some fun _ s => .ok (s.map fun _ => x0)
  evalMS := fun _ s => .ok (s.map fun _ => x0)

/-- `perturb` of `dolo/algos/perturbations_higher_order.py:43-87` given the result of `state_perturb`, with
`return_dr=True`: the rule, and the attributes `A` and `B` (absent at order three).  `none` is the implicit `None` returned for orders above three. -/
def pertRule (p : Problem ns nx ne K) (states_ss : Fin ns → K) (controls_ss : Fin nx → K) :
    PertSol ns nx K → Except Err (Option (TaylorExp ns nx K × Option ((Fin ns → Fin ns → K) × (Fin ns → Fin ne → K))))
  | .first X_s => do
    let A := fun i a => p.g_s i a + c1 (p.g_x i) fun x => X_s x a
    let dr ← TaylorExp.init states_ss controls_ss X_s .one
    pure (some (dr, some (A, p.g_e)))
  | .second X_s X_ss X_tt => do
    let X_bar := fun i => controls_ss i + X_tt i / 2
    let dr ← TaylorExp.init states_ss X_bar X_s (.two X_ss)
    let A := fun i a => p.g_s i a + c1 (p.g_x i) fun x => X_s x a
    pure (some (dr, some (A, p.g_e)))
  | .third X_s X_ss X_sss X_tt X_stt => do
    let X_bar := fun i => controls_ss i + X_tt i / 2
    let X_s := fun i a => X_s i a + X_stt i a / 2
    let dr ← TaylorExp.init states_ss X_bar X_s (.three X_ss X_sss)
    pure (some (dr, none))
  | .noResult => pure none

end

end Dolo
