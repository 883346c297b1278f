import Mathlib.Algebra.Order.Field.Basic
import Mathlib.Algebra.Order.Group.Abs
import Verif.Model.Err

/-!
# Model of `dolo/algos/egm.py`

One state and one control, as lines 24-27 require.  The compiled functions of the model, the
discretised process and the two interpolators are parameters.  Arrays over the grid of poststates
are lists, one per exogenous node.  Printing is not modelled.
-/

namespace Dolo

variable {K : Type} [Field K] [LinearOrder K] [IsStrictOrderedRing K]

/-- What `egm` is given.  `Pt` is the type of exogenous points. -/
structure Egm (K Pt : Type) where
  /-- `isinstance(model.exogenous, IIDProcess)`, line 31 -/
  iid : Bool
  /-- `dp.n_nodes` -/
  nM : ℕ
  node : ℕ → Pt
  /-- `dp.n_inodes(i)` -/
  nI : ℕ → ℕ
  iweight : ℕ → ℕ → K
  inode : ℕ → ℕ → Pt
  /-- `half_transition(m, a, M)` -/
  gt : Pt → K → Pt → K
  /-- component `k` of `expectation(M, S, X)` -/
  h : Pt → K → K → ℕ → K
  /-- `direct_response_egm(m, a, z)` -/
  τ : Pt → K → (ℕ → K) → K
  /-- `reverse_state(m, a, x)` -/
  aτ : Pt → K → K → K
  lb : Pt → K → K
  ub : Pt → K → K
  /-- `eval_linear((grid,), values, s)`, line 97 -/
  lin : List K → List K → K → K
  /-- `dr0` -/
  dr0 : ℕ → K → K
  /-- `a_grid` -/
  agrid : List K
  /-- `grid["endo"].nodes` -/
  s : List K

variable {Pt : Type}

/-- The arrays `sa0`, `xa0` (or `sa`, `xa`): one list per exogenous node. -/
structure EgmState (K : Type) where
  sa : ℕ → List K
  xa : ℕ → List K

/-- egm.py 91-100: the policy of iterations after the first. -/
def egmPolicy (E : Egm K Pt) (st : EgmState K) (i : ℕ) (ss : K) : K :=
  let i := if E.iid then 0 else i
  let m := E.node i
  let l := E.lb m ss
  let u := E.ub m ss
  let x := E.lin (st.sa i) (st.xa i) ss
  let x := min x u
  max x l

/-- egm.py 86-100: `drfut` in iteration `it`. -/
def egmDr (E : Egm K Pt) (it : ℕ) (st : EgmState K) (i : ℕ) (ss : K) : K :=
  if it = 0 then E.dr0 i ss else egmPolicy E st i ss

/-- egm.py 102-112: `z[i_m, a, k]`. -/
def egmZ (E : Egm K Pt) (it : ℕ) (st : EgmState K) (i : ℕ) (a : K) (k : ℕ) : K :=
  ((List.range (E.nI i)).map fun j =>
    let M := E.inode i j
    let S := E.gt (E.node i) a M
    let X := egmDr E it st j S
    E.iweight i j * E.h M S X k).sum

/-- egm.py 104-114: the new arrays. -/
def egmStep (E : Egm K Pt) (it : ℕ) (st : EgmState K) : EgmState K where
  xa := fun i => E.agrid.map fun a => E.τ (E.node i) a (egmZ E it st i a)
  sa := fun i => E.agrid.map fun a =>
    E.aτ (E.node i) a (E.τ (E.node i) a (egmZ E it st i a))

/-- `abs(x - y).max()` over the nodes and the grid. -/
def egmDist (nM : ℕ) (x y : ℕ → List K) : K :=
  ((List.range nM).flatMap fun i => List.zipWith (fun u v => |u - v|) (x i) (y i)).foldl max 0

/-- What is known after the loop: the last iteration number, the last `η`, and the arrays `sa0`,
`xa0`. -/
structure EgmOut (K : Type) where
  it : ℕ
  η : K
  st : EgmState K

/-- Line 97, `sa0[i]` for `i` among the nodes of tomorrow: the arrays have `dp.n_nodes` rows, and the
index is reset to zero only when the model's process is declared iid (lines 92-93). -/
def egmBadIndex (E : Egm K Pt) : Bool :=
  !E.iid && (List.range E.nM).any fun i => decide (E.nM < E.nI i)

/-- egm.py 84-127: the loop, with `r` iterations left; `prev` is the last `η`, if any. -/
def egmLoop (E : Egm K Pt) (tol : K) : ℕ → ℕ → EgmState K → Option K → Except Err (EgmOut K)
  | 0, it, st, prev =>
    match prev with
    | none => .error .nameError
    | some η => .ok ⟨it - 1, η, st⟩
  | r + 1, it, st, _ =>
    if it ≠ 0 ∧ egmBadIndex E = true then .error .indexError else
    let new := egmStep E it st
    let η := if it > 1 then egmDist E.nM new.xa st.xa + egmDist E.nM new.sa st.sa else 1
    if η < tol then .ok ⟨it, η, st⟩
    else egmLoop E tol r (it + 1) new (some η)

/-- Lines 72-73: the arrays before the loop. -/
def egmInit (E : Egm K Pt) : EgmState K :=
  ⟨fun _ => List.replicate E.agrid.length 0, fun _ => List.replicate E.agrid.length 0⟩

/-- The result: the iteration number, whether the loop converged, and the values handed to
`mdr.set_values` (by exogenous node and endogenous node). -/
structure EgmRes (K : Type) where
  it : ℕ
  converged : Bool
  values : List (List K)

/-- egm.py 9-140 `egm`. -/
def egm (E : Egm K Pt) (tol : K) (maxit : ℕ) : Except Err (EgmRes K) := do
  let o ← egmLoop E tol maxit 0 (egmInit E) none
  pure ⟨o.it, decide (o.η < tol),
    (List.range E.nM).map fun i => E.s.map fun ss => egmDr E o.it o.st i ss⟩

/-- The decision rule of lines 130-136: interpolation (a parameter: cubic splines over the
endogenous nodes) of the values at exogenous node `i`. -/
def egmRule (E : Egm K Pt) (cubic : List K → List K → K → K) (R : EgmRes K) (i : ℕ) (ss : K) : K :=
  cubic E.s (R.values.getD i []) ss

end Dolo
