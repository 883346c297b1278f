import Verif.Model.Simulation

/-!
# simulate, the whole function

Models `simulate` of `dolo/algos/simulations.py:61-236`, with all of its paths and the labelled table it returns.  The
arrays `(T, N, .)` are lists of dates of lists of paths of vectors.  The functions of the model have the parameters built
in and act on one row, as the vectorised functions do on each row.  The order of the random draws is in Model/Simulation
(`simulateSeeded`).  A result object given as `dr` is replaced by its rule (lines 108-109).  Simplified: with auxiliaries
or indices, a driving process that does not have exactly `T` dates is a `ValueError`, raised when the table is
assembled.
-/

namespace Dolo

section
variable {K : Type}

/-- What `simulate` reads from the model: the symbols, the calibration, `functions["transition"]` and
`functions["auxiliary"]`, if there. -/
structure SimModel (K : Type) where
  exogenous : List String
  states : List String
  controls : List String
  auxiliaries : List String
  m0 : List K
  s0 : List K
  g : (m s x M : List K) → List K
  aux : Option ((m s x : List K) → List K)

/-- The decision rule: `dr.eval_ms` and `dr.eval_is` on one row, `dr.exo_grid.nodes`. -/
structure SimRule (K : Type) where
  evalMS : (m s : List K) → Except Err (List K)
  evalIS : Option ℕ → (s : List K) → Except Err (List K)
  nodes : Except Err (List (List K))

/-- The argument `driving_process`: an array with three, two, or another number of dimensions. -/
inductive Driving (K : Type) where
  | values (m : List (List (List K)))
  | indices (i : List (List ℕ))
  | other

/-- The process to be drawn (lines 149-157): `process`, else `dr.dprocess` if it can be simulated, else
`model.exogenous`.  A discrete one has `values`, `node`, and `simulate(N, T, i0)`; another one `simulate(N, T, m0)`. -/
inductive SimProcess (K : Type) where
  | discrete (values : List (List K)) (node : ℕ → Except Err (List K)) (simulate : ℕ → Except Err (List (List (List K))))
  | continuous (simulate : Option (List K) → Except Err (List (List (List K))))

/-- The arguments of `simulate`. -/
structure SimArgs (K : Type) where
  N : ℕ := 1
  T : ℕ := 40
  s0 : Option (List K) := none
  i0 : Option ℕ := none
  m0 : Option (List K) := none
  driving : Option (Driving K) := none

/-- `m_simul`, `i_simul` when `sim_type == "discrete"`, and `m0` when the loop starts (one row per path). -/
structure SimInputs (K : Type) where
  m : List (List (List K))
  i : Option (List (List ℕ))
  m0 : List (List K)

/-- Lines 128-177.  `s0` is the initial state. -/
def simInputs [DecidableEq K] (M : SimModel K) (dr : SimRule K) (process : SimProcess K) (a : SimArgs K) (s0 : List K) :
    Except Err (SimInputs K) :=
  match a.driving with
  | some (.values m_simul) => do
    let _ ← dr.evalMS (a.m0.getD M.m0) s0
    let m0 ← pyGet m_simul 0
    .ok ⟨m_simul, none, m0⟩
  | some (.indices i_simul) => do
    let nodes ← dr.nodes
    let m_simul ← i_simul.mapM fun row => row.mapM fun i => pyGet nodes i
    let _ ← dr.evalIS a.i0 s0
    let m0 ← pyGet m_simul 0
    .ok ⟨m_simul, some i_simul, m0⟩
  | some .other => .error (.exception "Incorrect specification of driving values.")
  | none =>
    match process with
    | .discrete values node simulate => do
      let i0 := a.i0.getD 0
      let m_simul ← simulate i0
      let i_simul ← m_simul.mapM (findIndex values)
      let m0 ← node i0
      let _ ← dr.evalIS (some i0) s0
      .ok ⟨m_simul, some i_simul, List.replicate a.N m0⟩
    | .continuous simulate => do
      let m_simul ← simulate a.m0
      let m0 := a.m0.getD M.m0
      let _ ← dr.evalMS m0 s0
      .ok ⟨m_simul, none, List.replicate a.N m0⟩

/-- One path at one date: the index of the exogenous state if there is one, the exogenous values, the states and the
controls. -/
structure SimCell (K : Type) where
  i : Option ℕ
  m : List K
  s : List K
  x : List K

/-- The controls at one date, lines 188-195: all the paths, `i` being the indices if any. -/
def simControls (dr : SimRule K) (i : Option (List ℕ)) (m s : List (List K)) : Except Err (List (List K)) :=
  match i with
  | some i_m =>
    if s = [] then .error .valueError
    else (List.range s.length).mapM fun ii => do
      let k ← pyGet i_m ii
      let row ← pyGet s ii
      dr.evalIS (some k) row
  | none => (List.zip m s).mapM fun p => dr.evalMS p.1 p.2

/-- The cells of one date. -/
def simCells (i : Option (List ℕ)) (m s x : List (List K)) : List (SimCell K) :=
  (List.zip m (List.zip s x)).mapIdx fun n p => ⟨i.bind fun l => l[n]?, p.1, p.2.1, p.2.2⟩

/-- The transition to the next date, `ss = g(mp, s, x, m, parms)`, line 199. -/
def simNext (M : SimModel K) (mp s x m : List (List K)) : List (List K) :=
  (List.zip (List.zip mp s) (List.zip x m)).map fun p => M.g p.1.1 p.1.2 p.2.1 p.2.2

/-- The indices of a date, `i_simul[i, :]`, when there are indices, lines 188-191. -/
def simIndex (l : Option (List (List ℕ))) (i : ℕ) : Except Err (Option (List ℕ)) :=
  match l with
  | none => .ok none
  | some l => some <$> pyGet l i

/-- The loop of lines 184-202; the first argument is `T - i`. -/
def simDates (M : SimModel K) (dr : SimRule K) (inp : SimInputs K) :
    ℕ → ℕ → (mp s : List (List K)) → Except Err (List (List (SimCell K)))
  | 0, _, _, _ => .ok []
  | k + 1, i, mp, s => do
    let m ← pyGet inp.m i
    let i_m ← simIndex inp.i i
    let x ← simControls dr i_m m s
    let rest ← simDates M dr inp k (i + 1) m (simNext M mp s x m)
    .ok (simCells i_m m s x :: rest)

/-- The labels of the columns, lines 204-228. -/
def simLabels (M : SimModel K) (discrete : Bool) : List String :=
  (if discrete then ["_i_m"] else []) ++
  (match M.aux with
  | none => M.states ++ M.controls
  | some _ => M.exogenous ++ M.states ++ M.controls ++ M.auxiliaries)

/-- The row of the table of one cell; an index is converted to a number of the table by `cast`. -/
def simRow (cast : ℕ → K) (M : SimModel K) (c : SimCell K) : List K :=
  (match c.i with | some i => [cast i] | none => []) ++
  (match M.aux with
  | none => c.s ++ c.x
  | some aux => c.m ++ c.s ++ c.x ++ aux c.m c.s c.x)

/-- The table returned: the labels of the columns, and the rows by date and path. -/
structure SimTable (K : Type) where
  labels : List String
  rows : List (List (List K))

/-- `simulate(model, dr, ...)`, `dolo/algos/simulations.py:61-236`. -/
def simulateTable [DecidableEq K] (cast : ℕ → K) (M : SimModel K) (dr : SimRule K) (process : SimProcess K)
    (a : SimArgs K) : Except Err (SimTable K) := do
  let s0 := a.s0.getD M.s0
  if a.T = 0 then .error .indexError
  else do
    let inp ← simInputs M dr process a s0
    let cells ← simDates M dr inp a.T 0 inp.m0 (List.replicate a.N s0)
    if (M.aux.isSome || inp.i.isSome) && inp.m.length ≠ a.T then .error .valueError
    else .ok ⟨simLabels M inp.i.isSome, cells.map fun date => date.map (simRow cast M)⟩

end
end Dolo
