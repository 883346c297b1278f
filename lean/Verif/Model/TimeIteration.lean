import Verif.Model.Loops

/-!
# time_iteration, the whole function

Models `time_iteration` of `dolo/algos/time_iteration.py:40-253`: the initial guess, the bounds, the reshapes between
tables `(n_ms, N, n_x)` and rows `(n_ms * N, n_x)`, the choice of the inner solver, the loop and the result.  The two
inner solvers (`newton` and `ncpsolve`, see Model/Newton) are parameters, as is the interpolation `mdr.eval_ijs` of a
table of values.  An infinite bound is `none`.  The functions of the model have the parameters built in.  Not modelled:
printing, `hook`, the time, the fields `dprocess`, `x_tol` and `log` of the result, `nit`, and the residual `res`
(line 209), which is computed and not used.  A result object given as `dr0` is replaced by its rule (lines 127-128).
-/

namespace Dolo

/-- `t.reshape((-1, n_x))` for a table with `N` grid points. -/
def toRows {α : Type} (N : ℕ) (t : ℕ → ℕ → ℕ → α) : ℕ → ℕ → α := fun r k => t (r / N) (r % N) k

/-- `x.reshape((n_ms, N, n_x))`. -/
def ofRows {α : Type} (N : ℕ) (x : ℕ → ℕ → α) : ℕ → ℕ → ℕ → α := fun i n k => x (i * N + n) k

section
variable {K : Type} [Field K] [LinearOrder K]

/-- A decision rule given as initial guess: what `dr0(i, s)` and `dr0(m, s)` return on the grid `s`. -/
structure GuessRule (K : Type) where
  byIndex : ℕ → Except Err (ℕ → ℕ → K)
  byValue : (ℕ → K) → Except Err (ℕ → ℕ → K)

/-- What `time_iteration` reads from the model. -/
structure TIModel (K : Type) where
  /-- the number of grid points and the grid -/
  N : ℕ
  s : ℕ → ℕ → K
  /-- `model.calibration["controls"]` -/
  nx : ℕ
  x0 : ℕ → K
  dp : DProc K
  /-- `model.functions["arbitrage"]`, `["transition"]` -/
  f : (m s x M S X : ℕ → K) → ℕ → K
  g : (m s x M : ℕ → K) → ℕ → K
  /-- `model.functions["arbitrage_lb"]`, `["arbitrage_ub"]`, if there -/
  lb : Option ((m s : ℕ → K) → ℕ → Option K)
  ub : Option ((m s : ℕ → K) → ℕ → Option K)
  /-- `mdr.eval_ijs` once `mdr.set_values` was called on a table -/
  interp : Table K → ℕ → ℕ → (ℕ → K) → ℕ → K

/-- The options (the obsolete `with_complementarities` is `none` when not given). -/
structure TIOpts (K : Type) where
  dr0 : Option (GuessRule K) := none
  ignore_constraints : Bool := false
  with_complementarities : Option Bool := none
  trace : Bool := false
  maxit : ℕ := 1000
  tol : K

/-- What `time_iteration` returns with `details=True`; `dr` is the table of values set on the rule. -/
structure TIFullResult (K : Type) where
  dr : Table K
  iterations : ℕ
  complementarities : Bool
  x_converged : Bool
  err : K
  trace : Option (List (Table K))

/-- Lines 84-88. -/
def TIOpts.wanted (o : TIOpts K) : Bool :=
  match o.with_complementarities with
  | some w => w
  | none => !o.ignore_constraints

/-- All of the assignments `controls_0[i_m, :, :] = values i_m`, in turn. -/
def fillTable (nm : ℕ) (values : ℕ → Except Err (ℕ → ℕ → K)) : Except Err (Table K) := do
  let rows ← (List.range nm).mapM values
  .ok fun i => (rows[i]?).getD 0

/-- Lines 123-136: the initial guess. -/
def tiInit (M : TIModel K) (o : TIOpts K) : Except Err (Table K) :=
  match o.dr0 with
  | none => .ok fun _ _ k => M.x0 k
  | some d =>
    match fillTable M.dp.nNodes d.byIndex with
    | .ok t => .ok t
    | .error _ => fillTable M.dp.nNodes fun i => d.byValue (M.dp.node i)

/-- Lines 141-157, 170-172: the bounds as rows, or `none` when complementarities are not used. -/
def tiBounds (M : TIModel K) (o : TIOpts K) :
    Except Err (Option ((ℕ → ℕ → Option K) × (ℕ → ℕ → Option K))) :=
  match M.lb with
  | none => .ok none
  | some lb_fun =>
    if o.wanted then
      match M.ub with
      | none => .error .keyError
      | some ub_fun =>
        .ok (some (toRows M.N fun i n => lb_fun (M.dp.node i) (M.s n),
          toRows M.N fun i n => ub_fun (M.dp.node i) (M.s n)))
    else .ok none

/-- `fn` of lines 204-206. -/
def tiFn (M : TIModel K) (controls_0 : ℕ → ℕ → K) : (ℕ → ℕ → K) → ℕ → ℕ → K := fun x =>
  toRows M.N (residualsSimple M.f M.g M.s (ofRows M.N x) (M.interp (ofRows M.N controls_0)) M.dp)

/-- The two inner solvers: the function, the bounds for the second one, and the starting point. -/
structure TISolvers (K : Type) where
  newton : ((ℕ → ℕ → K) → ℕ → ℕ → K) → (ℕ → ℕ → K) → ℕ → ℕ → K
  ncpsolve : ((ℕ → ℕ → K) → ℕ → ℕ → K) → (ℕ → ℕ → Option K) → (ℕ → ℕ → Option K) → (ℕ → ℕ → K) → ℕ → ℕ → K

/-- Lines 214-219. -/
def tiUpdate (M : TIModel K) (S : TISolvers K) (b : Option ((ℕ → ℕ → Option K) × (ℕ → ℕ → Option K)))
    (controls_0 : ℕ → ℕ → K) : ℕ → ℕ → K :=
  match b with
  | some (lb, ub) => S.ncpsolve (tiFn M controls_0) lb ub controls_0
  | none => S.newton (tiFn M controls_0) controls_0

/-- The rules appended to the trace before the iterations `it = 1 .. n` (lines 199-202): the iterates
`0 .. n - 1`. -/
def tiTrace (M : TIModel K) (update : (ℕ → ℕ → K) → ℕ → ℕ → K) : ℕ → (ℕ → ℕ → K) → List (Table K)
  | 0, _ => []
  | n + 1, x => ofRows M.N x :: tiTrace M update n (update x)

/-- `time_iteration(model, ...)`, `dolo/algos/time_iteration.py:40-253`. The loop is `timeIteration` of
Model/Loops. -/
def timeIterationFull (M : TIModel K) (S : TISolvers K) (o : TIOpts K) : Except Err (TIFullResult K) := do
  let controls_0 ← tiInit M o
  let b ← tiBounds M o
  let x0 := toRows M.N controls_0
  let r ← timeIteration (tiUpdate M S b) (fun a b => maxAbs (M.dp.nNodes * M.N) M.nx fun r k => a r k - b r k)
    o.tol o.maxit x0
  let dr := ofRows M.N r.controls
  .ok ⟨dr, r.iterations, b.isSome, r.converged, r.err,
    if o.trace then some (tiTrace M (tiUpdate M S b) r.iterations x0 ++ [dr]) else none⟩

/-- What `time_iteration(..., dprocess=dprocess)` returns: the result (for the rule, the values at the nodes of the
process used), the field `dprocess`, and the exogenous grid of the rule, which comes from `model.discretize()` whatever
the process (lines 100-118). -/
structure TICall (K : Type) where
  result : TIFullResult K
  dprocess : DProc K
  exoNodes : ℕ
  exoGrid : ℕ → ℕ → K

/-- `time_iteration` with its argument `dprocess`, lines 100-118; `M.dp` is the process returned by
`model.discretize()`. -/
def timeIterationCall (M : TIModel K) (S : TISolvers K) (o : TIOpts K) (dprocess : Option (DProc K)) :
    Except Err (TICall K) := do
  let dp := dprocess.getD M.dp
  let r ← timeIterationFull { M with dp := dp } S o
  .ok ⟨r, dp, M.dp.nNodes, M.dp.node⟩

end
end Dolo
