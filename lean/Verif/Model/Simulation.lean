import Verif.Model.Distribution
import Verif.Model.Rouwenhorst

/-!
# Simulation: Markov chains, VAR(1) processes, models

Models parts of `dolo/numeric/processes.py` and `dolo/algos/simulations.py`.
Arrays with a column per simulated path are modelled path by path (all the operations involved act on
each path separately).  Random numbers are inputs.
-/

namespace Dolo

variable {K : Type} [Field K]

/-! ### Drawing Markov chains -/

/-- `numpy.cumsum` started from `acc`. -/
def cumsumFrom (acc : K) : List K → List K
  | [] => []
  | x :: r => (acc + x) :: cumsumFrom (acc + x) r

/-- A row of `transitions.cumsum(axis=1)`, `dolo/numeric/processes.py:53`. -/
def cumsum (l : List K) : List K := cumsumFrom 0 l

/-- `choice(x, n, cumul)`, `dolo/numeric/processes.py:22-31`, with `n = len(cumul)` as at the only call
site: the first `i` with `x < cumul[i]`, or `n`. -/
def choice [LinearOrder K] (x : K) : List K → ℕ
  | [] => 0
  | c :: r => if x < c then 0 else choice x r + 1

/-- The inner loop of `simulate_mc_indices`, lines 40-45, for one path: `i` is the current state, one
draw per step.  (The compiled code does not check bounds when reading `C[ii]`; out-of-range reads are
an error here.) -/
def mcPath [LinearOrder K] (C : List (List K)) : ℕ → List K → Except Err (List ℕ)
  | i, [] => .ok [i]
  | i, u :: us => do
    let options ← pyGet C i
    let rest ← mcPath C (choice u options) us
    pure (i :: rest)

/-- `simulate_mc_indices(C, N, T, i0)`, lines 34-46: the loop over paths consumes the stream of draws
path after path, `T - 1` draws each.  The result is listed path by path. `T = 0` fails at
`out[0, :] = i0`. -/
def simulateMcIndices [LinearOrder K] (C : List (List K)) (T : ℕ) :
    List ℕ → List K → Except Err (List (List ℕ))
  | [], _ => if T = 0 then .error .indexError else .ok []
  | i0 :: i0s, draws =>
    if T = 0 then .error .indexError
    else do
      let p ← mcPath C i0 (draws.take (T - 1))
      let rest ← simulateMcIndices C T i0s (draws.drop (T - 1))
      pure (p :: rest)

/-- `simulate_markov_chain(nodes, transitions, N, T, i0)`, lines 49-62, with `return_values=False`
(with `True` it refers to an undefined name).  `i0 = none` starts every path at state 0. -/
def simulateMarkovChain [LinearOrder K] (transitions : List (List K)) (N T : ℕ) (i0 : Option ℕ)
    (draws : List K) : Except Err (List (List ℕ)) :=
  simulateMcIndices (transitions.map cumsum) T (List.replicate N (i0.getD 0)) draws

/-- `values[inds]`, by path. -/
def gatherValues {α : Type} (values : List α) (inds : List ℕ) : Except Err (List α) :=
  inds.mapM fun i => pyGet values i

/-- `MarkovChain.simulate(N, T, i0, m0, stochastic)`, lines 286-292.  `draws` are the random numbers
used when `stochastic`. -/
def MChain.simulate [LinearOrder K] (c : MChain K) (N T i0 : ℕ) (stochastic : Bool)
    (draws : List K) : Except Err (List (List (List K))) := do
  let inds ← if stochastic then simulateMarkovChain c.transitions N T (some i0) draws
    else .ok (List.replicate N (List.replicate T i0))
  inds.mapM fun p => gatherValues c.values p

/-- `find_index(sim, values)`, `dolo/algos/simulations.py:43-53`, for one path: the first row of
`values` equal to each simulated value; `IndexError` when there is none. -/
def findIndex {α : Type} [DecidableEq α] (values : List α) (sim : List α) : Except Err (List ℕ) :=
  sim.mapM fun v =>
    let i := values.findIdx fun w => decide (w = v)
    if i < values.length then .ok i else .error .indexError

/-! ### Vector autoregressions -/

variable {d : ℕ}

/-- Matrix-vector product (`rho @ x`, also each row of `x @ rho.T`). -/
def mulVec (rho : Fin d → Fin d → K) (x : Fin d → K) : Fin d → K := fun a => ∑ b, rho a b * x b

/-- The deviations `sim[t]` before `sim += mu`, `dolo/numeric/processes.py:608-610`: innovations from
period one on are added, the one of period zero is not used. -/
def var1Deviation (rho : Fin d → Fin d → K) (y0 : Fin d → K) (innov : ℕ → Fin d → K) :
    ℕ → Fin d → K
  | 0 => y0
  | t + 1 => fun a => mulVec rho (var1Deviation rho y0 innov t) a + innov (t + 1) a

/-- `VAR1.simulate(N, T, m0, stochastic)`, `dolo/numeric/processes.py:591-614`, for one path, given
the innovations drawn.  Line 604 (`stochastic=False`) indexes a vector of length `d` at position
`d`.  `T = 0` fails at line 608. -/
def var1Simulate (rho : Fin d → Fin d → K) (mu : Fin d → K) (T : ℕ) (m0 : Option (Fin d → K))
    (stochastic : Bool) (innov : ℕ → Fin d → K) : Except Err (List (Fin d → K)) :=
  if !stochastic then .error .indexError
  else if T = 0 then .error .indexError
  else
    let y0 := m0.getD fun _ => 0
    .ok ((List.range T).map fun t a => var1Deviation rho y0 innov t a + mu a)

/-- `VAR1.response(T, impulse)`, `dolo/numeric/processes.py:616-624`. -/
def var1Response (rho : Fin d → Fin d → K) (mu : Fin d → K) (T : ℕ) (impulse : Fin d → K) :
    Except Err (List (Fin d → K)) :=
  if T = 0 then .error .indexError
  else .ok ((List.range T).map fun t a =>
    var1Deviation rho impulse (fun _ _ => 0) t a + mu a)

/-- `IIDProcess.response(T, impulse)`, lines 98-103: `T + 1` rows. -/
def iidResponse (T : ℕ) (impulse : Fin d → K) : Except Err (List (Fin d → K)) :=
  if T = 0 then .error .indexError
  else .ok ((List.range (T + 1)).map fun t => if t = 1 then impulse else fun _ => 0)

/-- `abs(np.eye(n) * rho[0, 0] - rho).max() <= 1`, lines 540-546: the check made by
`VAR1.discretize_mc` that the autoregression is scalar.  When it fails, formatting the message refers
to the undefined name `rho_array`.  On success the scalar `rho[0, 0]` is used. -/
def var1ScalarCheck [LinearOrder K] [IsStrictOrderedRing K] (rho : Fin (d + 1) → Fin (d + 1) → K) :
    Except Err K :=
  if ∀ a b, |(if a = b then (1 : K) else 0) * rho 0 0 - rho a b| ≤ 1 then .ok (rho 0 0)
  else .error .nameError

/-- `VAR1.discretize_mc(N)`, lines 535-557: the discretisation `mdisc rho Sigma` shifted by `mu`. -/
def var1DiscretizeMc [LinearOrder K] [IsStrictOrderedRing K]
    (mdisc : K → Except Err (List (List K) × List (List K)))
    (rho : Fin (d + 1) → Fin (d + 1) → K) (mu : Fin (d + 1) → K) : Except Err (MChain K) := do
  let r ← var1ScalarCheck rho
  let (P, Q) ← mdisc r
  pure ⟨Q, P.map fun row => List.zipWith (· + ·) row (List.ofFn mu)⟩

/-! ### Simulating a model -/

variable {M S X : Type}

/-- The loop of `simulate`, `dolo/algos/simulations.py:184-203`, for one path: `mp` is the exogenous
value of the previous pass (initially `m0`), `s` the current state. -/
def simLoop (g : M → S → X → M → S) (dr : M → S → X) : M → S → List M → List (S × X)
  | _, _, [] => []
  | mp, s, m :: rest =>
    let x := dr m s
    let ss := g mp s x m
    (s, x) :: simLoop g dr m ss rest

/-- Reading the first `T` rows of the driving array (`m_simul[i]` for `i` in `range(T)`). -/
def firstRows (T : ℕ) (l : List M) : Except Err (List M) :=
  if l.length < T then .error .indexError else .ok (l.take T)

/-- `simulate(model, dr, driving_process=..., s0=..., T=...)` with a driving process of values (three
dimensions), `dolo/algos/simulations.py:128-134, 145, 184-203`: `m0` is reset to the first value of the
driving process (line 145).  `T = 0` fails at line 125.  (A driving process longer than `T` is cut here;
the code then fails later, when it assembles the table.) -/
def simulateDriven (g : M → S → X → M → S) (dr : M → S → X) (s0 : S) (T : ℕ) (driving : List M) :
    Except Err (List (S × X)) :=
  if T = 0 then .error .indexError
  else
    match driving with
    | [] => .error .indexError
    | m0 :: _ => do
      let ms ← firstRows T driving
      pure (simLoop g dr m0 s0 ms)

/-- `simulate` with a process drawn by the code (lines 146-177): `m0` is the initial exogenous value
(`dp.node(i0)` or the calibrated value), `ms` the drawn path. -/
def simulateProcess (g : M → S → X → M → S) (dr : M → S → X) (s0 : S) (m0 : M) (T : ℕ)
    (ms : List M) : Except Err (List (S × X)) :=
  if T = 0 then .error .indexError
  else do
    let ms ← firstRows T ms
    pure (simLoop g dr m0 s0 ms)

/-- `simulate` with its use of the global random number generator made explicit: `draw` is what
`process.simulate` does with the generator's state, `seeded` the state set by
`numpy.random.seed(seed)`, which happens (line 182) *after* the process has been drawn (line 170). -/
def simulateSeeded {R : Type} (g : M → S → X → M → S) (dr : M → S → X) (s0 : S) (m0 : M) (T : ℕ)
    (draw : R → List M × R) (seeded : ℕ → R) (seed : ℕ) (rng : R) :
    Except Err (List (S × X)) × R :=
  let (ms, _rng) := draw rng
  let rng := seeded seed
  (simulateProcess g dr s0 m0 T ms, rng)

/-- The exogenous process of a model, as far as `response` distinguishes them: only the iid processes
return a labelled array; `AR1`/`VAR1` return plain arrays, which have no `expand_dims`. -/
inductive ExoKind where
  | iid
  | var1

/-- `response(model, dr, varname, T, impulse)`, `dolo/algos/simulations.py:14-40`, for an impulse vector
`e1`: the exogenous response over `T - 1` further dates drives a simulation of `T` dates. -/
def modelResponse (kind : ExoKind) (rho : Fin d → Fin d → K) (mu : Fin d → K)
    (g : (Fin d → K) → S → X → (Fin d → K) → S) (dr : (Fin d → K) → S → X) (s0 : S) (T : ℕ)
    (e1 : Fin d → K) : Except Err (List (S × X)) := do
  let m ← match kind with
    | .iid => iidResponse (T - 1) e1
    | .var1 => do
      let _ ← var1Response rho mu (T - 1) e1
      .error .attributeError
  simulateDriven g dr s0 T m

end Dolo
