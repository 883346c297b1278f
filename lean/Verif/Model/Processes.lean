import Mathlib.Algebra.Order.Field.Basic
import Verif.Model.Markov
import Verif.Model.Calibration

/-!
# Model of the product process and of the discretised processes, `dolo/numeric/processes.py`

Children of a product are given by their class and by what their `discretize` method returns for
each target and dictionary of options.
-/

namespace Dolo

variable {K : Type} [Field K]

/-- What `isinstance` tells about a process.  No class of the package inherits from two of
`MarkovChain`, `ContinuousProcess`, `IIDiscProcess`.  Nested `ProductProcess` objects are `other`. -/
inductive ProcKind where
  | markov | continuous | iid | other
  deriving DecidableEq, Repr

/-- Keyword arguments of `discretize` (numbers of nodes). -/
abbrev ProcOpts := PyDict ℕ

/-- A process as `ProductProcess.discretize` uses it: its class, and `e.discretize(to=..., **kw)`. -/
structure Proc (K : Type) where
  kind : ProcKind
  toMc : ProcOpts → Except Err (MChain K)
  toIid : ProcOpts → Except Err (FiniteDist K)
  toGdp : ProcOpts → Except Err Unit

/-- The `options` argument: a dictionary for all, or a list with one dictionary each. -/
inductive ProdOpts where
  | shared (o : ProcOpts)
  | each (l : List ProcOpts)

/-- processes.py 308-312. -/
def prodKwargs (opts : ProdOpts) (n : ℕ) : Except Err (List ProcOpts) :=
  match opts with
  | .shared o => .ok (List.replicate n o)
  | .each l => if l.length = n then .ok l else .error .assertionError

/-- processes.py 314-325: the default target. -/
def defaultTarget (kinds : List ProcKind) : Target :=
  if kinds.any fun k => k == .markov || k == .continuous then .mc
  else if kinds.all fun k => k == .iid then .iid
  else .gdp

/-- processes.py 306-341 `ProductProcess.discretize(to, options)`.  A target other than the three
leaves `fun` unbound; the children raise first or the call does (line 341); the model raises
`nameError` at once. -/
def productDiscretize (tgt : Option Target) (opts : ProdOpts) (ps : List (Proc K)) :
    Except Err (Discretized K) := do
  let kw ← prodKwargs opts ps.length
  match tgt.getD (defaultTarget (ps.map Proc.kind)) with
  | .iid => do
    let ds ← (ps.zip kw).mapM fun pk => pk.1.toIid pk.2
    let d ← productIid ds
    pure (.iid d)
  | .mc => do
    let cs ← (ps.zip kw).mapM fun pk => pk.1.toMc pk.2
    let c ← productMc cs
    pure (.mc c)
  | .gdp => do
    let _ ← (ps.zip kw).mapM fun pk => pk.1.toGdp pk.2
    -- processes.py 367-369 `product_gdp`
    .error (.exception "Not implemented")
  | .other => .error .nameError

/-- processes.py 248-259 `MarkovChain.discretize`: no other keyword argument is accepted. -/
def markovProc (c : MChain K) : Proc K where
  kind := .markov
  toMc o := if o.isEmpty then .ok c else .error .typeError
  toIid o := if o.isEmpty then .error (.exception "Not implemented.") else .error .typeError
  toGdp o := if o.isEmpty then .ok () else .error .typeError

/-- processes.py 128-145 `ConstantProcess.discretize`. -/
def constantProc (μ : List K) : Proc K where
  kind := .iid
  toIid _ := .ok ⟨[μ], [1]⟩
  toMc o :=
    let N := (PyDict.get? o "N").getD 1
    .ok ⟨(List.range N).map fun i => (List.range N).map fun j => if i = j then 1 else 0,
      List.replicate N μ⟩
  toGdp _ := .error (.exception "Not implemented")

/-- distribution.py 225-242 `FiniteDistribution.discretize(to)`: no other keyword argument. -/
def finiteProc (d : FiniteDist K) : Proc K where
  kind := .iid
  toIid o := if o.isEmpty then .ok d else .error .typeError
  toMc o := if o.isEmpty then .ok d.toMC else .error .typeError
  toGdp o := if o.isEmpty then .error (.exception "Not implemented.") else .error .typeError

/-! ## Discretised processes -/

/-- The interface of `DiscretizedProcess`: `n_nodes`, `node`, `n_inodes`, `inode`, `iweight`. -/
structure DiscProc (K : Type) where
  nNodes : ℕ
  node : ℕ → Except Err (List K)
  nInodes : ℕ → ℕ
  inode : ℕ → ℕ → Except Err (List K)
  iweight : ℕ → ℕ → Except Err K

/-- processes.py 206-232 `DiscretizedIIDiscProcess` for a finite distribution of dimension `d`. -/
def FiniteDist.dproc (D : FiniteDist K) (d : ℕ) : DiscProc K where
  nNodes := 1
  node _ := .ok (List.replicate d 0)
  nInodes _ := D.points.length
  inode _ j := pyGet D.points j
  iweight _ j := pyGet D.weights j

/-- processes.py 263-284, the interface of `MarkovChain`. -/
def MChain.dproc (c : MChain K) : DiscProc K where
  nNodes := c.values.length
  node i := pyGet c.values i
  nInodes _ := (c.transitions.headD []).length
  inode _ j := pyGet c.values j
  iweight i j := do
    let row ← pyGet c.transitions i
    pyGet row j

/-- processes.py 172-203 `GDP`. -/
structure GDP (K : Type) where
  nodes : List (List K)
  inodes : List (List (List K))
  iweights : List (List K)
  deriving DecidableEq

/-- processes.py 188-203, the interface of `GDP`. -/
def GDP.dproc (g : GDP K) : DiscProc K where
  nNodes := g.nodes.length
  node i := pyGet g.nodes i
  nInodes _ := (g.inodes.headD []).length
  inode i j := do
    let row ← pyGet g.inodes i
    pyGet row j
  iweight i j := do
    let row ← pyGet g.iweights i
    pyGet row j

/-- processes.py 250-255 `MarkovChain.discretize(to="gdp")`. -/
def MChain.toGDP (c : MChain K) : GDP K where
  nodes := c.values
  inodes := List.replicate c.values.length c.values
  iweights := c.transitions

/-- `CartesianGrid([min], [max], [n_nodes])`: the class has no constructor with arguments
(`grids.py` 99-101). -/
def cartesianGridNew : Except Err Unit := .error .typeError

/-- processes.py 551-591 `VAR1.discretize_gdp(N)`: `S` is `Σ.shape[0]`, `R` the shape of `ρ`, `ρ` its
only entry, `lo` and `hi` the bounds of lines 577-578, `epsilons` and `weights` the Gauss-Hermite
rule of line 575.  `grid` is what `CartesianGrid([min], [max], [n_nodes])` gives (line 582): as the
class has no constructor (`grids.py` 99-101) it raises `TypeError`.  The mean of the process does not
appear. -/
def var1DiscretizeGdp (grid : Except Err Unit) (S : ℕ) (R : ℕ × ℕ) (ρ lo hi : K) (N : ℕ)
    (epsilons weights : List K) : Except Err (GDP K) :=
  if S ≠ 1 then .error (.exception "Not implemented.")
  else if R ≠ (1, 1) then .error (.exception "Not implemented.")
  else do
    let _ ← grid
    let nodes := linspace lo hi N
    pure ⟨nodes.map fun x => [x],
      nodes.map fun x => epsilons.map fun e => [ρ * x + e],
      nodes.map fun _ => weights⟩

/-- processes.py 164-169 `DiscretizedProcess.iteritems(i, eps)` (the list of what it yields), for
the inodes `js`. -/
def DiscProc.iteritemsAux [LinearOrder K] (P : DiscProc K) (i : ℕ) (eps : K) :
    List ℕ → Except Err (List (K × List K))
  | [] => .ok []
  | j :: js => do
    let w ← P.iweight i j
    if eps < w then
      let x ← P.inode i j
      let rest ← P.iteritemsAux i eps js
      pure ((w, x) :: rest)
    else P.iteritemsAux i eps js

/-- processes.py 164-169. -/
def DiscProc.iteritems [LinearOrder K] (P : DiscProc K) (i : ℕ) (eps : K) :
    Except Err (List (K × List K)) :=
  P.iteritemsAux i eps (List.range (P.nInodes i))

/-! ## Simulation of a product -/

/-- processes.py 105-111 `IIDProcess.simulate(N, T, i0, m0, stochastic)`: `T * N` draws, reshaped to
`(T, N, -1)`.  Neither `i0`, `m0` nor `stochastic` is used.  `draw` is the method of the class
(it raises for `ConstantProcess`, which inherits lines 95-96). -/
def iidSimulate (draw : ℕ → Except Err (List (List K))) (N T : ℕ) (_stochastic : Bool) :
    Except Err (List (List (List K))) := do
  let d ← draw (T * N)
  pure ((List.range T).map fun t => (d.drop (t * N)).take N)

/-- processes.py 95-96, inherited by `ConstantProcess`. -/
def constantDraw (_n : ℕ) : Except Err (List (List K)) := .error (.exception "Not Implemented")

/-- processes.py 285-291 `MarkovChain.simulate(N, T, i0, m0, stochastic)`: `inds` are the indices
drawn by `simulate_markov_chain` (C15, C16). -/
def mcSimulate (c : MChain K) (inds : List (List ℕ)) (N T i0 : ℕ) (stochastic : Bool) :
    Except Err (List (List (List K))) :=
  let is := if stochastic then inds else List.replicate T (List.replicate N i0)
  is.mapM fun row => row.mapM fun i => pyGet c.values i

/-- processes.py 457-480 `AR1.simulate`: line 478 uses the name `μ`, which is not defined in that
function (line 460 calls it `mu`); with `stochastic=False`, line 471 indexes `mu` beyond its end. -/
def ar1Simulate (stochastic : Bool) : Except Err (List (List (List K))) :=
  if stochastic then .error .nameError else .error .indexError

/-- processes.py 343-350 `ProductProcess.simulate(N, T, m0, stochastic)`: `sims` are the
simulations of the children (period, path, variable); line 350 concatenates the last axis of
arrays of equal size (`T`, `N`), and raises if there is none. -/
def productSimulate (m0 : Option (List K)) (N T : ℕ)
    (sims : List (Except Err (List (List (List K))))) : Except Err (List (List (List K))) :=
  if m0.isSome then .error (.exception "Not implemented")
  else do
    let ss ← sims.mapM id
    if ss.isEmpty then .error .valueError
    else if ss.all fun s => s.length == T && s.all fun r => r.length == N then
      pure ((List.range T).map fun t => (List.range N).map fun n =>
        (ss.map fun s => (s.getD t []).getD n []).flatten)
    else .error .valueError

end Dolo
