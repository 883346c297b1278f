import Verif.Model.Simulation
import Verif.Model.Tabulate

/-!
# Impulse responses of a model: which shock, how large

Models `response`, `dolo/algos/simulations.py:14-40`, with the name of the shock and the optional size of the
impulse, for every process class of `dolo/numeric/processes.py` and `dolo/numeric/distribution.py` that a model can
carry.  A process is modelled by what `response` reads of it: the attributes `Σ`, `σ` and `d`, and the method
`response` it has, if any.
-/

namespace Dolo

variable {K : Type} [Field K]

/-- The method `response` found on a process object. -/
inductive RespMethod (K : Type) where
  /-- `IIDProcess.response`, `dolo/numeric/processes.py:98-103`. -/
  | iid
  /-- `VAR1.response`, lines 619-627. -/
  | var1 (rho : List (List K)) (mu : List K)
  /-- `AR1.response`, lines 482-493: the attributes `ρ` and `μ` are numbers. -/
  | ar1
  /-- No such method (`ProductProcess`, `MarkovChain`). -/
  | absent

/-- What `response` reads of `model.exogenous`. -/
structure ExoObj (K : Type) where
  Sigma : Option (List (List K))
  sigma : Option K
  dim : Option ℕ
  resp : RespMethod K

/-- `Normal(Σ, Μ)`, `dolo/numeric/distribution.py:562-587`; the mean is not read by `response`. -/
def exoNormal (Sigma : List (List K)) (_mean : List K) : ExoObj K := ⟨some Sigma, none, some Sigma.length, .iid⟩

/-- `UNormal(σ, μ)`, lines 401-411. -/
def exoUNormal (sigma _mu : K) : ExoObj K := ⟨none, some sigma, some 1, .iid⟩

/-- `LogNormal(σ, μ)`, lines 487-501. -/
def exoLogNormal (sigma _mu : K) : ExoObj K := ⟨none, some sigma, some 1, .iid⟩

/-- `Uniform(a, b)` (458-470), `Beta` (528-), `Truncation` (681-694): one dimension, no attribute `σ`. -/
def exoUnivariate : ExoObj K := ⟨none, none, some 1, .iid⟩

/-- `ConstantProcess(μ)` (`dolo/numeric/processes.py:115-126`), `FiniteDistribution`, `EquiprobableDistribution`
(`dolo/numeric/distribution.py:142-210`), `Mixture` (712-729): `d` dimensions, neither `Σ` nor `σ`. -/
def exoPlain (d : ℕ) : ExoObj K := ⟨none, none, some d, .iid⟩

/-- `Bernouilli(π)`, lines 277-286: the attribute `d` is declared but never set. -/
def exoBernouilli : ExoObj K := ⟨none, none, none, .iid⟩

/-- `VAR1(ρ, Σ, μ)`, `dolo/numeric/processes.py:497-521`. -/
def exoVAR1 (rho Sigma : List (List K)) (mu : List K) : ExoObj K :=
  ⟨some Sigma, none, some Sigma.length, .var1 rho mu⟩

/-- `AR1(ρ, σ, μ)`, lines 373-383. -/
def exoAR1 (sigma : K) : ExoObj K := ⟨none, some sigma, some 1, .ar1⟩

/-- `MarkovChain(transitions, values)`, lines 235-246. -/
def exoMarkov (d : ℕ) : ExoObj K := ⟨none, none, some d, .absent⟩

/-- `ProductProcess(*l)`, lines 298-304: what a model has whenever its exogenous section is a list or is keyed by
the names of the shocks (`dolo/compiler/model.py:404-424`). -/
def exoProduct (d : ℕ) : ExoObj K := ⟨none, none, some d, .absent⟩

/-- `model.exogenous.Σ[i, i]`, line 21. -/
def sigmaEntry (p : ExoObj K) (i : ℕ) : Except Err K :=
  match p.Sigma with
  | none => .error .attributeError
  | some S => do
    let row ← pyGet S i
    pyGet row i

/-- Lines 18-24: the impulse when none is given.  Any exception of the first attempt leads to the second. -/
def defaultImpulse (sqrt : K → K) (p : ExoObj K) (i : ℕ) : Except Err K :=
  match sigmaEntry p i with
  | .ok v => .ok (sqrt v)
  | .error _ =>
    match p.sigma with
    | some s => .ok (sqrt s)
    | none => .error .attributeError

/-- `irf[1, :] = impulse[None, :]` for a row of `d` numbers: the lengths must agree, except that one number is
repeated. -/
def broadcastRow (d : ℕ) (e : List K) : Except Err (List K) :=
  match e with
  | [a] => .ok (List.replicate d a)
  | e => if e.length = d then .ok e else .error .valueError

/-- `IIDProcess.response(T, impulse)`, `dolo/numeric/processes.py:98-103`: `T + 1` rows, the impulse in row one. -/
def iidRows (dim : Option ℕ) (T : ℕ) (e : List K) : Except Err (List (List K)) :=
  match dim with
  | none => .error .attributeError
  | some d =>
    if T = 0 then .error .indexError
    else do
      let r ← broadcastRow d e
      .ok ((List.range (T + 1)).map fun t => if t = 1 then r else List.replicate d 0)

/-- `model.exogenous.response(T, e1)` followed by `.expand_dims` and `.transpose`, lines 32-34.  `VAR1.response` and
`AR1.response` return plain arrays, which have no `expand_dims`; `AR1.response` fails before that, as it multiplies
a number by an array with `@` (line 491) or subscripts a number (line 492). -/
def exoRows (p : ExoObj K) (T : ℕ) (e : List K) : Except Err (List (List K)) :=
  match p.resp with
  | .iid => iidRows p.dim T e
  | .var1 _ _ =>
    if T = 0 then .error .indexError
    else do
      let _ ← broadcastRow (p.dim.getD 0) e
      .error .attributeError
  | .ar1 =>
    if T = 0 then .error .indexError
    else do
      let _ ← broadcastRow 1 e
      if T = 1 then .error .typeError else .error .valueError
  | .absent => .error .attributeError

/-- `response(model, dr, varname, T, impulse)`, `dolo/algos/simulations.py:14-40`: `names` are
`model.symbols["exogenous"]`, `g` and `s0` the transition function and the calibrated states. -/
def responseOf {S X : Type} (sqrt : K → K) (p : ExoObj K) (names : List String)
    (g : List K → S → X → List K → S) (dr : List K → S → X) (s0 : S) (varname : String) (T : ℕ)
    (impulse : Option K) : Except Err (List (S × X)) := do
  let i ← strIndex names varname
  let size ← match impulse with
    | some v => .ok v
    | none => defaultImpulse sqrt p i
  let e1 := (List.replicate names.length 0).set i size
  let m ← exoRows p (T - 1) e1
  simulateDriven g dr s0 T m

end Dolo
