import Mathlib.Algebra.Order.Field.Basic
import Verif.Model.Distribution

/-!
# Random draws

Models the methods `draw` of the discrete distributions of `dolo/numeric/distribution.py` and
`IIDProcess.simulate` of `dolo/numeric/processes.py`.

The random generator of numpy is modelled by finite probability: a random value is the list of its
outcomes with their probabilities, and successive calls of the generator are independent.
-/

namespace Dolo

variable {K : Type} [Field K]

/-- A random value: outcomes with their probabilities. -/
abbrev Rand (K α : Type) := List (K × α)

/-- A value that is not random. -/
def randPure {α : Type} (a : α) : Rand K α := [(1, a)]

/-- A random value, then another one that depends on its outcome. -/
def randBind {α β : Type} (r : Rand K α) (k : α → Rand K β) : Rand K β :=
  r.flatMap fun wx => (k wx.2).map fun vy => (wx.1 * vy.1, vy.2)

/-- `n` successive calls of the generator. -/
def randList {α : Type} (r : Rand K α) : ℕ → Rand K (List α)
  | 0 => randPure []
  | n + 1 => randBind r fun x => randBind (randList r n) fun xs => randPure (x :: xs)

/-- Expected value of a function of a random value. -/
def Rand.expect {α : Type} (r : Rand K α) (f : α → K) : K := (r.map fun wx => wx.1 * f wx.2).sum

/-- A table: one row per draw. -/
abbrev Draws (K : Type) := List (List K)

/-- `points[inds, :]`: the rows at the given positions; `IndexError` outside of the range. -/
def takeRows (points : List (List K)) (inds : List ℕ) : Except Err (Draws K) :=
  inds.mapM fun i => pyGet points i

/-- Apply a function that may raise to all outcomes of a random value. -/
def randMapM {α β : Type} (g : α → Except Err β) (r : Rand K α) : Except Err (Rand K β) :=
  r.mapM fun wx => (g wx.2).map fun y => (wx.1, y)

/-- `numpy.random.randint(low=0, high=n)`: uniform on `0..n-1`; `ValueError` if `low >= high`. -/
def npRandint (n : ℕ) : Except Err (Rand K ℕ) :=
  if n = 0 then .error .valueError
  else .ok ((List.range n).map fun i => (1 / (n : K), i))

/-- `numpy.random.choice(range(n), p=p)`: `ValueError` if `p` has another length, a negative entry,
or does not sum to one (numpy allows a rounding error, exact here). -/
def npChoice [LinearOrder K] (n : ℕ) (p : List K) : Except Err (Rand K ℕ) :=
  if p.length = n ∧ (∀ w ∈ p, 0 ≤ w) ∧ p.sum = 1 then .ok (p.zip (List.range n))
  else .error .valueError

/-- `numpy.random.choice(a)` without `p`: uniform on the entries of `a`. -/
def npChoiceUniform {α : Type} (a : List α) : Except Err (Rand K α) :=
  if a.length = 0 then .error .valueError
  else .ok (a.map fun x => (1 / (a.length : K), x))

/-- `EquiprobableDistribution.draw(N)`, `dolo/numeric/distribution.py:170-174`. -/
def equiDraw (points : List (List K)) (N : ℕ) : Except Err (Rand K (Draws K)) := do
  let r ← npRandint points.length
  randMapM (takeRows points) (randList r N)

/-- `FiniteDistribution.draw(N)`, `dolo/numeric/distribution.py:212-217`. -/
def FiniteDist.draw [LinearOrder K] (d : FiniteDist K) (N : ℕ) : Except Err (Rand K (Draws K)) := do
  let r ← npChoice d.points.length d.weights
  randMapM (takeRows d.points) (randList r N)

/-- `Bernouilli.draw(N)`, lines 299-302: `np.random.choice([0, 1], size=N)`, reshaped to one column.
The parameter `π` is not used. -/
def bernouilliDraw (_pi : K) (N : ℕ) : Except Err (Rand K (Draws K)) := do
  let r ← npChoiceUniform [(0 : K), 1]
  pure ((randList r N).map fun wx => (wx.1, wx.2.map fun x => [x]))

/-- `Bernouilli.discretize(to="iid")`, lines 286-291. -/
def bernouilliDiscretize (p : K) : Except Err (FiniteDist K) :=
  FiniteDist.mk' [[0], [1]] [1 - p, p]

/-- `DiscreteDistribution.integrate` (lines 137-139) on a `Bernouilli`: `items()` reads `self.n`,
which the constructor (lines 282-284) does not set. -/
def bernouilliIntegrate (_p : K) (_f : List K → K) : Except Err K := .error .attributeError

/-- One draw after the other, then `np.concatenate(..., axis=1)` (tables of `N` rows). -/
def randConcat (N : ℕ) : List (Rand K (Draws K)) → Rand K (Draws K)
  | [] => randPure (List.replicate N [])
  | r :: rest =>
    randBind r fun a => (randConcat N rest).map fun wb => (wb.1, List.zipWith (· ++ ·) a wb.2)

/-- `ProductDistribution.draw(N)`, lines 649-651: `np.concatenate([dis.draw(N) ...], axis=1)`;
`np.concatenate([])` raises `ValueError`. -/
def productDraw (draws : List (ℕ → Except Err (Rand K (Draws K)))) (N : ℕ) :
    Except Err (Rand K (Draws K)) := do
  let rs ← draws.mapM fun dr => dr N
  if rs.length = 0 then .error .valueError
  else pure (randConcat N rs)

/-- `ProductDistribution.discretize(to)`, lines 643-647.  With `to="mc"` the components are
`MarkovChain`s, which have no `weights` (line 657 reads them): `AttributeError`. -/
def productDistDiscretize (toMc : Bool) (ds : List (FiniteDist K)) : Except Err (FiniteDist K) :=
  if toMc then
    (if ds.length = 0 then .error .indexError else .error .attributeError)
  else productIid ds

/-- One row of `(inds == k) * dist.draw(N)`, line 764: comparing numbers with a string gives `False`. -/
def maskRow [DecidableEq K] (key : MixKey) (ind : List K) (x : List K) : List K :=
  x.map fun e => (match key with
    | .int n => if ind = [(n : K)] then (1 : K) else 0
    | .str _ => 0) * e

/-- Elementwise sum of two rows. -/
def rowAdd (x y : List K) : List K := List.zipWith (· + ·) x y

/-- `sum([(inds == k) * dist.draw(N) for (k, dist) in self.distributions.items()])`, lines 763-765,
given the table `inds` (one column); `d` is the number of columns of the components. -/
def randMix [DecidableEq K] (d : ℕ) (inds : Draws K) :
    List (MixKey × Rand K (Draws K)) → Rand K (Draws K)
  | [] => randPure (inds.map fun _ => List.replicate d 0)
  | (k, r) :: rest =>
    randBind r fun a => (randMix d inds rest).map fun wb =>
      (wb.1, List.zipWith rowAdd (List.zipWith (maskRow k) inds a) wb.2)

/-- `Mixture.draw(N)`, `dolo/numeric/distribution.py:758-765`. -/
def mixtureDraw [DecidableEq K] (d : ℕ) (index : ℕ → Except Err (Rand K (Draws K)))
    (dists : List (MixKey × (ℕ → Except Err (Rand K (Draws K))))) (N : ℕ) :
    Except Err (Rand K (Draws K)) := do
  let inds ← index N
  let rs ← dists.mapM fun kd => (kd.2 N).map fun r => (kd.1, r)
  pure (randBind inds fun i => randMix d i rs)

/-- `.reshape((T, N, -1))` on a table with `T * N` rows: block `t` holds the rows `t N .. t N + N - 1`. -/
def reshapeTN (N : ℕ) : ℕ → Draws K → List (Draws K)
  | 0, _ => []
  | T + 1, rows => rows.take N :: reshapeTN N T (rows.drop N)

/-- `IIDProcess.simulate(N, T)`, `dolo/numeric/processes.py:106-113`: `self.draw(T*N)` reshaped to
dates and replications.  `reshape` cannot infer the last dimension of an empty array (`ValueError`).
The labels are not modelled here. -/
def iidSimulateRand (draw : ℕ → Except Err (Rand K (Draws K))) (N T : ℕ) :
    Except Err (Rand K (List (Draws K))) := do
  let r ← draw (T * N)
  if T * N = 0 then .error .valueError
  else pure (r.map fun wx => (wx.1, reshapeTN N T wx.2))

end Dolo
