import Mathlib.Algebra.BigOperators.Fin
import Mathlib.Algebra.Order.Field.Basic
import Mathlib.Data.Fintype.BigOperators
import Verif.Model.Cartesian

/-!
# Discrete distributions, mixtures, truncation, discretisation

Models `dolo/numeric/distribution.py` and the product rule of
`dolo/numeric/discretization/quadrature.py`.  Points are rows (lists), weights are lists.
-/

namespace Dolo

variable {K : Type} [Field K]

/-- A `FiniteDistribution`, `dolo/numeric/distribution.py:192-212`: points (rows) and weights. -/
structure FiniteDist (K : Type) where
  points : List (List K)
  weights : List K

/-- The constructor, lines 197-212: `assert len(weights) == n`. -/
def FiniteDist.mk' (points : List (List K)) (weights : List K) : Except Err (FiniteDist K) :=
  if weights.length = points.length then .ok ⟨points, weights⟩ else .error .assertionError

/-- `items()`, lines 130-135: the pairs `(weight(i), point(i))` for `i in range(n)`.  The
constructor's assertion makes `n` the length of both. -/
def FiniteDist.items (d : FiniteDist K) : List (K × List K) := List.zip d.weights d.points

/-- `integrate(fun)`, lines 137-139. -/
def FiniteDist.integrate (d : FiniteDist K) (f : List K → K) : K :=
  (d.items.map fun wx => wx.1 * f wx.2).sum

/-- `EquiprobableDistribution.weights`, lines 155-160: `n` times `1/n`. -/
def equiWeights (n : ℕ) : List K := List.replicate n (1 / (n : K))

/-- `EquiprobableDistribution` seen as a finite distribution (`weight(i) = 1/n`, lines 166-168). -/
def equiprobable (points : List (List K)) : FiniteDist K :=
  ⟨points, equiWeights points.length⟩

/-- `numpy.kron` of two vectors. -/
def kronVec (a b : List K) : List K := a.flatMap fun x => b.map fun y => x * y

/-- Row `r` of `cart` selects one point of each factor; the selected points are concatenated:
one row of `np.concatenate([f.points[cart[:, i], :] for i, f in enumerate(iids)], axis=1)`,
lines 662-664. -/
def gatherRow : List ℕ → List (FiniteDist K) → Except Err (List K)
  | _, [] => .ok []
  | [], _ :: _ => .error .indexError
  | i :: row, f :: fs => do
    let x ← pyGet f.points i
    let rest ← gatherRow row fs
    pure (x ++ rest)

/-- `product_iid(iids)`, `dolo/numeric/distribution.py:654-669` (identical to 252-267).
An empty list raises `IndexError` in `cartesian`. -/
def productIid (iids : List (FiniteDist K)) : Except Err (FiniteDist K) :=
  match iids with
  | [] => .error .indexError
  | f0 :: rest => do
    let cart ← cartesian ((f0 :: rest).map fun f => List.range f.weights.length)
    let nodes ← cart.mapM fun row => gatherRow row (f0 :: rest)
    let weights := rest.foldl (fun w f => kronVec w f.weights) f0.weights
    FiniteDist.mk' nodes weights

/-- A finite Markov chain: `MarkovChain(transitions, values)`, `dolo/numeric/processes.py:235-248`. -/
structure MChain (K : Type) where
  transitions : List (List K)
  values : List (List K)

/-- `FiniteDistribution.discretize(to="mc")`, `dolo/numeric/distribution.py:229-240`: the weight
vector repeated once per node. -/
def FiniteDist.toMC (d : FiniteDist K) : MChain K :=
  ⟨List.replicate d.points.length d.weights, d.points⟩

/-- Next-period expectation of `f` from state `i` of a chain, over `iweight(i, j)`, `inode(i, j)`
for `j in range(n_inodes(i))` (`processes.py:276-284`). -/
def MChain.expect (c : MChain K) (i : ℕ) (f : List K → K) : Except Err K := do
  let row ← pyGet c.transitions i
  pure ((List.zip row c.values).map fun wx => wx.1 * f wx.2).sum

/-! ### Mixtures -/

/-- The inner loop of `Mixture.discretize`, lines 737-746: for each `i` in the remaining positions,
look the component up *under the string key `str(i)`*, and append its points with weights
multiplied by the index weight. -/
def mixtureLoop (dists : List (String × FiniteDist K)) :
    List (ℕ × K) → Except Err (List (K × List K))
  | [] => .ok []
  | (i, wind) :: rest =>
    match dists.lookup (toString i) with
    | none => .error .keyError
    | some d => do
      let tail ← mixtureLoop dists rest
      pure (d.items.map (fun wx => (wind * wx.1, wx.2)) ++ tail)

/-- `Mixture.discretize(to="iid")`, `dolo/numeric/distribution.py:730-750`.  `dists` maps keys to
the components' discretisations.  `np.concatenate([])` (line 747) raises `ValueError` when no
point was collected. -/
def mixtureDiscretize (index : FiniteDist K) (dists : List (String × FiniteDist K)) :
    Except Err (FiniteDist K) := do
  let acc ← mixtureLoop dists ((List.range index.weights.length).zip index.weights)
  if acc.length = 0 then .error .valueError
  else FiniteDist.mk' (acc.map Prod.snd) (acc.map Prod.fst)

/-- A dictionary key of `Mixture.distributions`: YAML/Python users may write integers or strings. -/
inductive MixKey where
  | str (s : String)
  | int (n : ℤ)
  deriving DecidableEq

/-- Lookup of `str(i)` (line 740) in a dictionary with keys of either kind. -/
def mixLookup {β : Type} (dists : List (MixKey × β)) (i : ℕ) : Except Err β :=
  match dists.lookup (.str (toString i)) with
  | none => .error .keyError
  | some d => .ok d

/-- One entry of `Mixture.draw`, lines 759-765: `sum([(inds == k) * dist.draw(N) ...])`.
Comparing a numeric array with a string key is `False`. `draws` gives the draw of each component. -/
def mixtureDrawOne (ind : ℤ) (draws : List (MixKey × K)) : K :=
  (draws.map fun kd =>
    (match kd.1 with
      | .int n => if ind = n then (1 : K) else 0
      | .str _ => 0) * kd.2).sum

/-! ### Univariate discretisation -/

/-- The `mass_point` argument. -/
inductive MassPoint where
  | median | left | middle | right
  /-- any other string -/
  | other
  deriving DecidableEq, Repr

/-- `0.5 * (q[1:] + q[:-1])`, line 387. -/
def midpoints : List K → List K
  | [] => []
  | [_] => []
  | x :: y :: r => (1 / 2) * (y + x) :: midpoints (y :: r)

/-- `__discretize_ep__(N, mass_point)`, `dolo/numeric/distribution.py:377-396`.  `N = 0` divides by
zero (line 379, 382, 389; for `middle` line 394). -/
def discretizeEp (ppf : K → K) (N : ℕ) (mp : MassPoint) : Except Err (FiniteDist K) :=
  if mp = .other then .error (.exception "Not implemented")
  else if N = 0 then .error .zeroDivision
  else
    let n : K := N
    let q : List K := match mp with
      | .median => (linspace ((1 / 2) / n) (1 - (1 / 2) / n) N).map ppf
      | .left => (linspace 0 (1 - 1 / n) N).map ppf
      | .middle => midpoints ((linspace 0 1 (N + 1)).map ppf)
      | .right => (linspace (1 / n) 1 N).map ppf
      | .other => []
    .ok (equiprobable (q.map fun x => [x]))

/-- The `to` argument. -/
inductive Target where
  | iid | mc | gdp
  /-- any other string -/
  | other
  deriving DecidableEq, Repr

/-- The `method` argument. -/
inductive Method where
  | gaussHermite | equiprobable
  /-- any other string -/
  | other
  deriving DecidableEq, Repr

/-- Either kind of discretised object. -/
inductive Discretized (K : Type) where
  | iid (d : FiniteDist K)
  | mc (c : MChain K)

/-- `UnivariateContinuousDistribution.discretize(to, N, method, mass_point)`,
`dolo/numeric/distribution.py:343-375`.  `gh` is the distribution's `__discretize_gh__`.  As
written, `to="mc"` (line 370) calls `self.discretize(to="iid")` with *default* options. -/
def discretizeUni (ppf : K → K) (gh : ℕ → Except Err (FiniteDist K)) (tgt : Target) (N : ℕ)
    (method : Method) (mp : MassPoint) : Except Err (Discretized K) :=
  let iid (N : ℕ) (method : Method) (mp : MassPoint) : Except Err (FiniteDist K) :=
    match method with
    | .gaussHermite => gh N
    | .equiprobable => discretizeEp ppf N mp
    | .other => .error (.exception "Unknown discretization method.")
  match tgt with
  | .iid => do let d ← iid N method mp; pure (.iid d)
  | .mc => do let d ← iid 5 .equiprobable .median; pure (.mc d.toMC)
  | _ => .error (.exception "Not implemented (yet).")

/-! ### Truncation -/

/-- A univariate distribution as `Truncation` uses it: `ppf`, and possibly a `cdf` (`LogNormal`,
`Beta` and `Truncation` itself inherit the `cdf` that raises, lines 335-341). -/
structure UniDist (K : Type) where
  ppf : K → K
  cdf : Option (K → K)

/-- A `Truncation` object: base distribution and the two levels `__min_q__`, `__max_q__`. -/
structure Trunc (K : Type) where
  dist : UniDist K
  minQ : K
  maxQ : K

/-- `Truncation.__init__`, `dolo/numeric/distribution.py:685-695`.  `none` is an infinite bound. -/
def Trunc.mk' (dist : UniDist K) (lb ub : Option K) : Except Err (Trunc K) := do
  let lo ← match lb with
    | none => .ok 0
    | some x => match dist.cdf with
      | none => .error (.exception "Not Implemented (yet).")
      | some F => .ok (F x)
  let hi ← match ub with
    | none => .ok 1
    | some x => match dist.cdf with
      | none => .error (.exception "Not Implemented (yet).")
      | some F => .ok (F x)
  pure ⟨dist, lo, hi⟩

/-- `Truncation.ppf`, lines 702-708. -/
def Trunc.ppf (t : Trunc K) (q : K) : K := t.dist.ppf (t.minQ + (t.maxQ - t.minQ) * q)

/-- A `Truncation` used as a distribution: it defines `ppf` but not `cdf`. -/
def Trunc.asDist (t : Trunc K) : UniDist K := ⟨t.ppf, none⟩

/-! ### Gauss-Hermite product rule -/

/-- A one-dimensional rule for the standard normal: `points * sqrt(2)`, `weights / sqrt(pi)` of
`hermgauss(n)` (lines 86-89 of `quadrature.py`); the numbers produced by `hermgauss` are a parameter
of the model. -/
structure Rule (K : Type) where
  points : List K
  weights : List K

/-- `numpy.dot(C, x)` for one column `x` of node coordinates. -/
def matVec {d : ℕ} (C : Fin d → Fin d → K) (row : List K) : List K :=
  List.ofFn fun a => ∑ k : Fin d, C a k * row.getD k 0

/-- `numpy.where(sigma.sum(axis=0) == 0)[0]`, line 103: the columns whose *sum* is zero. -/
def zeroColumns [DecidableEq K] {d : ℕ} (sigma : Fin d → Fin d → K) : Fin d → Bool :=
  fun i => decide (∑ j, sigma j i = 0)

/-- Lines 104-105: the diagonal entry of each such column is replaced by one. -/
def fillDiag [DecidableEq K] {d : ℕ} (sigma : Fin d → Fin d → K) : Fin d → Fin d → K :=
  fun a b => if a = b ∧ zeroColumns sigma a = true then 1 else sigma a b

/-- `gauss_hermite_nodes(orders, sigma, mu)`, `dolo/numeric/discretization/quadrature.py:77-119`.

`rules` is the list of one-dimensional rules (one per entry of `orders`), `sqrt` the square root used
in dimension one, `chol` is `numpy.linalg.cholesky`.  With several orders the dimensions must agree
(`numpy.dot` raises `ValueError` otherwise).  Nodes are returned as rows. -/
def gaussHermiteNodes [DecidableEq K] {d : ℕ} (sqrt : K → K)
    (chol : (Fin d → Fin d → K) → Except Err (Fin d → Fin d → K))
    (rules : List (Rule K)) (sigma : Fin d → Fin d → K) (mu : Fin d → K) :
    Except Err (List (List K) × List K) :=
  match rules with
  | [] => .error .indexError
  | [r] =>
    if h : d = 1 then
      let s := sqrt (sigma ⟨0, by omega⟩ ⟨0, by omega⟩)
      .ok (r.points.map fun x => [x * s], r.weights)
    else .error .typeError
  | r :: rest => do
    let x ← cartesian ((r :: rest).map Rule.points)
    let w := rest.foldl (fun w r => kronVec w r.weights) r.weights
    let C ← chol (fillDiag sigma)
    if (r :: rest).length ≠ d then .error .valueError
    else
      let y := x.map fun z => List.zipWith (· + ·) (matVec C z) (List.ofFn mu)
      let y := y.map fun row =>
        List.zipWith (fun (z : Bool) v => if z then 0 else v) (List.ofFn (zeroColumns sigma)) row
      pure (y, w)

/-- `Normal.discretize(to="iid", N)`, `dolo/numeric/distribution.py:593-605`: line 602 adds the mean
to every node returned by `gauss_hermite_nodes`. -/
def normalDiscretize [DecidableEq K] {d : ℕ} (sqrt : K → K)
    (chol : (Fin d → Fin d → K) → Except Err (Fin d → Fin d → K))
    (rules : List (Rule K)) (sigma : Fin d → Fin d → K) (mu : Fin d → K) :
    Except Err (FiniteDist K) := do
  let (x, w) ← gaussHermiteNodes sqrt chol rules sigma mu
  FiniteDist.mk' (x.map fun e => List.zipWith (· + ·) e (List.ofFn mu)) w

/-- `UNormal.__discretize_gh__`, lines 443-451. -/
def unormalDiscretizeGh [DecidableEq K] (sqrt : K → K) (rule : Rule K) (mu sigma : K) :
    Except Err (FiniteDist K) := do
  let (x, w) ← gaussHermiteNodes (d := 1) sqrt (fun _ => .error .linAlgError) [rule]
    (fun _ _ => sigma ^ 2) (fun _ => mu)
  FiniteDist.mk' (x.map fun e => e.map fun v => v + mu) w

end Dolo
