import Verif.Model.Markov

/-!
# Rouwenhorst and Tauchen discretisations

Models `rouwenhorst` and `tauchen` of `dolo/numeric/discretization/discretization.py`.
Matrices under construction are functions `ℕ → ℕ → K`, zero outside their shape; what the functions
return are lists of rows.
-/

namespace Dolo

variable {K : Type} [Field K]

/-- The rows of an `n × m` matrix. -/
def matRows (n m : ℕ) (M : ℕ → ℕ → K) : List (List K) :=
  (List.range n).map fun i => (List.range m).map fun j => M i j

/-- One pass of the loop `for n in range(3, N + 1)`,
`dolo/numeric/discretization/discretization.py:86-99`: `mat_A[:-1, :-1]`, `mat_B[:-1, 1:]`,
`mat_C[1:, :-1]`, `mat_D[1:, 1:]` are set to `mat0` (of size `n-1`), combined with weights
`p, 1-p, 1-q, q`, and rows `1:-1` are halved. -/
def rouwStep (p q : K) (n : ℕ) (mat0 : ℕ → ℕ → K) : ℕ → ℕ → K := fun i j =>
  let matA := if i < n - 1 ∧ j < n - 1 then mat0 i j else 0
  let matB := if i < n - 1 ∧ 1 ≤ j ∧ j < n then mat0 i (j - 1) else 0
  let matC := if 1 ≤ i ∧ i < n ∧ j < n - 1 then mat0 (i - 1) j else 0
  let matD := if 1 ≤ i ∧ i < n ∧ 1 ≤ j ∧ j < n then mat0 (i - 1) (j - 1) else 0
  let m := p * matA + (1 - p) * matB + (1 - q) * matC + q * matD
  if 1 ≤ i ∧ i < n - 1 then m / 2 else m

/-- Line 83: the two-state matrix `[[p, 1-p], [1-q, q]]`. -/
def rouwBase (p q : K) : ℕ → ℕ → K := fun i j =>
  match i, j with
  | 0, 0 => p
  | 0, 1 => 1 - p
  | 1, 0 => 1 - q
  | 1, 1 => q
  | _, _ => 0

/-- `mat0` after the loop has reached size `n` (lines 83-100). -/
def rouwMat (p q : K) : ℕ → ℕ → ℕ → K
  | 0 => rouwBase p q
  | 1 => rouwBase p q
  | 2 => rouwBase p q
  | n + 3 => rouwStep p q (n + 3) (rouwMat p q (n + 2))

/-- `rouwenhorst(rho, sigma, N)`, lines 57-101.  Returns nodes and transition matrix; `sqrt` is
`numpy.sqrt`. -/
def rouwenhorst (sqrt : K → K) (rho sigma : K) (N : ℕ) : List K × List (List K) :=
  if N = 1 then ([0], [[1]])
  else
    let p := (rho + 1) / 2
    let q := p
    let nu := sqrt (((N : K) - 1) / (1 - rho ^ 2)) * sigma
    let nodes := linspace (-nu) nu N
    if N = 2 then (nodes, matRows 2 2 (rouwBase p q))
    else (nodes, matRows (Nat.max N 2) (Nat.max N 2) (rouwMat p q N))

/-- `tauchen(N, mu, rho, sigma, m)`, lines 13-54, with `cdf` the cumulative distribution function
used in place of `scipy.stats.norm.cdf` and `sqrt` that of `math.sqrt`.

* lines 33-38: nodes `-m s, …, m s` (`s = sqrt(sigma^2/(1-rho^2))`), `zstep` between them;
* line 40: shifted by `a/(1-rho)`;
* lines 42-52: the three cases `k == 0`, `k == N-1`, other.

`N = 0` fails at line 33 (`Z[-1]` of an empty array: `IndexError`); for `N = 1` the division by
`N - 1` of a numpy value gives `nan`: outside the model, reported as `zeroDivision`. -/
def tauchen (sqrt cdf : K → K) (N : ℕ) (mu rho sigma m : K) :
    Except Err (List K × List (List K)) :=
  if N = 0 then .error .indexError
  else if N = 1 then .error .zeroDivision
  else
    let a := (1 - rho) * mu
    let zlast := m * sqrt (sigma ^ 2 / (1 - rho ^ 2))
    let zfirst := -1 * zlast
    let zstep := (zlast - zfirst) / ((N : K) - 1)
    let Z : ℕ → K := fun i => (zfirst + zstep * (i : K)) + a / (1 - rho)
    let prob : ℕ → ℕ → K := fun j k =>
      if k = 0 then cdf ((Z 0 - a - rho * Z j + zstep / 2) / sigma)
      else if k = N - 1 then 1 - cdf ((Z (N - 1) - a - rho * Z j - zstep / 2) / sigma)
      else
        let up := cdf ((Z k - a - rho * Z j + zstep / 2) / sigma)
        let down := cdf ((Z k - a - rho * Z j - zstep / 2) / sigma)
        up - down
    .ok ((List.range N).map Z, matRows N N prob)

/-- `itertools.product(*lists)`: all combinations, the last list varying fastest. -/
def itertoolsProduct {α : Type} : List (List α) → List (List α)
  | [] => [[]]
  | a :: r => a.flatMap fun x => (itertoolsProduct r).map fun t => x :: t

/-- `multidimensional_discretization(rho, sigma, N, method, m)`,
`dolo/numeric/discretization/discretization.py:104-155`, for a given one-dimensional chain
`(nodes_1d, probas_1d)` (lines 135-138 compute it with `tauchen` or `rouwenhorst` and unit standard
deviation).  `chol` is `scipy.linalg.cholesky` (line 131), which by default returns the *upper*
factor.  Zero-sum columns get a unit diagonal (lines 127-129, on a copy), the nodes are `L z` for all
combinations `z` (140-143), the transition matrix is the `d`-fold Kronecker power (145-147), and the
coordinates of zero-sum columns are reset to zero (151-152).  Nodes are returned as rows. -/
def multidimDisc [DecidableEq K] {d : ℕ}
    (chol : (Fin d → Fin d → K) → Except Err (Fin d → Fin d → K))
    (chain : List K × List (List K)) (sigma : Fin d → Fin d → K) :
    Except Err (List (List K) × List (List K)) := do
  let L ← chol (fillDiag sigma)
  let z := itertoolsProduct (List.replicate d chain.1)
  let nodes := z.map fun z => matVec L z
  let T := (List.range d).foldl (fun T _ => kronMat T chain.2) [[1]]
  let nodes := nodes.map fun row =>
    List.zipWith (fun (z : Bool) v => if z then 0 else v) (List.ofFn (zeroColumns sigma)) row
  pure (nodes, T)

end Dolo
