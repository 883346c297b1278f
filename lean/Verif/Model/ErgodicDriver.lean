import Verif.Model.Ergodic
import Verif.Model.Cartesian

/-!
# `ergodic_distribution`, `dolo/algos/ergodic.py:138-267`

The decision rule and the transition function are applied point by point; parameters are left implicit.  The
axes of the array `μ` are kept apart from its values, which are listed in row-major order, as `reshape` does.
-/

namespace Dolo

variable {K : Type} [Field K] [LinearOrder K] [FloorRing K]

/-- What is returned with `compute_μ=True`: the transition matrix, the values of `μ` in row-major order, and
the coordinates of the axes of the states. -/
structure ErgodicResult (K : Type) where
  pi : List (List K)
  mu : List K
  labels : List (List K)

/-- `S = (S - a[None, :]) / (b[None, :] - a[None, :])`, lines 175 and 241, for one point. -/
def renormaliseRow (grid : UniformGrid K) (S : List K) : List K :=
  List.zipWith (fun (ab : K × K) s => renormalise ab.1 ab.2 s) (grid.min.zip grid.max) S

/-- Lines 166-184: the matrix for a Markov chain.  `trembling_hand` handles one or two states (`A.ndim` 2 or 3);
a dimension with one node divides by zero. -/
def ergodicPiMC (dims : List ℕ) (weights : List (List K)) (T : ℕ → ℕ → ℕ → List K) (Ns : ℕ) :
    Except Err (List (List K)) :=
  match dims with
  | [n0] =>
    if n0 ≤ 1 then .error .zeroDivision
    else .ok (ergodicMatrixMC (fun A x w => tremble1 A (x.getD 0 0) w) (List.replicate n0 0) id weights T Ns)
  | [n0, n1] =>
    if n0 ≤ 1 ∨ n1 ≤ 1 then .error .zeroDivision
    else .ok (ergodicMatrixMC (fun A x w => tremble2 n0 n1 A (x.getD 0 0, x.getD 1 0) w)
      (List.replicate n0 (List.replicate n1 0)) List.flatten weights T Ns)
  | _ => .error (.exception "Unsupported.")

/-- Lines 225-245: the matrix for an iid process. -/
def ergodicPiIID (dims : List ℕ) (weights : List K) (T : ℕ → ℕ → List K) (Ns : ℕ) :
    Except Err (List (List K)) :=
  match dims with
  | [n0] =>
    if n0 ≤ 1 then .error .zeroDivision
    else .ok (ergodicMatrixIID (fun A x w => tremble1 A (x.getD 0 0) w) (List.replicate n0 0) id weights T Ns)
  | [n0, n1] =>
    if n0 ≤ 1 ∨ n1 ≤ 1 then .error .zeroDivision
    else .ok (ergodicMatrixIID (fun A x w => tremble2 n0 n1 A (x.getD 0 0, x.getD 1 0) w)
      (List.replicate n0 (List.replicate n1 0)) List.flatten weights T Ns)
  | _ => .error (.exception "Unsupported.")

/-- Lines 189-207 and 251-265: the distribution and the coordinates of its axes. -/
def ergodicFinish (solve : (N : ℕ) → (Fin N → Fin N → K) → (Fin N → K) → Except Err (Fin N → K))
    (grid : UniformGrid K) (pi : List (List K)) : Except Err (ErgodicResult K) := do
  let mu ← ergodicMu (solve pi.length) (asSquare pi)
  let labels ← linspaces grid.min grid.max grid.n
  pure ⟨pi, List.ofFn mu, labels⟩

/-- Lines 143-208: `ergodic_distribution(model, dr, exo_grid, endo_grid, dp)` for a Markov chain with nodes
`mnodes` and transition matrix `P`. -/
def ergodicDistMC (solve : (N : ℕ) → (Fin N → Fin N → K) → (Fin N → K) → Except Err (Fin N → K))
    (grid : UniformGrid K) (mnodes P : List (List K)) (dr : ℕ → List K → List K)
    (g : List K → List K → List K → List K → List K) : Except Err (ErgodicResult K) := do
  let T := fun i_m i_M n =>
    let m := mnodes.getD i_m []
    let s := grid.nodes.getD n []
    let x := dr i_m s
    let M := mnodes.getD i_M []
    renormaliseRow grid (g m s x M)
  let pi ← ergodicPiMC grid.n P T grid.nodes.length
  ergodicFinish solve grid pi

/-- Lines 143-187: what is returned with `compute_μ=False`, the transition matrix alone, its rows and columns
listed by (exogenous state, node). -/
def ergodicTransMC (grid : UniformGrid K) (mnodes P : List (List K)) (dr : ℕ → List K → List K)
    (g : List K → List K → List K → List K → List K) : Except Err (List (List K)) :=
  let T := fun i_m i_M n =>
    let m := mnodes.getD i_m []
    let s := grid.nodes.getD n []
    let x := dr i_m s
    let M := mnodes.getD i_M []
    renormaliseRow grid (g m s x M)
  ergodicPiMC grid.n P T grid.nodes.length

/-- Lines 211-248: the same for an iid process. -/
def ergodicTransIID (grid : UniformGrid K) (m0 : List K) (inodes : List (List K)) (ws : List K)
    (dr : List K → List K) (g : List K → List K → List K → List K → List K) : Except Err (List (List K)) :=
  let T := fun i_M n =>
    let s := grid.nodes.getD n []
    let x := dr s
    let M := inodes.getD i_M []
    renormaliseRow grid (g m0 s x M)
  ergodicPiIID grid.n ws T grid.nodes.length

/-- Lines 211-267: `ergodic_distribution` for an iid process with nodes `inodes` and weights `ws`; `m0` is
`model.calibration["exogenous"]`. -/
def ergodicDistIID (solve : (N : ℕ) → (Fin N → Fin N → K) → (Fin N → K) → Except Err (Fin N → K))
    (grid : UniformGrid K) (m0 : List K) (inodes : List (List K)) (ws : List K) (dr : List K → List K)
    (g : List K → List K → List K → List K → List K) : Except Err (ErgodicResult K) := do
  let T := fun i_M n =>
    let s := grid.nodes.getD n []
    let x := dr s
    let M := inodes.getD i_M []
    renormaliseRow grid (g m0 s x M)
  let pi ← ergodicPiIID grid.n ws T grid.nodes.length
  ergodicFinish solve grid pi

end Dolo
