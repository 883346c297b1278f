import Verif.Model.Loops

/-!
# The Jacobian operator of `dolo/algos/improved_time_iteration.py`

`d_filt_dx` and `invert_jac` are in `Verif.Model.Loops`.  `scipy.sparse.linalg.gmres` and
`scipy.sparse.linalg.eigs` are parameters.
-/

namespace Dolo

variable {K : Type} [Field K] [LinearOrder K]

/-- `x.reshape((n_m, N, n_x))`; entries outside the shape are never read. -/
def unravel3 (nm N nx : ℕ) (v : ℕ → K) : Table K := fun i n k =>
  if i < nm ∧ n < N ∧ k < nx then v ((i * N + n) * nx + k) else 0

/-- `t.ravel()` for an array of shape `(n_m, N, n_x)`. -/
def ravel3 (N nx : ℕ) (t : Table K) : ℕ → K := fun r => t (r / nx / N) (r / nx % N) (r % nx)

/-- `Operator(M_ij, S_ij, dumdr)`, lines 122-134.  `filt` is as in `dFiltDx`. -/
structure ItiOperator (K : Type) where
  nm : ℕ
  nim : ℕ
  N : ℕ
  nx : ℕ
  M : ℕ → ℕ → ℕ → ℕ → ℕ → K
  filt : Table K → ℕ → ℕ → ℕ → ℕ → K
  addid : Bool := false
  counter : ℕ := 0

/-- `Operator.shape`, lines 136-139. -/
def ItiOperator.size (L : ItiOperator K) : ℕ := L.nm * L.N * L.nx

/-- `Operator.apply(π)`, lines 149-158: the argument is copied. -/
def ItiOperator.apply (L : ItiOperator K) (π : Table K) : Table K := dFiltDx L.nim L.nx L.M L.filt π

/-- `Operator._matvec(x)`, lines 141-147, with the modified operator. -/
def ItiOperator.matvec (L : ItiOperator K) (x : ℕ → K) : (ℕ → K) × ItiOperator K :=
  let xx := unravel3 L.nm L.N L.nx x
  let yy := L.apply xx
  let yy := if L.addid then fun i n k => xx i n k - yy i n k else yy
  (ravel3 L.N L.nx yy, { L with counter := L.counter + 1 })

/-- `v[i] = a` -/
def setEntry (v : ℕ → K) (i : ℕ) (a : K) : ℕ → K := fun j => if j = i then a else v j

/-- Lines 166-170, for the indices of the list: `larg` is a view of `arg`. -/
def asMatrixLoop (L : ItiOperator K) : List ℕ → (ℕ → K) → (ℕ → ℕ → K) → ℕ → ℕ → K
  | [], _, J => J
  | i :: is, larg, J =>
    let larg := if i > 0 then setEntry larg (i - 1) 0 else larg
    let larg := setEntry larg i 1
    let col := ravel3 L.N L.nx (L.apply (unravel3 L.nm L.N L.nx larg))
    asMatrixLoop L is larg fun r c => if c = i then col r else J r c

/-- `Operator.as_matrix()`, lines 160-171. -/
def ItiOperator.asMatrix (L : ItiOperator K) : ℕ → ℕ → K :=
  asMatrixLoop L (List.range L.size) (fun _ => 0) fun _ _ => 0

/-- The branch `invmethod == "gmres"`, lines 457-470: from the premultiplied `M` and `d`, which is
`solve_gu(dres, res)`.  `gmres op b tol` returns the solution found for the linear map `op`. -/
def gmresStep (gmres : ((ℕ → K) → ℕ → K) → (ℕ → K) → K → ℕ → K) (L : ItiOperator K) (d : Table K) (err_0 : K) :
    Table K :=
  let L := { L with addid := true }
  let sol := gmres (fun v => (L.matvec v).1) (ravel3 L.N L.nx d) (err_0 / 100)
  unravel3 L.nm L.N L.nx sol

end Dolo
