import Mathlib.Algebra.Field.Basic
import Mathlib.Algebra.BigOperators.Group.List.Basic
import Verif.Model.Err

/-!
# Model of the sparse tensors and filter matrices of `dolo/algos/bruteforce_lib.py`

Sparse tensors are lists of entries (multi-index and value), as the arrays `indices` and `values`
are read row by row.  Dense arrays are given by shape and entries.
-/

namespace Dolo

variable {K : Type} [Field K]

/-- bruteforce_lib.py 115-127 `SparseTensor(indices, values, shape)`. -/
structure SparseT (K : Type) where
  entries : List (List ℕ × K)
  shape : List ℕ

/-- One row of `numpy.ravel_multi_index(minds, shape)`: `ValueError` for an index out of range or a
wrong number of indices. -/
def ravelIndex : List ℕ → List ℕ → Except Err ℕ
  | [], [] => .ok 0
  | n :: shape, i :: idx => do
    let r ← ravelIndex shape idx
    if i < n then pure (i * shape.prod + r) else .error .valueError
  | _, _ => .error .valueError

/-- One row of `numpy.unravel_index(r, shape)`: `ValueError` if `r` is out of range. -/
def unravelIndex : List ℕ → ℕ → Except Err (List ℕ)
  | [], r => if r = 0 then .ok [] else .error .valueError
  | n :: shape, r => do
    let rest ← unravelIndex shape (r % shape.prod)
    if r / shape.prod < n then pure (r / shape.prod :: rest) else .error .valueError

/-- bruteforce_lib.py 129-132 `lin_indices`. -/
def SparseT.linIndices (S : SparseT K) : Except Err (List ℕ) :=
  S.entries.mapM fun e => ravelIndex S.shape e.1

/-- bruteforce_lib.py 134-138 `reshape(shape)`. -/
def SparseT.reshape (S : SparseT K) (shape : List ℕ) : Except Err (SparseT K) :=
  if shape.prod ≠ S.shape.prod then .error .assertionError
  else do
    let lin ← S.linIndices
    let inds ← lin.mapM fun r => unravelIndex shape r
    pure ⟨inds.zip (S.entries.map (·.2)), shape⟩

/-- A dense matrix: shape and entries. -/
structure DenseMat (K : Type) where
  rows : ℕ
  cols : ℕ
  val : ℕ → ℕ → K

/-- `scipy.sparse.coo_matrix((data, (row, col)))` without a shape: it has one row and one column
more than the largest indices (`ValueError` if there is no entry), and repeated entries add up. -/
def cooInferred (entries : List (List ℕ × K)) : Except Err (DenseMat K) :=
  if entries.isEmpty then .error .valueError
  else .ok
    ⟨(entries.map fun e => e.1.getD 0 0).foldl max 0 + 1,
      (entries.map fun e => e.1.getD 1 0).foldl max 0 + 1,
      fun i j => ((entries.filter fun e => e.1.getD 0 0 = i ∧ e.1.getD 1 0 = j).map (·.2)).sum⟩

/-- bruteforce_lib.py 140-155 `as_spmatrix(dims)` (`toarray` of it, 154-155). -/
def SparseT.asMatrix (S : SparseT K) (dims : Option (List ℕ)) : Except Err (DenseMat K) := do
  let dims ← match dims with
    | none =>
      let pp := S.shape.prod
      let P := Nat.sqrt pp
      if pp = P ^ 2 then pure [P, P] else .error .assertionError
    | some d => if d.length = 2 then pure d else .error .assertionError
  let sp ← S.reshape dims
  cooInferred sp.entries

/-- bruteforce_lib.py 158-180 `dres_to_sparse(dres)`; `dres` has shape `(nm, N, nx, nx')`. -/
def dresToSparse (nm N nx nx' : ℕ) (dres : ℕ → ℕ → ℕ → ℕ → K) : Except Err (SparseT K) :=
  if nx ≠ nx' then .error .assertionError
  else .ok ⟨(List.range nm).flatMap fun i => (List.range N).flatMap fun j =>
      (List.range nx).flatMap fun k => (List.range nx).map fun l =>
        ([i, j, k, i, j, l], dres i j k l),
    [nm, N, nx, nm, N, nx]⟩

/-- bruteforce_lib.py 193-217 `jres_to_sparse(jres)`; `jres` has shape `(nm, N, nx, a, b)`. -/
def jresToSparse (nm N nx a b : ℕ) (jres : ℕ → ℕ → ℕ → ℕ → ℕ → K) : Except Err (SparseT K) :=
  if a ≠ nm then .error .assertionError
  else if b ≠ nx then .error .assertionError
  else .ok ⟨(List.range nm).flatMap fun i => (List.range N).flatMap fun j =>
      (List.range nx).flatMap fun k => (List.range nm).flatMap fun l =>
        (List.range nx).map fun m => ([i, j, k, l, j, m], jres i j k l m),
    [nm, N, nx, nm, N, nx]⟩

/-- The loop of `jac_1` over `(n, i_m)` pairs: `DDRes[i_m, n, :, i_m, n, :] = dres[i_m, n]`. -/
def jac1Loop (dres : ℕ → ℕ → ℕ → ℕ → K) :
    List (ℕ × ℕ) → (ℕ → ℕ → ℕ → ℕ → ℕ → ℕ → K) → (ℕ → ℕ → ℕ → ℕ → ℕ → ℕ → K)
  | [], D => D
  | (n, i) :: rest, D => jac1Loop dres rest fun a b c a' b' c' =>
      if a = i ∧ b = n ∧ a' = i ∧ b' = n then dres i n c c' else D a b c a' b' c'

/-- bruteforce_lib.py 332-343 `jac_1`: the last line reshapes to a matrix in row-major order. -/
def jac1 (nm N nx : ℕ) (dres : ℕ → ℕ → ℕ → ℕ → K) : DenseMat K :=
  let D := jac1Loop dres
    ((List.range N).flatMap fun n => (List.range nm).map fun i => (n, i)) fun _ _ _ _ _ _ => 0
  ⟨nm * N * nx, nm * N * nx, fun r c =>
    D (r / nx / N) (r / nx % N) (r % nx) (c / nx / N) (c / nx % N) (c % nx)⟩

/-! ## Filter matrices -/

/-- A square matrix of size `n` (the attribute `B` of a one-dimensional basis). -/
structure SqMat (K : Type) where
  n : ℕ
  val : ℕ → ℕ → K

/-- The product of two matrices of size `n`. -/
def SqMat.mul (A B : SqMat K) : SqMat K :=
  ⟨A.n, fun i j => ((List.range A.n).map fun k => A.val i k * B.val k j).sum⟩

/-- bruteforce_lib.py 47-49: `T[:, i, :, i] = B` for the `i` of the list. -/
def fillX2 (B : ℕ → ℕ → K) : List ℕ → (ℕ → ℕ → ℕ → ℕ → K) → (ℕ → ℕ → ℕ → ℕ → K)
  | [], T => T
  | i :: is, T => fillX2 B is fun a b c d => if b = i ∧ d = i then B a c else T a b c d

/-- bruteforce_lib.py 51-53: `T[i, :, i, :] = B`. -/
def fillY2 (B : ℕ → ℕ → K) : List ℕ → (ℕ → ℕ → ℕ → ℕ → K) → (ℕ → ℕ → ℕ → ℕ → K)
  | [], T => T
  | i :: is, T => fillY2 B is fun a b c d => if a = i ∧ c = i then B b d else T a b c d

/-- `T.reshape((n1 n2, n1 n2))` in row-major order. -/
def reshape4 (n1 n2 : ℕ) (T : ℕ → ℕ → ℕ → ℕ → K) : SqMat K :=
  ⟨n1 * n2, fun r c => T (r / n2) (r % n2) (c / n2) (c % n2)⟩

/-- A six-dimensional array. -/
abbrev Arr6 (K : Type) := ℕ → ℕ → ℕ → ℕ → ℕ → ℕ → K

/-- bruteforce_lib.py 75-78: `T[:, i, j, :, i, j] = B`. -/
def fillX3 (B : ℕ → ℕ → K) : List (ℕ × ℕ) → Arr6 K → Arr6 K
  | [], T => T
  | (i, j) :: is, T => fillX3 B is fun a b c d e f =>
      if b = i ∧ c = j ∧ e = i ∧ f = j then B a d else T a b c d e f

/-- bruteforce_lib.py 80-83: `T[i, :, j, i, :, j] = B`. -/
def fillY3 (B : ℕ → ℕ → K) : List (ℕ × ℕ) → Arr6 K → Arr6 K
  | [], T => T
  | (i, j) :: is, T => fillY3 B is fun a b c d e f =>
      if a = i ∧ c = j ∧ d = i ∧ f = j then B b e else T a b c d e f

/-- bruteforce_lib.py 85-88: `T[i, j, :, i, j, :] = B`. -/
def fillZ3 (B : ℕ → ℕ → K) : List (ℕ × ℕ) → Arr6 K → Arr6 K
  | [], T => T
  | (i, j) :: is, T => fillZ3 B is fun a b c d e f =>
      if a = i ∧ b = j ∧ d = i ∧ e = j then B c f else T a b c d e f

/-- `T.reshape((n1 n2 n3, n1 n2 n3))` in row-major order. -/
def reshape6 (n1 n2 n3 : ℕ) (T : Arr6 K) : SqMat K :=
  ⟨n1 * n2 * n3, fun r c =>
    T (r / n3 / n2) (r / n3 % n2) (r % n3) (c / n3 / n2) (c / n3 % n2) (c % n3)⟩

/-- The pairs of a double loop. -/
def pairs (n m : ℕ) : List (ℕ × ℕ) := (List.range n).flatMap fun i => (List.range m).map fun j => (i, j)

/-- bruteforce_lib.py 24-100 `B_prod(bases)`.  With no basis, or more than three, the name `B` of
the last line is unbound. -/
def bProd (bases : List (SqMat K)) : Except Err (SqMat K) :=
  match bases with
  | [X] => .ok X
  | [X, Y] =>
    let TX := fillX2 X.val (List.range Y.n) fun _ _ _ _ => 0
    let TY := fillY2 Y.val (List.range X.n) fun _ _ _ _ => 0
    .ok ((reshape4 X.n Y.n TX).mul (reshape4 X.n Y.n TY))
  | [X, Y, Z] =>
    let TX := fillX3 X.val (pairs Y.n Z.n) fun _ _ _ _ _ _ => 0
    let TY := fillY3 Y.val (pairs X.n Z.n) fun _ _ _ _ _ _ => 0
    let TZ := fillZ3 Z.val (pairs X.n Y.n) fun _ _ _ _ _ _ => 0
    .ok (((reshape6 X.n Y.n Z.n TX).mul (reshape6 X.n Y.n Z.n TY)).mul (reshape6 X.n Y.n Z.n TZ))
  | _ => .error .nameError

end Dolo
