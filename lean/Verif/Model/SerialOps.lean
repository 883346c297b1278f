import Mathlib.Algebra.BigOperators.Group.Finset.Basic
import Mathlib.Algebra.Order.Field.Basic
import Verif.Model.NumDiff
import Verif.Model.SparseTensor

/-!
# Point-by-point linear algebra and the stacked Jacobian

`dolo/numeric/serial_operations.py` 119-168, `dolo/algos/bruteforce_lib.py` 103-112, 183-190 and
302-509 (`SmartJacobian`); `dolo/algos/invert.py` 241-258 has the same `serial_solve` and `mult_AB`.

Arrays are given by shape and entries, arithmetic is exact, `numpy.linalg.solve` is a parameter.
-/

namespace Dolo

variable {K : Type} [Field K]

/-! ## serial_multiplication -/

/-- An argument of `serial_multiplication`: an array with two or three dimensions. -/
inductive SerialArg (K : Type)
  | two (a : Arr2 K)
  | three (a : Arr3 K)

/-- serial_operations.py 163-165: `v = 0; for j in range(J): v += A[n, i, j] * B[n, j, k]`. -/
def dotLoop (a b : ℕ → K) : List ℕ → K → K
  | [], v => v
  | j :: js, v => dotLoop a b js (v + a j * b j)

/-- serial_operations.py 144-168 `serial_multiplication(A, B)`.  A mix of two and three dimensions reads
`shape[2]` of an array that has none. -/
def serialMultiplication : SerialArg K → SerialArg K → Except Err (SerialArg K)
  | .two A, .two B =>
    if A.m = B.n then
      .ok (.two ⟨A.n, B.m, fun i k => dotLoop (fun j => A.val i j) (fun j => B.val j k) (List.range A.m) 0⟩)
    else .error .valueError
  | .three A, .three B =>
    if B.m ≠ A.l then .error .assertionError
    else if B.n ≠ A.n then .error .assertionError
    else .ok (.three ⟨A.n, A.m, B.l, fun n i k =>
      dotLoop (fun j => A.val n i j) (fun j => B.val n j k) (List.range A.l) 0⟩)
  | _, _ => .error .indexError

/-! ## serial_solve -/

/-- `numpy.linalg.solve(A, b)` for an `n × n` matrix. -/
abbrev VecSolver (K : Type) := ℕ → (ℕ → ℕ → K) → (ℕ → K) → Except Err (ℕ → K)

/-- What `serial_solve(A, B)` raises: the exception of line 130 with its attributes `i`, `x` and `J`, or the
`IndexError` of line 132 if `A` has fewer points than `B`. -/
inductive SolveErr (K : Type)
  | point (i : ℕ) (x : ℕ → K) (J : ℕ → ℕ → K)
  | index

/-- serial_operations.py 125-134: the loop from point `i`; `A` has the remaining points. -/
def serialSolveLoop (solve : VecSolver K) (n : ℕ) :
    ℕ → List (ℕ → ℕ → K) → List (ℕ → K) → Except (SolveErr K) (List (ℕ → K))
  | _, _, [] => .ok []
  | _, [], _ :: _ => .error .index
  | i, J :: As, x :: Bs =>
    match solve n J x with
    | .error _ => .error (.point i x J)
    | .ok s => match serialSolveLoop solve n (i + 1) As Bs with
      | .error e => .error e
      | .ok rest => .ok (s :: rest)

/-- serial_operations.py 119-134 and 141 `serial_solve(A, B)`, for points with `n` equations. -/
def serialSolveDiagnose (solve : VecSolver K) (n : ℕ) (A : List (ℕ → ℕ → K)) (B : List (ℕ → K)) :
    Except (SolveErr K) (List (ℕ → K)) := serialSolveLoop solve n 0 A B

/-! ## mult_AB -/

/-- bruteforce_lib.py 183-190 `serial_solve(A, B)` for `N` points with `n` equations: the errors of
`numpy.linalg.solve` are passed on. -/
def serialSolvePlain (solve : VecSolver K) (n N : ℕ) (A : ℕ → ℕ → ℕ → K) (B : ℕ → ℕ → K) :
    Except Err (List (ℕ → K)) := (List.range N).mapM fun p => solve n (A p) (B p)

/-- A five-dimensional array. -/
abbrev Arr5 (K : Type) := ℕ → ℕ → ℕ → ℕ → ℕ → K

/-- bruteforce_lib.py 108-111: `out[i, :, :, j, v] = serial_solve(dres[i], jres[i, :, :, j, v])` for the
`(i, j, v)` of the list. -/
def multABLoop (solve : VecSolver K) (N nx : ℕ) (dres : ℕ → ℕ → ℕ → ℕ → K) (jres : Arr5 K) :
    List (ℕ × ℕ × ℕ) → Arr5 K → Except Err (Arr5 K)
  | [], out => .ok out
  | (i, j, v) :: rest, out =>
    (serialSolvePlain solve nx N (dres i) fun p k => jres i p k j v) >>= fun s =>
      multABLoop solve N nx dres jres rest fun a p k b w =>
        if a = i ∧ b = j ∧ w = v then (s.getD p fun _ => 0) k else out a p k b w

/-- The triples of the three loops. -/
def triples (n m l : ℕ) : List (ℕ × ℕ × ℕ) :=
  (List.range n).flatMap fun i => (List.range m).flatMap fun j => (List.range l).map fun v => (i, j, v)

/-- bruteforce_lib.py 103-112 `mult_AB(dres, jres)`; `jshape` is the shape of `jres`. -/
def multAB (solve : VecSolver K) (nm N nx : ℕ) (dres : ℕ → ℕ → ℕ → ℕ → K) (jshape : List ℕ)
    (jres : Arr5 K) : Except Err (Arr5 K) :=
  if jshape ≠ [nm, N, nx, nm, nx] then .error .assertionError
  else multABLoop solve N nx dres jres (triples nm nm nx) jres

/-! ## SmartJacobian -/

/-- bruteforce_lib.py 354-356: `JJRes[:, n, :, :, n, :] = jres[:, n]` for the `n` of the list. -/
def j2ALoop (jres : Arr5 K) : List ℕ → Arr6 K → Arr6 K
  | [], T => T
  | n :: ns, T => j2ALoop jres ns fun a b c a' b' c' =>
      if b = n ∧ b' = n then jres a n c a' c' else T a b c a' b' c'

/-- bruteforce_lib.py 345-358 `j2_A`. -/
def j2A (nm N nx : ℕ) (jres : Arr5 K) : DenseMat K :=
  let T := j2ALoop jres (List.range N) fun _ _ _ _ _ _ => 0
  ⟨nm * N * nx, nm * N * nx, fun r c =>
    T (r / nx / N) (r / nx % N) (r % nx) (c / nx / N) (c / nx % N) (c % nx)⟩

/-- bruteforce_lib.py 420-423: `XX[:, y, :, y] = X`. -/
def fillXX (X : ℕ → ℕ → K) : List ℕ → (ℕ → ℕ → ℕ → ℕ → K) → (ℕ → ℕ → ℕ → ℕ → K)
  | [], T => T
  | y :: ys, T => fillXX X ys fun n k q m => if k = y ∧ m = y then X n q else T n k q m

/-- bruteforce_lib.py 425-427: `ff_m[n, :, n, :] = ff[n]`. -/
def fillFF (ff : ℕ → ℕ → ℕ → K) : List ℕ → (ℕ → ℕ → ℕ → ℕ → K) → (ℕ → ℕ → ℕ → ℕ → K)
  | [], T => T
  | p :: ps, T => fillFF ff ps fun n k q m => if n = p ∧ q = p then ff p k m else T n k q m

/-- bruteforce_lib.py 408-429: the block `m` of the pair `(i, j)` as an array of shape `(N, n_x, N, n_x)`;
`X` has the weights of line 419. -/
def jac2Block (N nx : ℕ) (X : ℕ → ℕ → K) (ff : ℕ → ℕ → ℕ → K) : ℕ → ℕ → ℕ → ℕ → K :=
  let XX := reshape4 N nx (fillXX X (List.range nx) fun _ _ _ _ => 0)
  let FF := reshape4 N nx (fillFF ff (List.range N) fun _ _ _ _ => 0)
  let m := FF.mul XX
  fun n k q y => m.val (n * nx + k) (q * nx + y)

/-- Whether the names `UniformSplineBasis` and `TensorBase`, whose imports (lines 293-294) are commented
out, are defined. -/
abbrev SplineNames := Bool

/-- bruteforce_lib.py 384-436 `jac_2`.  `get_filter` (319-330) reads `UniformSplineBasis`.  With the names
defined, `W i j n q` are the weights of lines 408-419: of the value at the grid point `q` in the interpolated
value at `fut_S[i, n, j]`.  Entries below `1e-6` are set to zero (432). -/
def jac2 [LinearOrder K] (names : SplineNames) (nm N nx : ℕ) (W : ℕ → ℕ → ℕ → ℕ → K) (jres : Arr5 K) :
    Except Err (DenseMat K) :=
  if names then
    .ok ⟨nm * N * nx, nm * N * nx, fun r c =>
      let i := r / nx / N
      let j := c / nx / N
      let v := jac2Block N nx (W i j) (fun n k m => jres i n k j m) (r / nx % N) (r % nx) (c / nx % N) (c % nx)
      if |v| < 1 / 10 ^ 6 then 0 else v⟩
  else .error .nameError

/-- bruteforce_lib.py 360-378 `j2_B` reads `tb` and `B` as soon as its loops are entered. -/
def j2B (nm N nx : ℕ) : Except Err (DenseMat K) :=
  if nx = 0 ∨ nm = 0 then .ok ⟨nm * N * nx, nm * N * nx, fun _ _ => 0⟩ else .error .nameError

/-- bruteforce_lib.py 443-445 `jac`. -/
def smartJac [LinearOrder K] (names : SplineNames) (nm N nx : ℕ) (dres : ℕ → ℕ → ℕ → ℕ → K)
    (W : ℕ → ℕ → ℕ → ℕ → K) (jres : Arr5 K) : Except Err (DenseMat K) :=
  (jac2 names nm N nx W jres) >>= fun J2 =>
    let J1 := jac1 nm N nx dres
    .ok ⟨J1.rows, J1.cols, fun r c => J1.val r c + J2.val r c⟩

/-- bruteforce_lib.py 447-458 `solve(rr)`, `solve_sp(rr)`: `rr` flattened in row-major order. -/
def smartSolve [LinearOrder K] (solve : VecSolver K) (names : SplineNames) (nm N nx : ℕ)
    (dres : ℕ → ℕ → ℕ → ℕ → K) (W : ℕ → ℕ → ℕ → ℕ → K) (jres : Arr5 K) (rr : ℕ → ℕ → ℕ → K) :
    Except Err (ℕ → ℕ → ℕ → K) :=
  (smartJac names nm N nx dres W jres) >>= fun J =>
    (solve J.rows J.val fun r => rr (r / nx / N) (r / nx % N) (r % nx)) >>= fun x =>
      .ok fun i n k => x ((i * N + n) * nx + k)

/-- bruteforce_lib.py 462-487 `solve_smart(rr)`: `invert_jac` is a function of
`improved_time_iteration.py`, which imports this module; here the name is not defined. -/
def solveSmart (_rr : ℕ → ℕ → ℕ → K) : Except Err (ℕ → ℕ → ℕ → K) := .error .nameError

end Dolo
