import Mathlib.Data.Matrix.Block
import Mathlib.Data.Matrix.ColumnRowPartitioned
import Mathlib.Algebra.Order.Monoid.Unbundled.WithTop
import Mathlib.Logic.Equiv.Fin.Basic
import Mathlib.Data.List.OfFn
import Mathlib.Data.List.Sort
import Mathlib.Algebra.Order.Field.Basic
import Mathlib.Order.WithBot
import Verif.Model.Err

/-!
# First-order perturbation

Models `dolo/algos/perturbation.py` and `qzordered` of `dolo/numeric/extern/qz.py`.

Matrices are Mathlib matrices; stacking is `fromBlocks`, so that the rows `0, ..., n_s-1` are the indices
`inl i` and the following ones the indices `inr j`, and slices such as `Z[:n_s, :n_s]` are `toBlocks₁₁`.
`scipy.linalg.ordqz` and `numpy.linalg.solve` are parameters.  Arithmetic is exact.  A generalised eigenvalue
`|S_ii / T_ii|` with `T_ii = 0` is infinite (`⊤`), as in numpy.  The derivatives of the model functions at the
steady state are inputs.
-/

namespace Dolo

open Matrix

variable {K : Type} [Field K] [LinearOrder K]

/-- The matrices `S, T, Q, Z` returned by `ordqz`. -/
structure QZ (I K : Type) where
  S : Matrix I I K
  T : Matrix I I K
  Q : Matrix I I K
  Z : Matrix I I K

/-- `numpy.linalg.solve(M, R)` for matrices. -/
abbrev MatSolver (K : Type) :=
  ∀ n m : ℕ, Matrix (Fin n) (Fin n) K → Matrix (Fin n) (Fin m) K → Except Err (Matrix (Fin n) (Fin m) K)

/-- `abs(numpy.diag(S) / numpy.diag(T))`, `dolo/numeric/extern/qz.py:18`. -/
def genEig {I : Type} (d : QZ I K) (i : I) : WithTop K :=
  if d.T i i = 0 then ⊤ else ((|d.S i i / d.T i i| : K) : WithTop K)

/-- Python's `max` of a list. -/
def pyMax {α : Type} [LinearOrder α] : List α → Except Err α
  | [] => .error .valueError
  | a :: l => .ok (l.foldl max a)

/-- Python's `min` of a list. -/
def pyMin {α : Type} [LinearOrder α] : List α → Except Err α
  | [] => .error .valueError
  | a :: l => .ok (l.foldl min a)

/-- The eigenvalues as an array, states first. -/
def eigList {ns nx : ℕ} (d : QZ (Fin ns ⊕ Fin nx) K) : List (WithTop K) :=
  List.ofFn (fun i => genEig d (.inl i)) ++ List.ofFn (fun j => genEig d (.inr j))

/-- `ok = sum((abs(diag_S) < tol) * (abs(diag_T) < tol)) == 0`, `dolo/algos/perturbation.py:139-143`. -/
def diagOk {ns nx : ℕ} (d : QZ (Fin ns ⊕ Fin nx) K) : Bool :=
  let tol : K := 1 / 10 ^ 10
  let bad := fun i => decide (|d.S i i| < tol) && decide (|d.T i i| < tol)
  (List.ofFn (fun i => bad (.inl i)) ++ List.ofFn (fun j => bad (.inr j))).all (!·)

/-- `max(eigval[:n_s]) >= 1 and min(eigval[n_s:]) < 1`, `dolo/algos/perturbation.py:148`. -/
def bkTest {ns nx : ℕ} (d : QZ (Fin ns ⊕ Fin nx) K) : Except Err Bool := do
  let a ← pyMax ((eigList d).take ns)
  if 1 ≤ a then
    let b ← pyMin ((eigList d).drop ns)
    pure (decide (b < 1))
  else pure false

/-- What `approximate_1st_order` returns, and the warning it may have issued. -/
structure FirstOrder (ns nx : ℕ) (K : Type) where
  C : Matrix (Fin nx) (Fin ns) K
  eigvals : List (WithTop K)
  warned : Bool

/-- The first matrix of the pencil, lines 126-128. -/
def pencilA {ns nx : ℕ} (f_S : Matrix (Fin nx) (Fin ns) K) (f_X : Matrix (Fin nx) (Fin nx) K) :
    Matrix (Fin ns ⊕ Fin nx) (Fin ns ⊕ Fin nx) K := fromBlocks 1 0 (-f_S) (-f_X)

/-- The second matrix of the pencil, line 130. -/
def pencilB {ns nx : ℕ} (g_s : Matrix (Fin ns) (Fin ns) K) (g_x : Matrix (Fin ns) (Fin nx) K)
    (f_s : Matrix (Fin nx) (Fin ns) K) (f_x : Matrix (Fin nx) (Fin nx) K) :
    Matrix (Fin ns ⊕ Fin nx) (Fin ns ⊕ Fin nx) K := fromBlocks g_s g_x f_s f_x

/-- Lines 175-184: the decision rule from the ordered decomposition. -/
def ruleFromQZ (solve : MatSolver K) {ns nx : ℕ} (d : QZ (Fin ns ⊕ Fin nx) K) :
    Except Err (Matrix (Fin nx) (Fin ns) K) := do
  let Z11 := d.Z.toBlocks₁₁
  let Z21 := d.Z.toBlocks₂₁
  let X ← solve ns nx Z11ᵀ Z21ᵀ
  pure Xᵀ

/-- Lines 134-189, given the decomposition `d` for the first criterion and `qz` for any other.  Neither
`GeneralizedEigenvaluesError` nor `GeneralizedEigenvaluesSelectionError` is defined or imported in the module,
so raising them is a `NameError`. -/
def selectRule (solve : MatSolver K) {ns nx : ℕ} (d : QZ (Fin ns ⊕ Fin nx) K)
    (qz : K → QZ (Fin ns ⊕ Fin nx) K) (cut : WithTop K → WithTop K → K) :
    Except Err (FirstOrder ns nx K) := do
  if !diagOk d then throw .nameError
  let eigval_s := (eigList d).mergeSort (fun a b => decide (a ≤ b))
  if ← bkTest d then
    let C ← ruleFromQZ solve d
    pure ⟨C, eigval_s, false⟩
  else
    let ev_a ← pyGet eigval_s (ns - 1)
    let ev_b ← pyGet eigval_s ns
    if !decide (ev_b < ev_a) then throw .nameError
    -- `cutoff = (ev_a - ev_b) / 2`
    let d' := qz (cut ev_a ev_b)
    let C ← ruleFromQZ solve d'
    pure ⟨C, eigval_s, true⟩

/-- `approximate_1st_order(g_s, g_x, g_e, f_s, f_x, f_S, f_X)`, `dolo/algos/perturbation.py:119-189`.
`qz A B crit` is `ordqz(A, B, sort=lambda a, b: a**2 > crit * b**2)`. -/
def approximate1stOrder (solve : MatSolver K) {ns nx : ℕ}
    (qz : Matrix (Fin ns ⊕ Fin nx) (Fin ns ⊕ Fin nx) K → Matrix (Fin ns ⊕ Fin nx) (Fin ns ⊕ Fin nx) K → K →
      QZ (Fin ns ⊕ Fin nx) K)
    (cut : WithTop K → WithTop K → K)
    (g_s : Matrix (Fin ns) (Fin ns) K) (g_x : Matrix (Fin ns) (Fin nx) K)
    (f_s : Matrix (Fin nx) (Fin ns) K) (f_x : Matrix (Fin nx) (Fin nx) K)
    (f_S : Matrix (Fin nx) (Fin ns) K) (f_X : Matrix (Fin nx) (Fin nx) K) :
    Except Err (FirstOrder ns nx K) :=
  let A := pencilA f_S f_X
  let B := pencilB g_s g_x f_s f_x
  selectRule solve (qz A B (1 - 1 / 10 ^ 8)) (qz A B) cut

/-! ### Derivatives of the model and the rule returned -/

/-- The exogenous process of the model, as far as `get_derivatives` looks at it: a `VAR1` with the value of its
attribute `rho` (`none` if it has no such attribute), an `IIDProcess`, or another class. -/
inductive ExoProc (nm : ℕ) (K : Type) where
  | var1 (rho : Option (Matrix (Fin nm) (Fin nm) K))
  | iid
  | other

/-- `VAR1(ρ, Σ, μ)`, `dolo/numeric/processes.py:502-521`: the attributes assigned are `Σ, ρ, μ, d`; there is no
attribute `rho`. -/
def ExoProc.newVAR1 {nm : ℕ} (_ρ : Matrix (Fin nm) (Fin nm) K) : ExoProc nm K := .var1 none

/-- First derivatives of `arbitrage` and `transition` at the steady state. -/
structure Derivs (nm ns nx : ℕ) (K : Type) where
  f_m : Matrix (Fin nx) (Fin nm) K
  f_s : Matrix (Fin nx) (Fin ns) K
  f_x : Matrix (Fin nx) (Fin nx) K
  f_M : Matrix (Fin nx) (Fin nm) K
  f_S : Matrix (Fin nx) (Fin ns) K
  f_X : Matrix (Fin nx) (Fin nx) K
  g_m : Matrix (Fin ns) (Fin nm) K
  g_s : Matrix (Fin ns) (Fin ns) K
  g_x : Matrix (Fin ns) (Fin nx) K
  g_M : Matrix (Fin ns) (Fin nm) K

/-- Rows (or columns) indexed by exogenous variables, then states, renumbered `0, ..., nm+ns-1`. -/
def catIdx (nm ns : ℕ) : Fin (nm + ns) ≃ Fin nm ⊕ Fin ns := finSumFinEquiv.symm

/-- `G_s, G_x, F_s, F_x, F_S, F_X` of `get_derivatives` for a `VAR1`, `dolo/algos/perturbation.py:32-46`; `A` is
`process.rho`.  (`G_e` is not used afterwards.) -/
def Derivs.extend {nm ns nx : ℕ} (d : Derivs nm ns nx K) (A : Matrix (Fin nm) (Fin nm) K) :
    Derivs 0 (nm + ns) nx K where
  f_m := 0
  f_M := 0
  g_m := 0
  g_M := 0
  g_s := (fromBlocks A 0 (d.g_m + d.g_M * A) d.g_s).submatrix (catIdx nm ns) (catIdx nm ns)
  g_x := (fromRows 0 d.g_x).submatrix (catIdx nm ns) id
  f_s := (fromCols d.f_m d.f_s).submatrix id (catIdx nm ns)
  f_S := (fromCols d.f_M d.f_S).submatrix id (catIdx nm ns)
  f_x := d.f_x
  f_X := d.f_X

/-- `BivariateTaylor(m_bar, s_bar, x_bar, C_m, C_s)`, `dolo/algos/perturbation.py:65-78`. -/
structure BiTaylor (nm ns nx : ℕ) (K : Type) where
  m_bar : Fin nm → K
  s_bar : Fin ns → K
  x_bar : Fin nx → K
  C_m : Option (Matrix (Fin nx) (Fin nm) K)
  C_s : Matrix (Fin nx) (Fin ns) K

/-- `perturb(model, details=False)`, `dolo/algos/perturbation.py:196-264` for `order = 1`; `m s x` is the steady
state and `dv` the derivatives there.  `qz` is given for every number of states. -/
def perturb1 (solve : MatSolver K)
    (qz : ∀ ns nx : ℕ, Matrix (Fin ns ⊕ Fin nx) (Fin ns ⊕ Fin nx) K →
      Matrix (Fin ns ⊕ Fin nx) (Fin ns ⊕ Fin nx) K → K → QZ (Fin ns ⊕ Fin nx) K)
    (cut : WithTop K → WithTop K → K) {nm ns nx : ℕ} (process : ExoProc nm K) (dv : Derivs nm ns nx K)
    (m : Fin nm → K) (s : Fin ns → K) (x : Fin nx → K) : Except Err (BiTaylor nm ns nx K) :=
  match process with
  | .var1 none => .error .attributeError
  | .var1 (some A) => do
    let e := dv.extend A
    let r ← approximate1stOrder solve (qz (nm + ns) nx) cut e.g_s e.g_x e.f_s e.f_x e.f_S e.f_X
    -- `C[:, :len(m)]`, `C[:, len(m):]`
    pure ⟨m, s, x, some (r.C.submatrix id fun i => (catIdx nm ns).symm (.inl i)),
      r.C.submatrix id fun i => (catIdx nm ns).symm (.inr i)⟩
  | .iid => do
    let r ← approximate1stOrder solve (qz ns nx) cut dv.g_s dv.g_x dv.f_s dv.f_x dv.f_S dv.f_X
    pure ⟨m, s, x, none, r.C⟩
  | .other => .error (.exception "Not implemented: perturbation for shock")

/-- An argument of a decision rule: `None`, a vector, or an array of row vectors. -/
inductive Arg (n : ℕ) (K : Type) where
  | none
  | vec (v : Fin n → K)
  | rows (l : List (Fin n → K))

/-- Addition of two arrays of rows with numpy's broadcasting. -/
def bcastAdd {n : ℕ} (a b : List (Fin n → K)) : Except Err (List (Fin n → K)) :=
  if a.length = b.length then .ok (List.zipWith (· + ·) a b)
  else match a, b with
    | [r], b => .ok (b.map (r + ·))
    | a, [r] => .ok (a.map (· + r))
    | _, _ => .error .valueError

/-- Lines 101-109, `m` and `s` being arrays of rows (`m = None` is `none`). -/
def BiTaylor.evalRows {nm ns nx : ℕ} (t : BiTaylor nm ns nx K) (m : Option (List (Fin nm → K)))
    (s : List (Fin ns → K)) : Except Err (List (Fin nx → K)) :=
  match t.C_m with
  | some C_m =>
    match m with
    | some m =>
      let dm := m.map fun r => r - t.m_bar
      let ds := s.map fun r => r - t.s_bar
      -- `x_bar[None, :] + dm @ C_m.T + ds @ C_s.T`
      bcastAdd (dm.map fun r => t.x_bar + vecMul r C_mᵀ) (ds.map fun r => vecMul r t.C_sᵀ)
    | none => .error .typeError
  | none =>
    let ds := s.map fun r => r - t.s_bar
    .ok (ds.map fun r => t.x_bar + vecMul r t.C_sᵀ)

/-- `[0, :]` of an array of rows. -/
def firstRow {n : ℕ} (l : List (Fin n → K)) : Except Err (Arg n K) := do
  let r ← pyGet l 0
  pure (.vec r)

/-- `BivariateTaylor.eval_ms(m, s)`, lines 87-109.  (`s = None` is not modelled beyond the `TypeError`.) -/
def BiTaylor.evalMS {nm ns nx : ℕ} (t : BiTaylor nm ns nx K) (m : Arg nm K) (s : Arg ns K) :
    Except Err (Arg nx K) :=
  match m, s with
  | .vec m, .vec s =>
    match t.C_m with
    | some _ => do firstRow (← t.evalRows (some [m]) [s])
    | none => do firstRow (← t.evalRows none [s])
  | .vec m, .rows s => do pure (.rows (← t.evalRows (some [m]) s))
  | .rows m, .vec s => do pure (.rows (← t.evalRows (some m) [s]))
  | .none, .vec s => do pure (.rows (← t.evalRows none [s]))
  | .rows m, .rows s => do pure (.rows (← t.evalRows (some m) s))
  | .none, .rows s => do pure (.rows (← t.evalRows none s))
  | _, .none => .error .typeError

/-- `BivariateTaylor.eval_s(s)`, lines 80-85. -/
def BiTaylor.evalS {nm ns nx : ℕ} (t : BiTaylor nm ns nx K) (s : Arg ns K) : Except Err (Arg nx K) :=
  match s with
  | .vec s => do
    match ← t.evalMS .none (.rows [s]) with
    | .rows l => firstRow l
    | _ => .error .indexError
  | s => t.evalMS .none s

end Dolo
