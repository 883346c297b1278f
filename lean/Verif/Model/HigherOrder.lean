import Mathlib.Data.Fintype.BigOperators
import Verif.Model.Perturbation
import Verif.Model.Sylvester

/-!
# Perturbation of order one to three

Models `state_perturb` and `perturb` of `dolo/algos/perturbations_higher_order.py`, with `sdot` and `mdot` of
`dolo/numeric/tensor.py`.

A tensor of shape `(a, b, c)` is a function `Fin a → Fin b → Fin c → K`.  The stacked dimension
`N = 2 (n_s + n_x)` of the derivatives of `f` is `(states ⊕ controls) ⊕ (next states ⊕ next controls)`, the
dimension `M = n_s + n_x + n_e` of those of `g` is `(states ⊕ controls) ⊕ shocks`; slices such as
`f2[:, n_v:, n_v:]` are compositions with the injections.  The derivatives are inputs (`get_model_derivatives` is
not modelled), as are `ordqz` and `numpy.linalg.solve`.  Exact arithmetic.
-/

namespace Dolo

open Matrix

/-- Index of the arguments `(s, x, s', x')` of `f`. -/
abbrev ZIdx (ns nx : ℕ) := (Fin ns ⊕ Fin nx) ⊕ (Fin ns ⊕ Fin nx)

/-- Index of the arguments `(s, x, ε)` of `g`. -/
abbrev MIdx (ns nx ne : ℕ) := (Fin ns ⊕ Fin nx) ⊕ Fin ne

/-- `problem.f[1:]`, `problem.g[1:]` and `problem.sigma`, up to third order. -/
structure Problem (ns nx ne : ℕ) (K : Type) where
  f1 : Fin nx → ZIdx ns nx → K
  f2 : Fin nx → ZIdx ns nx → ZIdx ns nx → K
  f3 : Fin nx → ZIdx ns nx → ZIdx ns nx → ZIdx ns nx → K
  g1 : Fin ns → MIdx ns nx ne → K
  g2 : Fin ns → MIdx ns nx ne → MIdx ns nx ne → K
  g3 : Fin ns → MIdx ns nx ne → MIdx ns nx ne → MIdx ns nx ne → K
  sigma : Fin ne → Fin ne → K

section
variable {K : Type} [Field K]

/-- Contraction of a vector: one entry of `sdot(M, C)`, `dolo/numeric/tensor.py:48-55`. -/
def c1 {P : Type} [Fintype P] (T : P → K) (u : P → K) : K := ∑ p, T p * u p

/-- Contraction of the last two dimensions: one entry of `mdot(M, C1, C2)`, `dolo/numeric/tensor.py:43-45`, the
vectors being the columns of `C1` and `C2` selected by the free indices. -/
def c2 {P Q : Type} [Fintype P] [Fintype Q] (T : P → Q → K) (u : P → K) (v : Q → K) : K :=
  ∑ p, ∑ q, T p q * u p * v q

/-- One entry of `mdot(M, C1, C2, C3)`. -/
def c3 {P Q R : Type} [Fintype P] [Fintype Q] [Fintype R] (T : P → Q → R → K) (u : P → K) (v : Q → K)
    (w : R → K) : K :=
  ∑ p, ∑ q, ∑ r, T p q r * u p * v q * w r

/-- An array of length `n` as a function on `ℕ`. -/
def extFin {n : ℕ} {α : Type} [Zero α] (v : Fin n → α) : ℕ → α := fun i => if h : i < n then v ⟨i, h⟩ else 0

/-- A matrix as a function on `ℕ × ℕ`. -/
def ext2 {n m : ℕ} (M : Fin n → Fin m → K) : ℕ → ℕ → K := extFin fun i => extFin (M i)

/-- `solve_sylvester(A, B, C, D)` for `D` of shape `(n_x, n_s)`. -/
def sylvester1 (solve : LinSolver K) {ns nx : ℕ} (A B : Fin nx → Fin nx → K) (C : Fin ns → Fin ns → K)
    (D : Fin nx → Fin ns → K) : Fin nx → Fin ns → K :=
  let X := solveSylvester solve nx ns 1 (ext2 A) (ext2 B) (ext2 C) (ext2 D)
  fun i a => X i a

/-- `solve_sylvester(A, B, C, D)` for `D` of shape `(n_x, n_s, n_s)`: `D.reshape((n_x, n_s**2))`, and the result
reshaped back. -/
def sylvester2 (solve : LinSolver K) {ns nx : ℕ} (A B : Fin nx → Fin nx → K) (C : Fin ns → Fin ns → K)
    (D : Fin nx → Fin ns → Fin ns → K) : Fin nx → Fin ns → Fin ns → K :=
  let DD : ℕ → ℕ → K := fun i k => extFin (fun i => extFin fun a => extFin (D i a)) i (k / ns) (k % ns)
  let X := solveSylvester solve nx ns 2 (ext2 A) (ext2 B) (ext2 C) DD
  fun i a b => X i (a * ns + b)

/-- `solve_sylvester(A, B, C, D)` for `D` of shape `(n_x, n_s, n_s, n_s)`. -/
def sylvester3 (solve : LinSolver K) {ns nx : ℕ} (A B : Fin nx → Fin nx → K) (C : Fin ns → Fin ns → K)
    (D : Fin nx → Fin ns → Fin ns → Fin ns → K) : Fin nx → Fin ns → Fin ns → Fin ns → K :=
  let DD : ℕ → ℕ → K := fun i k =>
    extFin (fun i => extFin fun a => extFin fun b => extFin (D i a b)) i (k / ns / ns) (k / ns % ns) (k % ns)
  let X := solveSylvester solve nx ns 3 (ext2 A) (ext2 B) (ext2 C) DD
  fun i a b c => X i ((a * ns + b) * ns + c)

variable {ns nx ne : ℕ}

namespace Problem
variable (p : Problem ns nx ne K)

/-! Slices, `dolo/algos/perturbations_higher_order.py:151-158`. -/

def f_s (i : Fin nx) (a : Fin ns) : K := p.f1 i (.inl (.inl a))
def f_x (i : Fin nx) (a : Fin nx) : K := p.f1 i (.inl (.inr a))
def f_S (i : Fin nx) (a : Fin ns) : K := p.f1 i (.inr (.inl a))
def f_X (i : Fin nx) (a : Fin nx) : K := p.f1 i (.inr (.inr a))
def g_s (i : Fin ns) (a : Fin ns) : K := p.g1 i (.inl (.inl a))
def g_x (i : Fin ns) (a : Fin nx) : K := p.g1 i (.inl (.inr a))
def g_e (i : Fin ns) (a : Fin ne) : K := p.g1 i (.inr a)

/-! Slices of second and third order, lines 239-241, 258, 277-280 and 305-309. -/

def g_ss (i : Fin ns) (a b : Fin ns) : K := p.g2 i (.inl (.inl a)) (.inl (.inl b))
def g_sx (i : Fin ns) (a : Fin ns) (b : Fin nx) : K := p.g2 i (.inl (.inl a)) (.inl (.inr b))
def g_xx (i : Fin ns) (a b : Fin nx) : K := p.g2 i (.inl (.inr a)) (.inl (.inr b))
def g_ee (i : Fin ns) (a b : Fin ne) : K := p.g2 i (.inr a) (.inr b)
def g_se (i : Fin ns) (a : Fin ns) (b : Fin ne) : K := p.g2 i (.inl (.inl a)) (.inr b)
def g_xe (i : Fin ns) (a : Fin nx) (b : Fin ne) : K := p.g2 i (.inl (.inr a)) (.inr b)
def g_sss (i : Fin ns) (a b c : Fin ns) : K := p.g3 i (.inl (.inl a)) (.inl (.inl b)) (.inl (.inl c))
def g_ssx (i : Fin ns) (a b : Fin ns) (c : Fin nx) : K :=
  p.g3 i (.inl (.inl a)) (.inl (.inl b)) (.inl (.inr c))
def g_sxx (i : Fin ns) (a : Fin ns) (b c : Fin nx) : K :=
  p.g3 i (.inl (.inl a)) (.inl (.inr b)) (.inl (.inr c))
def g_xxx (i : Fin ns) (a b c : Fin nx) : K := p.g3 i (.inl (.inr a)) (.inl (.inr b)) (.inl (.inr c))
def g_see (i : Fin ns) (a : Fin ns) (b c : Fin ne) : K := p.g3 i (.inl (.inl a)) (.inr b) (.inr c)
def g_xee (i : Fin ns) (a : Fin nx) (b c : Fin ne) : K := p.g3 i (.inl (.inr a)) (.inr b) (.inr c)

/-! ### Second order, lines 245-268 -/

variable (X_s : Fin nx → Fin ns → K)

/-- `V1_3 = g_s + dot(g_x, X_s)`, line 245. -/
def V1_3 (i a : Fin ns) : K := p.g_s i a + c1 (p.g_x i) fun x => X_s x a

/-- `V1 = row_stack([eye(n_s), X_s, V1_3, X_s @ V1_3])`, line 246. -/
def V1 : ZIdx ns nx → Fin ns → K
  | .inl (.inl i), a => if i = a then 1 else 0
  | .inl (.inr j), a => X_s j a
  | .inr (.inl i), a => p.V1_3 X_s i a
  | .inr (.inr j), a => c1 (X_s j) fun i => p.V1_3 X_s i a

/-- `K2`, line 248. -/
def K2 (i a b : Fin ns) : K :=
  p.g_ss i a b + 2 * c1 (p.g_sx i a) (fun x => X_s x b) + c2 (p.g_xx i) (fun x => X_s x a) fun x => X_s x b

/-- `f_snext + dot(f_xnext, X_s)`. -/
def fS (i : Fin nx) (a : Fin ns) : K := p.f_S i a + c1 (p.f_X i) fun x => X_s x a

/-- `A = f_x + dot(f_snext + dot(f_xnext, X_s), g_x)`, line 249. -/
def sylA (i a : Fin nx) : K := p.f_x i a + c1 (p.fS X_s i) fun k => p.g_x k a

/-- `D`, line 252. -/
def D2 (i : Fin nx) (a b : Fin ns) : K :=
  c2 (p.f2 i) (fun z => p.V1 X_s z a) (fun z => p.V1 X_s z b) + c1 (p.fS X_s i) fun k => p.K2 X_s k a b

/-- `X_ss = solve_sylvester(A, B, C, D)`, line 254. -/
def Xss (solve : LinSolver K) : Fin nx → Fin ns → Fin ns → K :=
  sylvester2 solve (p.sylA X_s) p.f_X (p.V1_3 X_s) (p.D2 X_s)

/-- `v = row_stack([g_e, dot(X_s, g_e)])`, line 260; also `W_l`, line 311. -/
def W : (Fin ns ⊕ Fin nx) → Fin ne → K
  | .inl i, e => p.g_e i e
  | .inr j, e => c1 (X_s j) fun i => p.g_e i e

/-- `tensordot(T, sigma, axes=(last two, (0, 1)))`, lines 265 and 334-336. -/
def expect (T : Fin ne → Fin ne → K) : K := ∑ e, ∑ e', T e e' * p.sigma e e'

/-- `K_tt`, lines 262-265. -/
def Ktt (X_ss : Fin nx → Fin ns → Fin ns → K) (i : Fin nx) : K :=
  p.expect fun e e' =>
    c2 (fun a b => p.f2 i (.inr a) (.inr b)) (fun a => p.W X_s a e) (fun a => p.W X_s a e')
      + c1 (p.fS X_s i) (fun k => p.g_ee k e e')
      + c2 (fun a b => c1 (p.f_X i) fun x => X_ss x a b) (fun k => p.g_e k e) fun k => p.g_e k e'

/-- `L_tt`, line 267. -/
def Ltt (i a : Fin nx) : K :=
  p.f_x i a + c1 (p.f_S i) (fun k => p.g_x k a)
    + c1 (p.f_X i) fun x => c1 (X_s x) (fun k => p.g_x k a) + if x = a then 1 else 0

/-- `X_tt = solve(L_tt, -K_tt)`, line 268. -/
def Xtt (solve : MatSolver K) (X_ss : Fin nx → Fin ns → Fin ns → K) : Except Err (Fin nx → K) := do
  let X ← solve nx 1 (Matrix.of (p.Ltt X_s)) (Matrix.of fun i _ => - p.Ktt X_s X_ss i)
  pure fun i => X i 0

/-! ### Third order, lines 275-301 -/

variable (X_ss : Fin nx → Fin ns → Fin ns → K)

/-- `V2_3 = K2 + sdot(g_x, X_ss)`, line 282. -/
def V2_3 (i a b : Fin ns) : K := p.K2 X_s i a b + c1 (p.g_x i) fun x => X_ss x a b

/-- `V2`, lines 283-285.  `dot(X_s, V2_3)` is `numpy.dot` of a matrix with an array of three dimensions: it sums
over the *second* dimension of `V2_3`. -/
def V2 : ZIdx ns nx → Fin ns → Fin ns → K
  | .inl (.inl _), _, _ => 0
  | .inl (.inr j), a, b => X_ss j a b
  | .inr (.inl i), a, b => p.V2_3 X_s X_ss i a b
  | .inr (.inr j), a, b => c1 (X_s j) (fun k => p.V2_3 X_s X_ss a k b)
      + c2 (X_ss j) (fun k => p.V1_3 X_s k a) fun k => p.V1_3 X_s k b

/-- `K3`, lines 287-288. -/
def K3 (i a b c : Fin ns) : K :=
  p.g_sss i a b c + 3 * c1 (p.g_ssx i a b) (fun x => X_s x c)
    + 3 * c2 (p.g_sxx i a) (fun x => X_s x b) (fun x => X_s x c)
    + 2 * c1 (p.g_sx i a) (fun x => X_ss x b c)
    + (3 * c2 (p.g_xx i) (fun x => X_ss x a b) (fun x => X_s x c)
      + c3 (p.g_xxx i) (fun x => X_s x a) (fun x => X_s x b) fun x => X_s x c)

/-- `L3 = 3 * mdot(X_ss, V1_3, V2_3)`, line 289. -/
def L3 (j : Fin nx) (a b c : Fin ns) : K :=
  3 * c2 (X_ss j) (fun k => p.V1_3 X_s k a) fun k => p.V2_3 X_s X_ss k b c

/-- `D`, lines 294-299. -/
def D3 (i : Fin nx) (a b c : Fin ns) : K :=
  c3 (p.f3 i) (fun z => p.V1 X_s z a) (fun z => p.V1 X_s z b) (fun z => p.V1 X_s z c)
    + 3 * c2 (p.f2 i) (fun z => p.V2 X_s X_ss z a b) (fun z => p.V1 X_s z c)
    + c1 (p.fS X_s i) (fun k => p.K3 X_s X_ss k a b c)
    + c1 (p.f_X i) fun x => p.L3 X_s X_ss x a b c

/-- `X_sss = solve_sylvester(A, B, C, D)`, line 301. -/
def Xsss (solve : LinSolver K) : Fin nx → Fin ns → Fin ns → Fin ns → K :=
  sylvester3 solve (p.sylA X_s) p.f_X (p.V1_3 X_s) (p.D3 X_s X_ss)

/-! ### Third order, correction for risk, lines 305-350 -/

variable (X_sss : Fin nx → Fin ns → Fin ns → Fin ns → K) (X_tt : Fin nx → K)

/-- `V_sl = g_se + mdot(g_xe, X_s, eye(n_e))`, line 315. -/
def Vsl (i a : Fin ns) (e : Fin ne) : K :=
  p.g_se i a e + c2 (p.g_xe i) (fun x => X_s x a) fun e' => if e' = e then 1 else 0

/-- `W_sl`, line 317. -/
def Wsl : (Fin ns ⊕ Fin nx) → Fin ns → Fin ne → K
  | .inl i, a, e => p.Vsl X_s i a e
  | .inr j, a, e => c2 (X_ss j) (fun k => p.V1_3 X_s k a) (fun k => p.g_e k e)
      + c1 (X_s j) fun k => p.Vsl X_s k a e

/-- `SW_ll`, line 324. -/
def SWll : (Fin ns ⊕ Fin nx) → Fin ne → Fin ne → K
  | .inl i, e, e' => p.g_ee i e e'
  | .inr j, e, e' => c2 (X_ss j) (fun k => p.g_e k e) (fun k => p.g_e k e')
      + c1 (X_s j) fun k => p.g_ee k e e'

/-- `f2[:, :, n_s:]` contracted with `DW_ll`, lines 326 and 332: the vector `DW_ll` extended by zeros for the
`n_s` first entries. -/
def DWll : ZIdx ns nx → K
  | .inl (.inl _) => 0
  | .inl (.inr j) => X_tt j
  | .inr (.inl i) => c1 (p.g_x i) X_tt
  | .inr (.inr j) => c1 (X_s j) (fun k => c1 (p.g_x k) X_tt) + X_tt j

/-- `K_`, lines 319-332. -/
def Kst (i : Fin nx) (a : Fin ns) : K :=
  (p.expect fun e e' =>
    c3 (fun z b c => p.f3 i z (.inr b) (.inr c)) (fun z => p.V1 X_s z a) (fun b => p.W X_s b e)
        (fun b => p.W X_s b e')
      + 2 * c2 (fun b c => p.f2 i (.inr b) (.inr c)) (fun b => p.Wsl X_s X_ss b a e) (fun b => p.W X_s b e')
      + c2 (fun z b => p.f2 i z (.inr b)) (fun z => p.V1 X_s z a) fun b => p.SWll X_s X_ss b e e')
    + c2 (p.f2 i) (fun z => p.V1 X_s z a) (p.DWll X_s X_tt)

/-- `L`, lines 338-340. -/
def Lst (i : Fin ns) (a : Fin ns) : K :=
  c1 (p.g_sx i a) X_tt + c2 (p.g_xx i) (fun x => X_s x a) X_tt
    + p.expect fun e e' => p.g_see i a e e'
      + c3 (p.g_xee i) (fun x => X_s x a) (fun d => if d = e then 1 else 0) fun d => if d = e' then 1 else 0

/-- `M`, lines 342-343. -/
def Mst (j : Fin nx) (a : Fin ns) : K :=
  (p.expect fun e e' =>
    c3 (X_sss j) (fun k => p.V1_3 X_s k a) (fun k => p.g_e k e) (fun k => p.g_e k e')
      + 2 * c2 (X_ss j) (fun k => p.Vsl X_s k a e) fun k => p.g_e k e')
    + c2 (X_ss j) (fun k => p.V1_3 X_s k a) fun k => p.expect (p.g_ee k) + c1 (p.g_x k) X_tt

/-- `D`, line 348. -/
def Dst (i : Fin nx) (a : Fin ns) : K :=
  p.Kst X_s X_ss X_tt i a + c1 (p.fS X_s i) (fun k => p.Lst X_s X_tt k a)
    + c1 (p.f_X i) fun x => p.Mst X_s X_ss X_sss X_tt x a

/-- `X_stt = solve_sylvester(A, B, C, D)`, line 350. -/
def Xstt (solve : LinSolver K) : Fin nx → Fin ns → K :=
  sylvester1 solve (p.sylA X_s) p.f_X (p.V1_3 X_s) (p.Dst X_s X_ss X_sss X_tt)

end Problem

/-- What `state_perturb` returns, by order of approximation (beyond three it returns `None`). -/
inductive PertSol (ns nx : ℕ) (K : Type) where
  | first (X_s : Fin nx → Fin ns → K)
  | second (X_s : Fin nx → Fin ns → K) (X_ss : Fin nx → Fin ns → Fin ns → K) (X_tt : Fin nx → K)
  | third (X_s : Fin nx → Fin ns → K) (X_ss : Fin nx → Fin ns → Fin ns → K)
      (X_sss : Fin nx → Fin ns → Fin ns → Fin ns → K) (X_tt : Fin nx → K) (X_stt : Fin nx → Fin ns → K)
  | noResult

/-- Lines 229-357, after the first-order solution `X_s` was found. -/
def higherOrders (solve : MatSolver K) (lsolve : LinSolver K) (p : Problem ns nx ne K) (order : ℕ)
    (X_s : Fin nx → Fin ns → K) : Except Err (PertSol ns nx K) :=
  if order = 1 then .ok (.first X_s) else do
    let X_ss := p.Xss X_s lsolve
    let X_tt ← p.Xtt X_s solve X_ss
    if order = 2 then pure (.second X_s X_ss X_tt) else
    let X_sss := p.Xsss X_s X_ss lsolve
    let X_stt := p.Xstt X_s X_ss X_sss X_tt lsolve
    if order = 3 then pure (.third X_s X_ss X_sss X_tt X_stt) else pure .noResult

end

section
variable {K : Type} [Field K] [LinearOrder K] {ns nx ne : ℕ}

/-- Lines 212-221: the rule from the ordered decomposition, and `P`, whose computation may fail although it is
not used. -/
def ruleFromQZ2 (solve : MatSolver K) (d : QZ (Fin ns ⊕ Fin nx) K) :
    Except Err (Matrix (Fin nx) (Fin ns) K) := do
  let C ← ruleFromQZ solve d
  let _ ← solve ns ns d.S.toBlocks₁₁ᵀ d.Z.toBlocks₁₁ᵀ
  let _ ← solve ns ns d.Z.toBlocks₁₁ᵀ d.T.toBlocks₁₁ᵀ
  pure C

/-- Lines 168-221, given the decomposition `d` for the criterion `1 - 1e-8` and `qz` for any other.  Neither
`GeneralizedEigenvaluesError` nor `GeneralizedEigenvaluesSelectionError` is defined or imported in the module.
The boolean records whether a warning was issued. -/
def selectRule2 (solve : MatSolver K) (d : QZ (Fin ns ⊕ Fin nx) K) (qz : K → QZ (Fin ns ⊕ Fin nx) K)
    (cut : WithTop K → WithTop K → K) : Except Err (Matrix (Fin nx) (Fin ns) K × Bool) := do
  if !diagOk d then throw .nameError
  if ← bkTest d then
    let C ← ruleFromQZ2 solve d
    pure (C, false)
  else
    let eigval_s := (eigList d).mergeSort (fun a b => decide (b ≤ a))
    let ev_a ← pyGet eigval_s (ns - 1)
    let ev_b ← pyGet eigval_s ns
    if !decide (ev_b < ev_a) then throw .nameError
    let C ← ruleFromQZ2 solve (qz (cut ev_a ev_b))
    pure (C, true)

/-- `state_perturb(problem)`, `dolo/algos/perturbations_higher_order.py:105-357`, with the warning flag.  An
order-zero problem fails on line 142. -/
def statePerturb (solve : MatSolver K) (lsolve : LinSolver K)
    (qz : Matrix (Fin ns ⊕ Fin nx) (Fin ns ⊕ Fin nx) K → Matrix (Fin ns ⊕ Fin nx) (Fin ns ⊕ Fin nx) K → K →
      QZ (Fin ns ⊕ Fin nx) K)
    (cut : WithTop K → WithTop K → K) (p : Problem ns nx ne K) (order : ℕ) :
    Except Err (PertSol ns nx K × Bool) :=
  if order = 0 then .error .valueError else do
    let A := pencilA (Matrix.of p.f_S) (Matrix.of p.f_X)
    let B := pencilB (Matrix.of p.g_s) (Matrix.of p.g_x) (Matrix.of p.f_s) (Matrix.of p.f_x)
    let (C, w) ← selectRule2 solve (qz A B (1 - 1 / 10 ^ 8)) (qz A B) cut
    let r ← higherOrders solve lsolve p order C
    pure (r, w)

end

end Dolo
