import Mathlib.RingTheory.PowerSeries.Basic
import Mathlib.Tactic.LinearCombination
import Mathlib.Tactic.IntervalCases
import Verif.Lemmas.HigherOrder
import Verif.Props.Perturbation

/-!
# C36: perturbation of order two and three

A function vanishing at the steady state is looked at through its effect on formal curves: a map `F` sends a
vector of power series `z` without constant term (a curve through the steady state) to `F z`.  `Taylor2 F f1 f2`
says that `f1` and `f2` are its first and second derivatives: `F z` agrees with the Taylor polynomial up to terms
of order three, along every curve.  This covers all polynomial and all analytic functions.
-/

set_option linter.unusedSectionVars false

namespace Dolo

open PowerSeries

variable {K : Type} [Field K]

/-! ### Specification -/

section spec
variable {I J : Type} [Fintype J]

/-- `f1`, `f2` are the first two derivatives of `F` at the steady state. -/
def Taylor2 (F : (J → K⟦X⟧) → I → K⟦X⟧) (f1 : I → J → K) (f2 : I → J → J → K) : Prop :=
  ∀ z : J → K⟦X⟧, (∀ j, X ∣ z j) → ∀ i,
    X ^ 3 ∣ F z i - (∑ j, C (f1 i j) * z j + C (1 / 2) * ∑ j, ∑ l, C (f2 i j l) * (z j * z l))

/-- `f1`, `f2`, `f3` are the first three derivatives of `F` at the steady state. -/
def Taylor3 (F : (J → K⟦X⟧) → I → K⟦X⟧) (f1 : I → J → K) (f2 : I → J → J → K) (f3 : I → J → J → J → K) :
    Prop :=
  ∀ z : J → K⟦X⟧, (∀ j, X ∣ z j) → ∀ i,
    X ^ 4 ∣ F z i - (∑ j, C (f1 i j) * z j + C (1 / 2) * ∑ j, ∑ l, C (f2 i j l) * (z j * z l)
      + C (1 / 6) * ∑ j, ∑ l, ∑ m, C (f3 i j l m) * (z j * z l * z m))

variable {ns nx ne : ℕ}

/-- The residual of `f(s, x, s', x')` where `x = φ(s, λ)`, `s' = g(s, x, ε)`, `x' = φ(s', λ)`. -/
def pathResidual (F : (ZIdx ns nx → K⟦X⟧) → Fin nx → K⟦X⟧) (G : (MIdx ns nx ne → K⟦X⟧) → Fin ns → K⟦X⟧)
    (φ : (Fin ns ⊕ Unit → K⟦X⟧) → Fin nx → K⟦X⟧) (s : Fin ns → K⟦X⟧) (lam : K⟦X⟧) (ε : Fin ne → K⟦X⟧) :
    Fin nx → K⟦X⟧ :=
  let x := φ (Sum.elim s fun _ => lam)
  let s' := G (Sum.elim (Sum.elim s x) ε)
  let x' := φ (Sum.elim s' fun _ => lam)
  F (Sum.elim (Sum.elim s x) (Sum.elim s' x'))

/-- First derivatives of a rule `φ(s, λ)`. -/
def ruleD1 (X_s : Fin nx → Fin ns → K) : Fin nx → (Fin ns ⊕ Unit) → K
  | i, .inl a => X_s i a
  | _, .inr _ => 0

/-- Second derivatives of a rule `φ(s, λ)`: `X_ss` in the states, `X_tt` in the scale of risk `λ`. -/
def ruleD2 (X_ss : Fin nx → Fin ns → Fin ns → K) (X_tt : Fin nx → K) :
    Fin nx → (Fin ns ⊕ Unit) → (Fin ns ⊕ Unit) → K
  | i, .inl a, .inl b => X_ss i a b
  | i, .inr _, .inr _ => X_tt i
  | _, _, _ => 0

/-- Third derivatives of a rule `φ(s, λ)`: `X_sss` in the states, `X_stt` once in the states and twice in the
scale of risk. -/
def ruleD3 (X_sss : Fin nx → Fin ns → Fin ns → Fin ns → K) (X_stt : Fin nx → Fin ns → K) :
    Fin nx → (Fin ns ⊕ Unit) → (Fin ns ⊕ Unit) → (Fin ns ⊕ Unit) → K
  | i, .inl a, .inl b, .inl c => X_sss i a b c
  | i, .inl a, .inr _, .inr _ => X_stt i a
  | i, .inr _, .inl a, .inr _ => X_stt i a
  | i, .inr _, .inr _, .inl a => X_stt i a
  | _, _, _, _ => 0

/-- A discrete distribution of the shocks with mean zero and covariance `sigma`. -/
structure Shocks {D : Type} [Fintype D] (w : D → K) (ε : D → Fin ne → K) (sigma : Fin ne → Fin ne → K) :
    Prop where
  total : ∑ d, w d = 1
  mean : ∀ e, ∑ d, w d * ε d e = 0
  cov : ∀ e e', ∑ d, w d * (ε d e * ε d e') = sigma e e'

/-- The distribution is symmetric: `ε` and `-ε` are equally likely. -/
def SymmetricShocks {D : Type} (w : D → K) (ε : D → Fin ne → K) : Prop :=
  ∃ τ : D ≃ D, ∀ d, w (τ d) = w d ∧ ε (τ d) = -ε d

/-- The derivatives of `f` and `g` are symmetric in the order of derivation. -/
structure Problem.Symmetric (p : Problem ns nx ne K) : Prop where
  f2 : ∀ i a b, p.f2 i a b = p.f2 i b a
  g2 : ∀ i a b, p.g2 i a b = p.g2 i b a
  f3l : ∀ i a b c, p.f3 i a b c = p.f3 i b a c
  f3r : ∀ i a b c, p.f3 i a b c = p.f3 i a c b
  g3l : ∀ i a b c, p.g3 i a b c = p.g3 i b a c
  g3r : ∀ i a b c, p.g3 i a b c = p.g3 i a c b

/-- `X_s` solves the linearised model. -/
def Problem.FirstOrder (p : Problem ns nx ne K) (X_s : Fin nx → Fin ns → K) : Prop :=
  Matrix.of p.f_s + Matrix.of p.f_x * Matrix.of X_s
    + Matrix.of p.f_S * (Matrix.of p.g_s + Matrix.of p.g_x * Matrix.of X_s)
    + Matrix.of p.f_X * Matrix.of X_s * (Matrix.of p.g_s + Matrix.of p.g_x * Matrix.of X_s) = 0

/-- The equation `A X + B X[C, ..., C] + D = 0`, for tensors with `nd` state indices, has at most one solution. -/
def RegularN (nd : ℕ) (A B : Fin nx → Fin nx → K) (C : Fin ns → Fin ns → K) : Prop :=
  ∀ X : Fin nx → (Fin nd → Fin ns) → K,
    (∀ i j, ∑ k, A i k * X k j + ∑ k, B i k * ∑ l : Fin nd → Fin ns, X k l * ∏ t, C (l t) (j t) = 0) → X = 0

end spec

/-! ### Helpers -/

section coeffs
variable {I J : Type} [Fintype J]

private theorem coeff_dvd {n k : ℕ} {a b : K⟦X⟧} (h : X ^ n ∣ a - b) (hk : k < n) : coeff k a = coeff k b := by
  have := X_pow_dvd_iff.1 h k hk
  rwa [map_sub, sub_eq_zero] at this

theorem cf_taylor2 {F : (J → K⟦X⟧) → I → K⟦X⟧} {f1 : I → J → K} {f2 : I → J → J → K}
    (h : Taylor2 F f1 f2) (z : J → K⟦X⟧) (hz : cf 0 z = 0) :
    cf 0 (F z) = 0 ∧ cf 1 (F z) = L1 f1 (cf 1 z) ∧
      cf 2 (F z) = L1 f1 (cf 2 z) + (1 / 2 : K) • L2 f2 (cf 1 z) (cf 1 z) := by
  have hz' : ∀ j, coeff 0 (z j) = 0 := fun j => congrFun hz j
  have hX : ∀ j, X ∣ z j := fun j => by
    rw [X_dvd_iff]; rw [← coeff_zero_eq_constantCoeff_apply]; exact hz' j
  refine ⟨?_, ?_, ?_⟩ <;> funext i
  · change coeff 0 (F z i) = 0
    rw [coeff_dvd (h z hX i) (by norm_num)]
    simp only [map_add, map_sum, coeff_C_mul, hz', (coeff_mul_low (hz' _) (hz' _)).1]
    simp
  · change coeff 1 (F z i) = _
    rw [coeff_dvd (h z hX i) (by norm_num)]
    simp only [map_add, map_sum, coeff_C_mul, (coeff_mul_low (hz' _) (hz' _)).2.1]
    simp [L1_apply, c1, cf]
  · change coeff 2 (F z i) = _
    rw [coeff_dvd (h z hX i) (by norm_num)]
    simp only [map_add, map_sum, coeff_C_mul, (coeff_mul_low (hz' _) (hz' _)).2.2.1]
    simp only [Pi.add_apply, Pi.smul_apply, smul_eq_mul, L1_apply, L2_apply, c1, c2, cf, mul_assoc]

private theorem Taylor3.to2 {F : (J → K⟦X⟧) → I → K⟦X⟧} {f1 : I → J → K} {f2 : I → J → J → K}
    {f3 : I → J → J → J → K} (h : Taylor3 F f1 f2 f3) : Taylor2 F f1 f2 := by
  intro z hz i
  have h1 := h z hz i
  have h2 : X ^ 3 ∣ C (1 / 6 : K) * ∑ j, ∑ l, ∑ m, C (f3 i j l m) * (z j * z l * z m) := by
    apply Dvd.dvd.mul_left
    refine Finset.dvd_sum fun j _ => Finset.dvd_sum fun l _ => Finset.dvd_sum fun m _ => ?_
    apply Dvd.dvd.mul_left
    have : (X : K⟦X⟧) ^ 3 = X * X * X := by ring
    rw [this]
    exact mul_dvd_mul (mul_dvd_mul (hz j) (hz l)) (hz m)
  have h3 : (X : K⟦X⟧) ^ 3 ∣ X ^ 4 := pow_dvd_pow _ (by norm_num)
  have h4 := dvd_add (h3.trans h1) h2
  convert h4 using 1
  ring

private theorem cf_taylor3 {F : (J → K⟦X⟧) → I → K⟦X⟧} {f1 : I → J → K} {f2 : I → J → J → K}
    {f3 : I → J → J → J → K} (h : Taylor3 F f1 f2 f3) (z : J → K⟦X⟧) (hz : cf 0 z = 0) :
    cf 3 (F z) = L1 f1 (cf 3 z) + (1 / 2 : K) • (L2 f2 (cf 1 z) (cf 2 z) + L2 f2 (cf 2 z) (cf 1 z))
      + (1 / 6 : K) • L3 f3 (cf 1 z) (cf 1 z) (cf 1 z) := by
  have hz' : ∀ j, coeff 0 (z j) = 0 := fun j => congrFun hz j
  have hX : ∀ j, X ∣ z j := fun j => by
    rw [X_dvd_iff]; rw [← coeff_zero_eq_constantCoeff_apply]; exact hz' j
  funext i
  change coeff 3 (F z i) = _
  rw [coeff_dvd (h z hX i) (by norm_num)]
  simp only [map_add, map_sum, coeff_C_mul, (coeff_mul_low (hz' _) (hz' _)).2.2.2,
    (coeff_mul3_low (hz' _) (hz' _) (hz' _)).2.2.2]
  simp only [Pi.add_apply, Pi.smul_apply, smul_eq_mul, L1_apply, L2_apply, L3_apply, c1, c2, c3, cf, mul_assoc,
    mul_add, Finset.sum_add_distrib]

end coeffs

section tensors
variable {I A B P Q R : Type} [Fintype A] [Fintype B] [Fintype P] [Fintype Q] [Fintype R]
  [DecidableEq A] [DecidableEq B] [DecidableEq P] [DecidableEq Q] [DecidableEq R]

private theorem c2_single_left (T : P → Q → K) (p : P) (v : Q → K) : c2 T (Pi.single p 1) v = c1 (T p) v := by
  simp [c1, c2, Pi.single_apply]

private theorem c2_single_right (T : P → Q → K) (u : P → K) (q : Q) :
    c2 T u (Pi.single q 1) = c1 (fun p => T p q) u := by
  simp [c1, c2, Pi.single_apply]

private theorem L1_comp (M : I → P → K) (N : P → A → K) (u : A → K) :
    L1 (fun i a => c1 (M i) fun x => N x a) u = L1 M (L1 N u) := by
  have : L1 (fun i a => c1 (M i) fun x => N x a) = (L1 M).comp (L1 N) := by
    refine lin_ext fun a => ?_
    funext i
    simp only [LinearMap.comp_apply, L1_single, L1_apply, c1_single]
  rw [this]; rfl

private theorem L1_addT (M N : I → P → K) (u : P → K) :
    L1 (fun i a => M i a + N i a) u = L1 M u + L1 N u := by
  funext i
  simp [L1_apply, c1, add_mul, Finset.sum_add_distrib]

private theorem L2_addT (M N : I → P → Q → K) (u : P → K) (v : Q → K) :
    L2 (fun i a b => M i a b + N i a b) u v = L2 M u v + L2 N u v := by
  funext i
  simp [L2_apply, c2, add_mul, Finset.sum_add_distrib]

private theorem L2_mulT (c : K) (M : I → P → Q → K) (u : P → K) (v : Q → K) :
    L2 (fun i a b => c * M i a b) u v = c • L2 M u v := by
  funext i
  simp [L2_apply, c2, Finset.mul_sum, mul_assoc]

private theorem L2_comp (T : I → P → Q → K) (M : P → A → K) (N : Q → B → K) (u : A → K) (v : B → K) :
    L2 (fun i a b => c2 (T i) (fun p => M p a) fun q => N q b) u v = L2 T (L1 M u) (L1 N v) := by
  have : L2 (fun i a b => c2 (T i) (fun p => M p a) fun q => N q b) = (L2 T).compl₁₂ (L1 M) (L1 N) := by
    refine bil_ext fun a b => ?_
    funext i
    simp only [LinearMap.compl₁₂_apply, L1_single, L2_apply, c2_single]
  rw [this]; rfl

private theorem L2_post (M : I → P → K) (T : P → A → B → K) (u : A → K) (v : B → K) :
    L2 (fun i a b => c1 (M i) fun p => T p a b) u v = L1 M (L2 T u v) := by
  have : L2 (fun i a b => c1 (M i) fun p => T p a b) = (L2 T).compr₂ (L1 M) := by
    refine bil_ext fun a b => ?_
    funext i
    simp only [LinearMap.compr₂_apply, L2_single, L1_apply]
  rw [this]; rfl

private theorem L2_right (T : I → A → P → K) (M : P → B → K) (u : A → K) (v : B → K) :
    L2 (fun i a b => c1 (T i a) fun p => M p b) u v = L2 T u (L1 M v) := by
  have : L2 (fun i a b => c1 (T i a) fun p => M p b) = (L2 T).compl₂ (L1 M) := by
    refine bil_ext fun a b => ?_
    funext i
    simp only [LinearMap.compl₂_apply, L1_single, L2_apply, c2_single_left, c1_single]
  rw [this]; rfl

end tensors

section prob
variable {ns nx ne : ℕ} (p : Problem ns nx ne K) (X_s : Fin nx → Fin ns → K)

private theorem map_f1 (s : Fin ns → K) (x : Fin nx → K) (S : Fin ns → K) (x' : Fin nx → K) :
    L1 p.f1 (Sum.elim (Sum.elim s x) (Sum.elim S x')) = L1 p.f_s s + L1 p.f_x x + L1 p.f_S S + L1 p.f_X x' := by
  funext i
  simp [L1_apply, c1, Fintype.sum_sum_type, Problem.f_s, Problem.f_x, Problem.f_S, Problem.f_X, add_assoc]

private theorem map_g1 (s : Fin ns → K) (x : Fin nx → K) (e : Fin ne → K) :
    L1 p.g1 (Sum.elim (Sum.elim s x) e) = L1 p.g_s s + L1 p.g_x x + L1 p.g_e e := by
  funext i
  simp [L1_apply, c1, Fintype.sum_sum_type, Problem.g_s, Problem.g_x, Problem.g_e]

private theorem map_g2 (hsym : ∀ i a b, p.g2 i a b = p.g2 i b a) (s s' : Fin ns → K) (x x' : Fin nx → K)
    (e e' : Fin ne → K) :
    L2 p.g2 (Sum.elim (Sum.elim s x) e) (Sum.elim (Sum.elim s' x') e')
      = L2 p.g_ss s s' + (L2 p.g_sx s x' + L2 p.g_sx s' x) + L2 p.g_xx x x' + (L2 p.g_se s e' + L2 p.g_se s' e)
        + (L2 p.g_xe x e' + L2 p.g_xe x' e) + L2 p.g_ee e e' := by
  have t1 : L2 (fun i a b => p.g2 i (.inl (.inr a)) (.inl (.inl b))) x s' = L2 p.g_sx s' x := by
    funext i
    simp only [L2_apply, c2, Problem.g_sx]
    rw [Finset.sum_comm]
    exact Finset.sum_congr rfl fun a _ => Finset.sum_congr rfl fun b _ => by rw [hsym]; ring
  have t2 : L2 (fun i a b => p.g2 i (.inr a) (.inl (.inl b))) e s' = L2 p.g_se s' e := by
    funext i
    simp only [L2_apply, c2, Problem.g_se]
    rw [Finset.sum_comm]
    exact Finset.sum_congr rfl fun a _ => Finset.sum_congr rfl fun b _ => by rw [hsym]; ring
  have t3 : L2 (fun i a b => p.g2 i (.inr a) (.inl (.inr b))) e x' = L2 p.g_xe x' e := by
    funext i
    simp only [L2_apply, c2, Problem.g_xe]
    rw [Finset.sum_comm]
    exact Finset.sum_congr rfl fun a _ => Finset.sum_congr rfl fun b _ => by rw [hsym]; ring
  rw [← t1, ← t2, ← t3]
  funext i
  simp only [L2_apply, c2, Pi.add_apply, Fintype.sum_sum_type, Problem.g_ss, Problem.g_sx, Problem.g_xx,
    Problem.g_se, Problem.g_xe, Problem.g_ee, Sum.elim_inl, Sum.elim_inr, Finset.sum_add_distrib]
  ring

private theorem map_V1_3 (h : Fin ns → K) :
    L1 (p.V1_3 X_s) h = L1 p.g_s h + L1 p.g_x (L1 X_s h) := by
  unfold Problem.V1_3
  rw [L1_addT, L1_comp]

private theorem map_V1 (h : Fin ns → K) :
    L1 (p.V1 X_s) h
      = Sum.elim (Sum.elim h (L1 X_s h)) (Sum.elim (L1 (p.V1_3 X_s) h) (L1 X_s (L1 (p.V1_3 X_s) h))) := by
  funext z
  rcases z with (i | j) | (i | j)
  · simp [L1_apply, c1, Problem.V1]
  · simp [L1_apply, c1, Problem.V1]
  · simp [L1_apply, c1, Problem.V1]
  · have := congrFun (L1_comp X_s (p.V1_3 X_s) h) j
    exact this

private theorem map_K2 (u v : Fin ns → K) :
    L2 (p.K2 X_s) u v = L2 p.g_ss u v + (2 : K) • L2 p.g_sx u (L1 X_s v) + L2 p.g_xx (L1 X_s u) (L1 X_s v) := by
  unfold Problem.K2
  rw [L2_addT, L2_addT, L2_mulT, L2_right, L2_comp]

private theorem map_fS (v : Fin ns → K) : L1 (p.fS X_s) v = L1 p.f_S v + L1 p.f_X (L1 X_s v) := by
  unfold Problem.fS
  rw [L1_addT, L1_comp]

private theorem map_sylA (v : Fin nx → K) :
    L1 (p.sylA X_s) v = L1 p.f_x v + L1 (p.fS X_s) (L1 p.g_x v) := by
  unfold Problem.sylA
  rw [L1_addT, L1_comp]

private theorem map_D2 (u v : Fin ns → K) :
    L2 (p.D2 X_s) u v = L2 p.f2 (L1 (p.V1 X_s) u) (L1 (p.V1 X_s) v) + L1 (p.fS X_s) (L2 (p.K2 X_s) u v) := by
  unfold Problem.D2
  rw [L2_addT, L2_comp, L2_post]

private theorem map_Ltt (v : Fin nx → K) :
    L1 (p.Ltt X_s) v = L1 p.f_x v + L1 p.f_S (L1 p.g_x v) + L1 p.f_X (L1 X_s (L1 p.g_x v) + v) := by
  have h1 : L1 (fun x a => c1 (X_s x) (fun k => p.g_x k a) + if x = a then (1 : K) else 0) v
      = L1 X_s (L1 p.g_x v) + v := by
    rw [L1_addT, L1_comp]
    congr 1
    funext i
    simp [L1_apply, c1]
  rw [← h1, ← L1_comp, ← L1_comp, ← L1_addT, ← L1_addT]
  rfl

private theorem map_ruleD1 (s : Fin ns → K) (l : Unit → K) : L1 (ruleD1 X_s) (Sum.elim s l) = L1 X_s s := by
  funext i
  simp [L1_apply, c1, Fintype.sum_sum_type, ruleD1]

private theorem map_ruleD2 (X_ss : Fin nx → Fin ns → Fin ns → K) (X_tt : Fin nx → K) (s s' : Fin ns → K)
    (l l' : Unit → K) :
    L2 (ruleD2 X_ss X_tt) (Sum.elim s l) (Sum.elim s' l') = L2 X_ss s s' + (l () * l' ()) • X_tt := by
  funext i
  simp [L2_apply, c2, Fintype.sum_sum_type, ruleD2]
  ring

private theorem cf_elim {A B : Type} (n : ℕ) (a : A → K⟦X⟧) (b : B → K⟦X⟧) :
    cf n (Sum.elim a b) = Sum.elim (cf n a) (cf n b) := by
  funext j
  rcases j with j | j <;> rfl

/-- The part of the arguments of `f` that moves with the shocks. -/
private noncomputable def shockDir : (Fin ne → K) →ₗ[K] (ZIdx ns nx → K) :=
  L1 fun z e => match z with
    | .inl _ => 0
    | .inr b => p.W X_s b e

private theorem shockDir_apply (e : Fin ne → K) :
    shockDir p X_s e = Sum.elim (Sum.elim (0 : Fin ns → K) (0 : Fin nx → K)) (Sum.elim (L1 p.g_e e) (L1 X_s (L1 p.g_e e))) := by
  funext z
  rcases z with (i | j) | (i | j)
  · simp [shockDir, L1_apply, c1]
  · simp [shockDir, L1_apply, c1]
  · simp [shockDir, L1_apply, c1, Problem.W]
  · have := congrFun (L1_comp X_s p.g_e e) j
    exact this

/-- `K_tt` before the expectation. -/
private noncomputable def kRisk (X_ss : Fin nx → Fin ns → Fin ns → K) (e : Fin ne → K) : Fin nx → K :=
  L2 p.f2 (shockDir p X_s e) (shockDir p X_s e) + L1 (p.fS X_s) (L2 p.g_ee e e)
    + L1 p.f_X (L2 X_ss (L1 p.g_e e) (L1 p.g_e e))

private theorem expect_L2 {I D : Type} [Fintype D] {w : D → K} {ε : D → Fin ne → K}
    (hε : Shocks w ε p.sigma) (T : I → Fin ne → Fin ne → K) :
    ∑ d, w d • L2 T (ε d) (ε d) = fun i => p.expect (T i) := by
  funext i
  simp only [Finset.sum_apply, Pi.smul_apply, smul_eq_mul, L2_apply, c2, Problem.expect, ← hε.cov,
    Finset.mul_sum]
  rw [Finset.sum_comm]
  apply Finset.sum_congr rfl
  intro e _
  rw [Finset.sum_comm]
  apply Finset.sum_congr rfl
  intro e' _
  apply Finset.sum_congr rfl
  intro d _
  ring

private theorem Ktt_eq (X_ss : Fin nx → Fin ns → Fin ns → K) {D : Type} [Fintype D] {w : D → K}
    {ε : D → Fin ne → K} (hε : Shocks w ε p.sigma) :
    ∑ d, w d • kRisk p X_s X_ss (ε d) = p.Ktt X_s X_ss := by
  have h1 : ∀ e, kRisk p X_s X_ss e = L2 (fun i e e' =>
      c2 (fun a b => p.f2 i (.inr a) (.inr b)) (fun a => p.W X_s a e) (fun a => p.W X_s a e')
      + c1 (p.fS X_s i) (fun k => p.g_ee k e e')
      + c2 (fun a b => c1 (p.f_X i) fun x => X_ss x a b) (fun k => p.g_e k e) fun k => p.g_e k e') e e := by
    intro e
    rw [L2_addT, L2_addT, L2_post, L2_comp (fun i a b => c1 (p.f_X i) fun x => X_ss x a b), L2_post,
      L2_comp (fun i a b => p.f2 i (.inr a) (.inr b)), kRisk]
    congr 2
    funext i
    simp only [L2_apply, c2, Fintype.sum_sum_type, shockDir, L1_apply, c1]
    simp
  simp only [h1]
  rw [expect_L2 p hε]
  rfl

/-- Linear maps of the shocks have expectation zero. -/
private theorem expect_lin {V D : Type} [AddCommGroup V] [Module K V] [Fintype D] {w : D → K} {ε : D → Fin ne → K}
    (hε : Shocks w ε p.sigma) (M : (Fin ne → K) →ₗ[K] V) : ∑ d, w d • M (ε d) = 0 := by
  have : ∑ d, w d • ε d = 0 := by
    funext e
    simp [hε.mean]
  rw [← map_zero M, ← this, map_sum]
  simp

/-- The terms linear in the shocks. -/
private noncomputable def crossM (X_ss : Fin nx → Fin ns → Fin ns → K) (h : Fin ns → K) :
    (Fin ne → K) →ₗ[K] (Fin nx → K) :=
  (1 / 2 : K) • (L2 p.f2 (L1 (p.V1 X_s) h) ∘ₗ shockDir p X_s + (L2 p.f2).flip (L1 (p.V1 X_s) h) ∘ₗ shockDir p X_s)
    + L1 (p.fS X_s) ∘ₗ (L2 p.g_se h + L2 p.g_xe (L1 X_s h))
    + (1 / 2 : K) • L1 p.f_X ∘ₗ (L2 X_ss (L1 (p.V1_3 X_s) h) ∘ₗ L1 p.g_e
      + (L2 X_ss).flip (L1 (p.V1_3 X_s) h) ∘ₗ L1 p.g_e)

private theorem cf_line {J : Type} (v : J → K) :
    cf 0 (fun j => C (v j) * X) = 0 ∧ cf 1 (fun j => C (v j) * X) = v ∧ cf 2 (fun j => C (v j) * X) = 0
      ∧ cf 3 (fun j => C (v j) * X) = 0 := by
  refine ⟨?_, ?_, ?_, ?_⟩ <;> funext j <;> simp [cf, coeff_X, coeff_C_mul]

private theorem elim_add {A B : Type} (a a' : A → K) (b b' : B → K) :
    Sum.elim a b + Sum.elim a' b' = Sum.elim (a + a') (b + b') := by
  funext j; rcases j with j | j <;> rfl

private theorem elim_smul {A B : Type} (c : K) (a : A → K) (b : B → K) :
    c • Sum.elim a b = Sum.elim (c • a) (c • b) := by
  funext j; rcases j with j | j <;> rfl

/-- Coefficients of the residual along the path, for one draw of the shocks. -/
private theorem path_coeffs {F : (ZIdx ns nx → K⟦X⟧) → Fin nx → K⟦X⟧}
    {G : (MIdx ns nx ne → K⟦X⟧) → Fin ns → K⟦X⟧} {φ : (Fin ns ⊕ Unit → K⟦X⟧) → Fin nx → K⟦X⟧}
    (hF : Taylor2 F p.f1 p.f2) (hG : Taylor2 G p.g1 p.g2) (hsym : ∀ i a b, p.g2 i a b = p.g2 i b a)
    {X_ss : Fin nx → Fin ns → Fin ns → K} {X_tt : Fin nx → K}
    (hφ : Taylor2 φ (ruleD1 X_s) (ruleD2 X_ss X_tt)) [CharZero K] (h : Fin ns → K) (μ : K) (e : Fin ne → K) :
    let r := pathResidual F G φ (fun a => C (h a) * X) (C μ * X) (fun k => C (μ * e k) * X)
    cf 0 r = 0 ∧
    cf 1 r = L1 p.f1 (L1 (p.V1 X_s) h) + μ • L1 p.f1 (shockDir p X_s e) ∧
    cf 2 r = (1 / 2 : K) • (L1 (p.sylA X_s) (L2 X_ss h h)
        + L1 p.f_X (L2 X_ss (L1 (p.V1_3 X_s) h) (L1 (p.V1_3 X_s) h)) + L2 (p.D2 X_s) h h)
      + (μ ^ 2 / 2) • (L1 (p.Ltt X_s) X_tt + kRisk p X_s X_ss e) + μ • crossM p X_s X_ss h e := by
  intro r
  obtain ⟨s0, s1, s2, -⟩ := cf_line h
  set s : Fin ns → K⟦X⟧ := fun a => C (h a) * X with hs
  obtain ⟨l0, l1, l2, -⟩ := cf_line (fun _ : Unit => μ)
  set lam : Unit → K⟦X⟧ := fun _ => C μ * X with hlam
  obtain ⟨e0, e1, e2, -⟩ := cf_line (fun k => μ * e k)
  set ε : Fin ne → K⟦X⟧ := fun k => C (μ * e k) * X with hε
  have e1' : cf 1 ε = μ • e := e1
  -- the control
  set x := φ (Sum.elim s lam) with hx
  obtain ⟨x0, x1, x2⟩ := cf_taylor2 hφ (Sum.elim s lam) (by rw [cf_elim, s0, l0]; funext j; rcases j <;> rfl)
  rw [← hx] at x0 x1 x2
  rw [cf_elim, s1, l1, map_ruleD1] at x1
  rw [cf_elim, cf_elim, s1, s2, l1, l2, map_ruleD1, map_ruleD2, map_zero, zero_add] at x2
  -- the next state
  set S := G (Sum.elim (Sum.elim s x) ε) with hS
  obtain ⟨S0, S1, S2⟩ := cf_taylor2 hG (Sum.elim (Sum.elim s x) ε)
    (by rw [cf_elim, cf_elim, s0, x0, e0]; funext j; rcases j with (j | j) | j <;> rfl)
  rw [← hS] at S0 S1 S2
  rw [cf_elim, cf_elim, s1, x1, e1', map_g1, ← map_V1_3] at S1
  rw [cf_elim, cf_elim, cf_elim, cf_elim, s1, x1, e1', s2, x2, e2, map_g1, map_g2 p hsym] at S2
  -- the next control
  set x' := φ (Sum.elim S lam) with hx'
  obtain ⟨y0, y1, y2⟩ := cf_taylor2 hφ (Sum.elim S lam) (by rw [cf_elim, S0, l0]; funext j; rcases j <;> rfl)
  rw [← hx'] at y0 y1 y2
  rw [cf_elim, S1, l1, map_ruleD1] at y1
  rw [cf_elim, cf_elim, S1, S2, l1, l2, map_ruleD1, map_ruleD2] at y2
  -- the residual
  have hr : r = F (Sum.elim (Sum.elim s x) (Sum.elim S x')) := rfl
  obtain ⟨r0, r1, r2⟩ := cf_taylor2 hF (Sum.elim (Sum.elim s x) (Sum.elim S x'))
    (by rw [cf_elim, cf_elim, cf_elim, s0, x0, S0, y0]; funext j; rcases j with (j | j) | (j | j) <;> rfl)
  rw [← hr] at r0 r1 r2
  have z1 : Sum.elim (Sum.elim h (L1 X_s h)) (Sum.elim (L1 (p.V1_3 X_s) h + L1 p.g_e (μ • e))
      (L1 X_s (L1 (p.V1_3 X_s) h + L1 p.g_e (μ • e)))) = L1 (p.V1 X_s) h + μ • shockDir p X_s e := by
    rw [map_V1, shockDir_apply, elim_smul, elim_smul, elim_smul, elim_add, elim_add, elim_add]
    simp only [smul_zero, add_zero, map_add, map_smul]
  refine ⟨r0, ?_, ?_⟩
  · rw [r1, cf_elim, cf_elim, cf_elim, s1, x1, S1, y1, z1, map_add, map_smul]
  · rw [r2, cf_elim, cf_elim, cf_elim, cf_elim, cf_elim, cf_elim, s1, x1, S1, y1, z1, s2, x2, S2, y2, map_f1]
    rw [map_sylA, map_D2, map_Ltt, map_K2, kRisk, crossM]
    simp only [map_fS, map_add, map_smul, LinearMap.add_apply, LinearMap.smul_apply, LinearMap.comp_apply,
      LinearMap.flip_apply, map_zero, smul_add, smul_smul]
    module

/-- The second-order terms of a rule in the states and the scale of risk. -/
private def mixed (Y : Fin nx → (Fin ns ⊕ Unit) → (Fin ns ⊕ Unit) → K) (i : Fin nx) (a : Fin ns) : K :=
  Y i (.inl a) (.inr ()) + Y i (.inr ()) (.inl a)

private theorem map_mixed (Y : Fin nx → (Fin ns ⊕ Unit) → (Fin ns ⊕ Unit) → K) (s : Fin ns → K) (l : Unit → K) :
    L2 Y (Sum.elim s l) (Sum.elim s l) = L2 (fun i a b => Y i (.inl a) (.inl b)) s s + l () • L1 (mixed Y) s
      + (l () * l ()) • fun i => Y i (.inr ()) (.inr ()) := by
  funext i
  simp only [L2_apply, L1_apply, c1, c2, Fintype.sum_sum_type, mixed, Finset.univ_unique, Finset.sum_singleton, Sum.elim_inl,
    Sum.elim_inr, Pi.add_apply, Pi.smul_apply, smul_eq_mul, Finset.sum_add_distrib, Finset.mul_sum, add_mul, mul_add]
  have e1 : ∀ x, Y i (.inl x) (.inr default) * s x * l default = l () * (Y i (.inl x) (.inr ()) * s x) := fun x => by
    change Y i (.inl x) (.inr ()) * s x * l () = _
    ring
  have e2 : ∀ x, Y i (.inr default) (.inl x) * l default * s x = l () * (Y i (.inr ()) (.inl x) * s x) := fun x => by
    change Y i (.inr ()) (.inl x) * l () * s x = _
    ring
  simp only [e1, e2]
  change _ + _ + (_ + Y i (.inr ()) (.inr ()) * l () * l ()) = _
  ring

/-- The first-order coefficient in the direction of risk, for a rule that reacts to risk at first order. -/
private theorem path_first {F : (ZIdx ns nx → K⟦X⟧) → Fin nx → K⟦X⟧}
    {G : (MIdx ns nx ne → K⟦X⟧) → Fin ns → K⟦X⟧} {φ : (Fin ns ⊕ Unit → K⟦X⟧) → Fin nx → K⟦X⟧}
    (hF : Taylor2 F p.f1 p.f2) (hG : Taylor2 G p.g1 p.g2) {y : Fin nx → K}
    {Y : Fin nx → (Fin ns ⊕ Unit) → (Fin ns ⊕ Unit) → K}
    (hφ : Taylor2 φ (fun i => Sum.elim (X_s i) fun _ => y i) Y) [CharZero K] (e : Fin ne → K) :
    cf 1 (pathResidual F G φ (fun a => C ((0 : Fin ns → K) a) * X) (C 1 * X) (fun k => C (1 * e k) * X))
      = L1 (p.Ltt X_s) y + (L1 p.f1 ∘ₗ shockDir p X_s) e := by
  have hr1 : ∀ (u : Fin ns → K) (l : Unit → K), L1 (fun i => Sum.elim (X_s i) fun _ => y i) (Sum.elim u l) = L1 X_s u + l () • y := by
    intro u l
    funext i
    simp [L1_apply, c1, Fintype.sum_sum_type, mul_comm]
  obtain ⟨s0, s1, -, -⟩ := cf_line (0 : Fin ns → K)
  set s : Fin ns → K⟦X⟧ := fun a => C ((0 : Fin ns → K) a) * X with hs
  obtain ⟨l0, l1, -, -⟩ := cf_line (fun _ : Unit => (1 : K))
  set lam : Unit → K⟦X⟧ := fun _ => C 1 * X with hlam
  obtain ⟨e0, e1, -, -⟩ := cf_line (fun k => 1 * e k)
  set ε : Fin ne → K⟦X⟧ := fun k => C (1 * e k) * X with hε
  have e1' : cf 1 ε = e := by rw [e1]; funext k; rw [one_mul]
  set x := φ (Sum.elim s lam) with hx
  obtain ⟨x0, x1, -⟩ := cf_taylor2 hφ (Sum.elim s lam) (by rw [cf_elim, s0, l0]; funext j; rcases j <;> rfl)
  rw [← hx] at x0 x1
  rw [cf_elim, s1, l1, hr1, map_zero, zero_add, one_smul] at x1
  set S := G (Sum.elim (Sum.elim s x) ε) with hS
  obtain ⟨S0, S1, -⟩ := cf_taylor2 hG (Sum.elim (Sum.elim s x) ε)
    (by rw [cf_elim, cf_elim, s0, x0, e0]; funext j; rcases j with (j | j) | j <;> rfl)
  rw [← hS] at S0 S1
  rw [cf_elim, cf_elim, s1, x1, e1', map_g1, map_zero, zero_add] at S1
  set x' := φ (Sum.elim S lam) with hx'
  obtain ⟨y0, y1, -⟩ := cf_taylor2 hφ (Sum.elim S lam) (by rw [cf_elim, S0, l0]; funext j; rcases j <;> rfl)
  rw [← hx'] at y0 y1
  rw [cf_elim, S1, l1, hr1, one_smul] at y1
  change cf 1 (F (Sum.elim (Sum.elim s x) (Sum.elim S x'))) = _
  obtain ⟨-, r1, -⟩ := cf_taylor2 hF (Sum.elim (Sum.elim s x) (Sum.elim S x'))
    (by rw [cf_elim, cf_elim, cf_elim, s0, x0, S0, y0]; funext j; rcases j with (j | j) | (j | j) <;> rfl)
  rw [r1, cf_elim, cf_elim, cf_elim, s1, x1, S1, y1, map_f1, LinearMap.comp_apply, shockDir_apply, map_f1, map_Ltt]
  simp only [map_add, map_zero]
  abel

/-- The same for a rule with any second-order terms. -/
private theorem path_coeffs_cross {F : (ZIdx ns nx → K⟦X⟧) → Fin nx → K⟦X⟧}
    {G : (MIdx ns nx ne → K⟦X⟧) → Fin ns → K⟦X⟧} {φ : (Fin ns ⊕ Unit → K⟦X⟧) → Fin nx → K⟦X⟧}
    (hF : Taylor2 F p.f1 p.f2) (hG : Taylor2 G p.g1 p.g2) (hsym : ∀ i a b, p.g2 i a b = p.g2 i b a)
    {Y : Fin nx → (Fin ns ⊕ Unit) → (Fin ns ⊕ Unit) → K}
    (hφ : Taylor2 φ (ruleD1 X_s) Y) [CharZero K] (h : Fin ns → K) (μ : K) (e : Fin ne → K) :
    let r := pathResidual F G φ (fun a => C (h a) * X) (C μ * X) (fun k => C (μ * e k) * X)
    let X_ss : Fin nx → Fin ns → Fin ns → K := fun i a b => Y i (.inl a) (.inl b)
    let X_tt : Fin nx → K := fun i => Y i (.inr ()) (.inr ())
    cf 2 r = (1 / 2 : K) • (L1 (p.sylA X_s) (L2 X_ss h h)
        + L1 p.f_X (L2 X_ss (L1 (p.V1_3 X_s) h) (L1 (p.V1_3 X_s) h)) + L2 (p.D2 X_s) h h)
      + (μ ^ 2 / 2) • (L1 (p.Ltt X_s) X_tt + kRisk p X_s X_ss e) + μ • crossM p X_s X_ss h e
      + (μ / 2) • (L1 (p.sylA X_s) (L1 (mixed Y) h) + L1 p.f_X (L1 (mixed Y) (L1 (p.V1_3 X_s) h)))
      + (μ ^ 2 / 2) • (L1 p.f_X ∘ₗ L1 (mixed Y) ∘ₗ L1 p.g_e) e := by
  intro r X_ss X_tt
  obtain ⟨s0, s1, s2, -⟩ := cf_line h
  set s : Fin ns → K⟦X⟧ := fun a => C (h a) * X with hs
  obtain ⟨l0, l1, l2, -⟩ := cf_line (fun _ : Unit => μ)
  set lam : Unit → K⟦X⟧ := fun _ => C μ * X with hlam
  obtain ⟨e0, e1, e2, -⟩ := cf_line (fun k => μ * e k)
  set ε : Fin ne → K⟦X⟧ := fun k => C (μ * e k) * X with hε
  have e1' : cf 1 ε = μ • e := e1
  -- the control
  set x := φ (Sum.elim s lam) with hx
  obtain ⟨x0, x1, x2⟩ := cf_taylor2 hφ (Sum.elim s lam) (by rw [cf_elim, s0, l0]; funext j; rcases j <;> rfl)
  rw [← hx] at x0 x1 x2
  rw [cf_elim, s1, l1, map_ruleD1] at x1
  rw [cf_elim, cf_elim, s1, s2, l1, l2, map_ruleD1, map_mixed Y, map_zero, zero_add] at x2
  -- the next state
  set S := G (Sum.elim (Sum.elim s x) ε) with hS
  obtain ⟨S0, S1, S2⟩ := cf_taylor2 hG (Sum.elim (Sum.elim s x) ε)
    (by rw [cf_elim, cf_elim, s0, x0, e0]; funext j; rcases j with (j | j) | j <;> rfl)
  rw [← hS] at S0 S1 S2
  rw [cf_elim, cf_elim, s1, x1, e1', map_g1, ← map_V1_3] at S1
  rw [cf_elim, cf_elim, cf_elim, cf_elim, s1, x1, e1', s2, x2, e2, map_g1, map_g2 p hsym] at S2
  -- the next control
  set x' := φ (Sum.elim S lam) with hx'
  obtain ⟨y0, y1, y2⟩ := cf_taylor2 hφ (Sum.elim S lam) (by rw [cf_elim, S0, l0]; funext j; rcases j <;> rfl)
  rw [← hx'] at y0 y1 y2
  rw [cf_elim, S1, l1, map_ruleD1] at y1
  rw [cf_elim, cf_elim, S1, S2, l1, l2, map_ruleD1, map_mixed Y] at y2
  -- the residual
  have hr : r = F (Sum.elim (Sum.elim s x) (Sum.elim S x')) := rfl
  obtain ⟨r0, r1, r2⟩ := cf_taylor2 hF (Sum.elim (Sum.elim s x) (Sum.elim S x'))
    (by rw [cf_elim, cf_elim, cf_elim, s0, x0, S0, y0]; funext j; rcases j with (j | j) | (j | j) <;> rfl)
  rw [← hr] at r0 r1 r2
  have z1 : Sum.elim (Sum.elim h (L1 X_s h)) (Sum.elim (L1 (p.V1_3 X_s) h + L1 p.g_e (μ • e))
      (L1 X_s (L1 (p.V1_3 X_s) h + L1 p.g_e (μ • e)))) = L1 (p.V1 X_s) h + μ • shockDir p X_s e := by
    rw [map_V1, shockDir_apply, elim_smul, elim_smul, elim_smul, elim_add, elim_add, elim_add]
    simp only [smul_zero, add_zero, map_add, map_smul]
  rw [r2, cf_elim, cf_elim, cf_elim, cf_elim, cf_elim, cf_elim, s1, x1, S1, y1, z1, s2, x2, S2, y2, map_f1]
  rw [map_D2, map_Ltt, map_K2, kRisk, crossM]
  simp only [map_sylA, map_fS, map_add, map_smul, LinearMap.add_apply, LinearMap.smul_apply, LinearMap.comp_apply,
    LinearMap.flip_apply, map_zero, smul_add, smul_smul]
  module

end prob

/-! ### C36: second order -/

section second
variable {ns nx ne : ℕ} (p : Problem ns nx ne K)

private theorem first_order_zero {X_s : Fin nx → Fin ns → K} (h1 : ∀ h, L1 p.f1 (L1 (p.V1 X_s) h) = 0)
    {D : Type} [Fintype D] {w : D → K} {ε : D → Fin ne → K} (hε : Shocks w ε p.sigma) (h : Fin ns → K) (μ : K) :
    ∑ d, w d • (L1 p.f1 (L1 (p.V1 X_s) h) + μ • L1 p.f1 (shockDir p X_s (ε d))) = 0 := by
  have := expect_lin p hε (μ • (L1 p.f1 ∘ₗ shockDir p X_s))
  simp only [LinearMap.smul_apply, LinearMap.comp_apply] at this
  simp only [h1, zero_add]
  exact this

private theorem linear_iff {X_s : Fin nx → Fin ns → K}
    (h1 : p.FirstOrder X_s)
    (h : Fin ns → K) : L1 p.f1 (L1 (p.V1 X_s) h) = 0 := by
  have hm : ∀ {a b : ℕ} (M : Fin a → Fin b → K) (v : Fin b → K), L1 M v = (Matrix.of M).mulVec v := by
    intro a b M v
    funext i
    rfl
  have := congrArg (fun M => M.mulVec h) h1
  simp only [Matrix.add_mulVec, Matrix.mul_add, ← Matrix.mulVec_mulVec, Matrix.zero_mulVec, ← hm] at this
  rw [map_V1, map_f1, map_V1_3]
  simp only [map_add]
  rw [← this]

private theorem dvd_of_coeffs {n : ℕ} {a : K⟦X⟧} (h : ∀ k < n, coeff k a = 0) : X ^ n ∣ a :=
  X_pow_dvd_iff.2 h

private theorem coeff_expect {I D : Type} [Fintype D] (w : D → K) (r : D → I → K⟦X⟧) (k : ℕ) (i : I) :
    coeff k (∑ d, C (w d) * r d i) = (∑ d, w d • cf k (r d)) i := by
  simp [cf, coeff_C_mul]

private theorem Xtt_eq {solve : MatSolver K} (hsolve : ∀ n m M R X, solve n m M R = .ok X → M * X = R)
    {X_s : Fin nx → Fin ns → K} {X_ss : Fin nx → Fin ns → Fin ns → K} {X_tt : Fin nx → K}
    (hX : p.Xtt X_s solve X_ss = .ok X_tt) : L1 (p.Ltt X_s) X_tt + p.Ktt X_s X_ss = 0 := by
  unfold Problem.Xtt at hX
  rcases hs : solve nx 1 (Matrix.of (p.Ltt X_s)) (Matrix.of fun i _ => - p.Ktt X_s X_ss i) with e | Y
  · simp [hs, bind, Except.bind] at hX
  · simp only [hs, bind, Except.bind, pure, Except.pure, Except.ok.injEq] at hX
    have := hsolve _ _ _ _ _ hs
    funext i
    have hi := congrFun (congrFun this i) 0
    simp only [Matrix.mul_apply, Matrix.of_apply] at hi
    simp only [Pi.add_apply, L1_apply, c1, Pi.zero_apply, ← hX]
    rw [hi]
    ring

/-- **C36, second order.**  Let `X_s` satisfy the first-order condition, `X_ss` and `X_tt` be computed by
`state_perturb` from the derivatives of `f` and `g`.  Take any functions `f`, `g` with these derivatives, any
distribution of the shocks with mean zero and covariance `sigma`, and any rule `x = φ(s, λ)` with derivatives
`X_s`, `X_ss`, `X_tt`.  Then, in every direction `(h, μ)` of the states and of the scale of risk, the expected
residual `E f(s, φ(s, λ), s', φ(s', λ))`, `s' = g(s, φ(s, λ), λ ε)`, at `s = h t`, `λ = μ t`, is of order `t³`. -/
theorem C36_second_order [CharZero K] (solve : MatSolver K) (hsolve : ∀ n m M R X, solve n m M R = .ok X → M * X = R)
    (lsolve : LinSolver K) (hlsolve : lsolve.Correct) (hsym : ∀ i a b, p.g2 i a b = p.g2 i b a)
    (X_s : Fin nx → Fin ns → K)
    (h1 : p.FirstOrder X_s)
    (hreg : RegularN 2 (p.sylA X_s) p.f_X (p.V1_3 X_s)) (X_tt : Fin nx → K)
    (hX : p.Xtt X_s solve (p.Xss X_s lsolve) = .ok X_tt)
    (F : (ZIdx ns nx → K⟦X⟧) → Fin nx → K⟦X⟧) (G : (MIdx ns nx ne → K⟦X⟧) → Fin ns → K⟦X⟧)
    (φ : (Fin ns ⊕ Unit → K⟦X⟧) → Fin nx → K⟦X⟧) (hF : Taylor2 F p.f1 p.f2) (hG : Taylor2 G p.g1 p.g2)
    (hφ : Taylor2 φ (ruleD1 X_s) (ruleD2 (p.Xss X_s lsolve) X_tt))
    {D : Type} [Fintype D] (w : D → K) (ε : D → Fin ne → K) (hε : Shocks w ε p.sigma)
    (h : Fin ns → K) (μ : K) (i : Fin nx) :
    X ^ 3 ∣ ∑ d, C (w d) * pathResidual F G φ (fun a => C (h a) * X) (C μ * X) (fun k => C (μ * ε d k) * X) i := by
  set X_ss := p.Xss X_s lsolve with hXss
  have hc := fun d => path_coeffs p X_s hF hG hsym hφ h μ (ε d)
  simp only at hc
  have hsyl := sylvester2_spec lsolve hlsolve (p.D2 X_s) hreg h h
  have htt : L1 (p.Ltt X_s) X_tt + p.Ktt X_s X_ss = 0 := Xtt_eq p hsolve hX
  apply dvd_of_coeffs
  intro k hk
  rw [coeff_expect]
  interval_cases k
  · simp only [(hc _).1]
    simp
  · simp only [(hc _).2.1]
    rw [first_order_zero p (linear_iff p h1) hε]
    rfl
  · simp only [(hc _).2.2]
    have e1 : L1 (p.sylA X_s) (L2 X_ss h h)
        + L1 p.f_X (L2 X_ss (L1 (p.V1_3 X_s) h) (L1 (p.V1_3 X_s) h)) + L2 (p.D2 X_s) h h = 0 := hsyl
    simp only [e1, smul_zero, zero_add, smul_add, Finset.sum_add_distrib]
    have e2 := expect_lin p hε (μ • crossM p X_s X_ss h)
    simp only [LinearMap.smul_apply] at e2
    rw [e2]
    have e3 : ∑ d, w d • (μ ^ 2 / 2) • kRisk p X_s X_ss (ε d) = (μ ^ 2 / 2) • p.Ktt X_s X_ss := by
      rw [← Ktt_eq p X_s X_ss hε, Finset.smul_sum]
      exact Finset.sum_congr rfl fun d _ => smul_comm _ _ _
    rw [e3, ← Finset.sum_smul, hε.total, one_smul, add_zero, ← smul_add, htt, smul_zero]
    rfl

private theorem residual_first [CharZero K] (hsym : ∀ i a b, p.g2 i a b = p.g2 i b a) (X_s : Fin nx → Fin ns → K)
    (h1 : p.FirstOrder X_s)
    (F : (ZIdx ns nx → K⟦X⟧) → Fin nx → K⟦X⟧) (G : (MIdx ns nx ne → K⟦X⟧) → Fin ns → K⟦X⟧)
    (φ : (Fin ns ⊕ Unit → K⟦X⟧) → Fin nx → K⟦X⟧) (hF : Taylor2 F p.f1 p.f2) (hG : Taylor2 G p.g1 p.g2)
    (Y_ss : Fin nx → Fin ns → Fin ns → K) (Y_tt : Fin nx → K) (hφ : Taylor2 φ (ruleD1 X_s) (ruleD2 Y_ss Y_tt))
    {D : Type} [Fintype D] (w : D → K) (ε : D → Fin ne → K) (hε : Shocks w ε p.sigma)
    (h : Fin ns → K) (μ : K) (i : Fin nx) :
    X ^ 2 ∣ ∑ d, C (w d) * pathResidual F G φ (fun a => C (h a) * X) (C μ * X) (fun k => C (μ * ε d k) * X) i := by
  have hc := fun d => path_coeffs p X_s hF hG hsym hφ h μ (ε d)
  simp only at hc
  apply dvd_of_coeffs
  intro k hk
  rw [coeff_expect]
  interval_cases k
  · simp only [(hc _).1]
    simp
  · simp only [(hc _).2.1]
    rw [first_order_zero p (linear_iff p h1) hε]
    rfl

/-- A tensor whose values on the diagonal satisfy the homogeneous equation vanishes there. -/
private theorem quadratic_zero [CharZero K] {A B : Fin nx → Fin nx → K} {C' : Fin ns → Fin ns → K} (hreg : RegularN 2 A B C')
    (Z : Fin nx → Fin ns → Fin ns → K)
    (hZ : ∀ h, L1 A (L2 Z h h) + L1 B (L2 Z (L1 C' h) (L1 C' h)) = 0) (h : Fin ns → K) : L2 Z h h = 0 := by
  set E : Fin nx → Fin ns → Fin ns → K := fun i a b => Z i a b + Z i b a with hE
  have hsw : ∀ u v, L2 (fun i a b => Z i b a) u v = L2 Z v u := by
    intro u v
    funext i
    simp only [L2_apply, c2]
    rw [Finset.sum_comm]
    exact Finset.sum_congr rfl fun a _ => Finset.sum_congr rfl fun b _ => by ring
  have hEL : ∀ u v, L2 E u v = L2 Z u v + L2 Z v u := by
    intro u v
    rw [← hsw u v]
    exact L2_addT Z (fun i a b => Z i b a) u v
  have hpol : ∀ u v, L1 A (L2 E u v) + L1 B (L2 E (L1 C' u) (L1 C' v)) = 0 := by
    intro u v
    have h1 := hZ (u + v)
    have h2 := hZ u
    have h3 := hZ v
    simp only [map_add, LinearMap.add_apply] at h1
    rw [hEL, hEL, map_add, map_add]
    calc _ = (L1 A (L2 Z u u) + L1 A (L2 Z v u) + (L1 A (L2 Z u v) + L1 A (L2 Z v v))
          + (L1 B (L2 Z (L1 C' u) (L1 C' u)) + L1 B (L2 Z (L1 C' v) (L1 C' u))
            + (L1 B (L2 Z (L1 C' u) (L1 C' v)) + L1 B (L2 Z (L1 C' v) (L1 C' v)))))
          - (L1 A (L2 Z u u) + L1 B (L2 Z (L1 C' u) (L1 C' u))) - (L1 A (L2 Z v v) + L1 B (L2 Z (L1 C' v) (L1 C' v))) := by
          abel
      _ = 0 := by rw [h1, h2, h3]; simp
  have hE0 := hreg (fun i j => E i (j 0) (j 1)) (fun i j => by
    have := congrFun (hpol (Pi.single (j 0) 1) (Pi.single (j 1) 1)) i
    rw [Pi.add_apply, L1_single, L1_single, L2_single, L1_apply, L1_apply] at this
    simp only [c1, L2_apply, c2] at this
    rw [Pi.zero_apply] at this
    rw [← this]
    simp only [sum_arrow_succ, Fintype.sum_unique]
    simp [Fin.prod_univ_succ, mul_assoc])
  have hE1 : L2 E h h = 0 := by
    funext i
    simp only [L2_apply, c2]
    exact Finset.sum_eq_zero fun a _ => Finset.sum_eq_zero fun b _ => by
      have := congrFun (congrFun hE0 i) ![a, b]
      simp only [Matrix.cons_val_zero, Matrix.cons_val_one, Pi.zero_apply] at this
      rw [this]; ring
  rw [hEL, ← two_smul K] at hE1
  exact (smul_eq_zero.1 hE1).resolve_left two_ne_zero

/-- **C36, uniqueness at second order.**  Conversely, take any rule with the first-order terms `X_s`, whatever its second-order
terms `Y_ss` and `Y_tt`.  If it solves the model up to second order (no terms of order below three in the expected residual,
in any direction of states and risk), then its second-order terms are those that `state_perturb` computes. -/
theorem C36_second_unique [CharZero K] (solve : MatSolver K) (hsolve : ∀ n m M R X, solve n m M R = .ok X → M * X = R)
    (lsolve : LinSolver K) (hlsolve : lsolve.Correct) (hsym : ∀ i a b, p.g2 i a b = p.g2 i b a)
    (X_s : Fin nx → Fin ns → K)
    (hreg : RegularN 2 (p.sylA X_s) p.f_X (p.V1_3 X_s)) (hinj : ∀ v, (Matrix.of (p.Ltt X_s)).mulVec v = 0 → v = 0)
    (X_tt : Fin nx → K) (hX : p.Xtt X_s solve (p.Xss X_s lsolve) = .ok X_tt)
    (F : (ZIdx ns nx → K⟦X⟧) → Fin nx → K⟦X⟧) (G : (MIdx ns nx ne → K⟦X⟧) → Fin ns → K⟦X⟧)
    (φ : (Fin ns ⊕ Unit → K⟦X⟧) → Fin nx → K⟦X⟧) (hF : Taylor2 F p.f1 p.f2) (hG : Taylor2 G p.g1 p.g2)
    (Y_ss : Fin nx → Fin ns → Fin ns → K) (Y_tt : Fin nx → K)
    (hφ : Taylor2 φ (ruleD1 X_s) (ruleD2 Y_ss Y_tt))
    {D : Type} [Fintype D] (w : D → K) (ε : D → Fin ne → K) (hε : Shocks w ε p.sigma)
    (hres : ∀ (h : Fin ns → K) (μ : K) (i : Fin nx),
      X ^ 3 ∣ ∑ d, C (w d) * pathResidual F G φ (fun a => C (h a) * X) (C μ * X) (fun k => C (μ * ε d k) * X) i) :
    (∀ (i : Fin nx) (h : Fin ns → K), ∑ a, ∑ b, Y_ss i a b * h a * h b = ∑ a, ∑ b, p.Xss X_s lsolve i a b * h a * h b) ∧ Y_tt = X_tt := by
  set X_ss := p.Xss X_s lsolve with hXss
  have htt : L1 (p.Ltt X_s) X_tt + p.Ktt X_s X_ss = 0 := Xtt_eq p hsolve hX
  have h2 : ∀ (h : Fin ns → K) (μ : K), (1 / 2 : K) • (L1 (p.sylA X_s) (L2 Y_ss h h)
        + L1 p.f_X (L2 Y_ss (L1 (p.V1_3 X_s) h) (L1 (p.V1_3 X_s) h)) + L2 (p.D2 X_s) h h)
      + (μ ^ 2 / 2) • (L1 (p.Ltt X_s) Y_tt + p.Ktt X_s Y_ss) = 0 := by
    intro h μ
    funext i
    have h0 := X_pow_dvd_iff.1 (hres h μ i) 2 (by norm_num)
    rw [coeff_expect] at h0
    have hc := fun d => path_coeffs p X_s hF hG hsym hφ h μ (ε d)
    simp only at hc
    simp only [(hc _).2.2, smul_add, Finset.sum_add_distrib] at h0
    have e2 := expect_lin p hε (μ • crossM p X_s Y_ss h)
    simp only [LinearMap.smul_apply] at e2
    have e3 : ∑ d, w d • (μ ^ 2 / 2) • kRisk p X_s Y_ss (ε d) = (μ ^ 2 / 2) • p.Ktt X_s Y_ss := by
      rw [← Ktt_eq p X_s Y_ss hε, Finset.smul_sum]
      exact Finset.sum_congr rfl fun d _ => smul_comm _ _ _
    rw [e2, e3, add_zero] at h0
    simp only [← Finset.sum_smul, hε.total, one_smul] at h0
    rw [Pi.zero_apply, ← h0]
    simp only [smul_add]
  have hq : ∀ h, L2 Y_ss h h = L2 X_ss h h := by
    intro h
    have hadd : ∀ u v, L2 (fun i a b => Y_ss i a b + (-1) * X_ss i a b) u v = L2 Y_ss u v + (-1 : K) • L2 X_ss u v := by
      intro u v
      rw [L2_addT Y_ss (fun i a b => (-1) * X_ss i a b), L2_mulT]
    have := quadratic_zero hreg (fun i a b => Y_ss i a b + (-1) * X_ss i a b) (fun h => by
      have a1 := h2 h 0
      have a2 : L1 (p.sylA X_s) (L2 X_ss h h) + L1 p.f_X (L2 X_ss (L1 (p.V1_3 X_s) h) (L1 (p.V1_3 X_s) h))
          + L2 (p.D2 X_s) h h = 0 := sylvester2_spec lsolve hlsolve (p.D2 X_s) hreg h h
      rw [zero_pow two_ne_zero, zero_div, zero_smul, add_zero] at a1
      have a3 := (smul_eq_zero.1 a1).resolve_left (by norm_num)
      rw [hadd, hadd, map_add, map_add, map_smul, map_smul]
      calc _ = (L1 (p.sylA X_s) (L2 Y_ss h h) + L1 p.f_X (L2 Y_ss (L1 (p.V1_3 X_s) h) (L1 (p.V1_3 X_s) h))
              + L2 (p.D2 X_s) h h)
            - (L1 (p.sylA X_s) (L2 X_ss h h) + L1 p.f_X (L2 X_ss (L1 (p.V1_3 X_s) h) (L1 (p.V1_3 X_s) h))
              + L2 (p.D2 X_s) h h) := by module
        _ = 0 := by rw [a2, a3, sub_zero]) h
    rw [hadd, neg_one_smul, ← sub_eq_add_neg, sub_eq_zero] at this
    exact this
  refine ⟨fun i h => congrFun (hq h) i, ?_⟩
  have hK : p.Ktt X_s Y_ss = p.Ktt X_s X_ss := by
    rw [← Ktt_eq p X_s Y_ss hε, ← Ktt_eq p X_s X_ss hε]
    exact Finset.sum_congr rfl fun d _ => by rw [kRisk, kRisk, hq]
  have a1 := h2 0 1
  simp only [map_zero, add_zero, smul_zero, zero_add] at a1
  have a2 := (smul_eq_zero.1 a1).resolve_left (by norm_num)
  have := hinj (Y_tt - X_tt) (by
    have e : (Matrix.of (p.Ltt X_s)).mulVec (Y_tt - X_tt) = L1 (p.Ltt X_s) (Y_tt - X_tt) := rfl
    rw [e, map_sub, sub_eq_zero]
    rw [hK] at a2
    exact add_right_cancel (a2.trans htt.symm))
  exact sub_eq_zero.1 this

private theorem mixed_zero {A B : Fin nx → Fin nx → K} {C' : Fin ns → Fin ns → K} (hreg : RegularN 1 A B C')
    (c : Fin nx → Fin ns → K) (h : ∀ u, L1 A (L1 c u) + L1 B (L1 c (L1 C' u)) = 0) : c = 0 := by
  have := hreg (fun i j => c i (j 0)) fun i j => by
    have h1 := congrFun (h (Pi.single (j 0) 1)) i
    rw [L1_single, L1_single] at h1
    have h2 : ∀ k, ∑ l : Fin 1 → Fin ns, c k (l 0) * ∏ t, C' (l t) (j t) = ∑ l, c k l * C' l (j 0) := fun k => by
      refine Fintype.sum_equiv (Equiv.funUnique (Fin 1) (Fin ns)) _ _ fun l => ?_
      rw [Fin.prod_univ_one]
      rfl
    simp only [h2]
    exact h1
  funext i a
  exact congrFun (congrFun this i) fun _ => a

/-- **C36, certainty equivalence.**  Let a rule `φ(s, λ)` have the first-order terms `X_s` in the states, any first-order term
`y` in the scale of risk and any second-order terms `Y`.  If it solves the model up to second order in every direction of
states and risk, then `y = 0`, there are no mixed terms of states and risk, and the other second-order terms are those that
`state_perturb` computes. -/
theorem C36_certainty_equivalence [CharZero K] (solve : MatSolver K) (hsolve : ∀ n m M R X, solve n m M R = .ok X → M * X = R)
    (lsolve : LinSolver K) (hlsolve : lsolve.Correct) (hsym : ∀ i a b, p.g2 i a b = p.g2 i b a)
    (X_s : Fin nx → Fin ns → K)
    (hreg1 : RegularN 1 (p.sylA X_s) p.f_X (p.V1_3 X_s))
    (hreg : RegularN 2 (p.sylA X_s) p.f_X (p.V1_3 X_s)) (hinj : ∀ v, (Matrix.of (p.Ltt X_s)).mulVec v = 0 → v = 0)
    (X_tt : Fin nx → K) (hX : p.Xtt X_s solve (p.Xss X_s lsolve) = .ok X_tt)
    (F : (ZIdx ns nx → K⟦X⟧) → Fin nx → K⟦X⟧) (G : (MIdx ns nx ne → K⟦X⟧) → Fin ns → K⟦X⟧)
    (φ : (Fin ns ⊕ Unit → K⟦X⟧) → Fin nx → K⟦X⟧) (hF : Taylor2 F p.f1 p.f2) (hG : Taylor2 G p.g1 p.g2)
    (y : Fin nx → K) (Y : Fin nx → (Fin ns ⊕ Unit) → (Fin ns ⊕ Unit) → K)
    (hφ : Taylor2 φ (fun i => Sum.elim (X_s i) fun _ => y i) Y)
    {D : Type} [Fintype D] (w : D → K) (ε : D → Fin ne → K) (hε : Shocks w ε p.sigma)
    (hres : ∀ (h : Fin ns → K) (μ : K) (i : Fin nx),
      X ^ 3 ∣ ∑ d, C (w d) * pathResidual F G φ (fun a => C (h a) * X) (C μ * X) (fun k => C (μ * ε d k) * X) i) :
    y = 0 ∧ (∀ i a, Y i (.inl a) (.inr ()) + Y i (.inr ()) (.inl a) = 0) ∧
      (∀ (i : Fin nx) (h : Fin ns → K), ∑ a, ∑ b, Y i (.inl a) (.inl b) * h a * h b
        = ∑ a, ∑ b, p.Xss X_s lsolve i a b * h a * h b) ∧ ∀ i, Y i (.inr ()) (.inr ()) = X_tt i := by
  have hy : y = 0 := by
    refine hinj y ?_
    change L1 (p.Ltt X_s) y = 0
    funext i
    have h0 := X_pow_dvd_iff.1 (hres 0 1 i) 1 (by norm_num)
    rw [coeff_expect] at h0
    simp only [path_first p X_s hF hG hφ, smul_add, Finset.sum_add_distrib] at h0
    rw [expect_lin p hε, add_zero, ← Finset.sum_smul, hε.total, one_smul] at h0
    exact h0
  subst hy
  have hD1 : (fun i => Sum.elim (X_s i) fun _ => (0 : Fin nx → K) i) = ruleD1 X_s := by
    funext i j
    rcases j with j | j <;> rfl
  rw [hD1] at hφ
  have key : ∀ (h : Fin ns → K) (μ : K),
      (1 / 2 : K) • (L1 (p.sylA X_s) (L2 (fun i a b => Y i (.inl a) (.inl b)) h h)
        + L1 p.f_X (L2 (fun i a b => Y i (.inl a) (.inl b)) (L1 (p.V1_3 X_s) h) (L1 (p.V1_3 X_s) h)) + L2 (p.D2 X_s) h h)
      + (μ ^ 2 / 2) • (L1 (p.Ltt X_s) (fun i => Y i (.inr ()) (.inr ())) + p.Ktt X_s fun i a b => Y i (.inl a) (.inl b))
      + (μ / 2) • (L1 (p.sylA X_s) (L1 (mixed Y) h) + L1 p.f_X (L1 (mixed Y) (L1 (p.V1_3 X_s) h))) = 0 := by
    intro h μ
    funext i
    have h0 := X_pow_dvd_iff.1 (hres h μ i) 2 (by norm_num)
    rw [coeff_expect] at h0
    have hc := fun d => path_coeffs_cross p X_s hF hG hsym hφ h μ (ε d)
    simp only at hc
    simp only [hc, smul_add, Finset.sum_add_distrib] at h0
    have e2 := expect_lin p hε (μ • crossM p X_s (fun i a b => Y i (.inl a) (.inl b)) h)
    simp only [LinearMap.smul_apply] at e2
    have e4 := expect_lin p hε ((μ ^ 2 / 2) • (L1 p.f_X ∘ₗ L1 (mixed Y) ∘ₗ L1 p.g_e))
    simp only [LinearMap.smul_apply] at e4
    have e3 : ∑ d, w d • (μ ^ 2 / 2) • kRisk p X_s (fun i a b => Y i (.inl a) (.inl b)) (ε d)
        = (μ ^ 2 / 2) • p.Ktt X_s (fun i a b => Y i (.inl a) (.inl b)) := by
      rw [← Ktt_eq p X_s _ hε, Finset.smul_sum]
      exact Finset.sum_congr rfl fun d _ => smul_comm _ _ _
    rw [e2, e3, e4, add_zero, add_zero] at h0
    simp only [← Finset.sum_smul, hε.total, one_smul] at h0
    rw [Pi.zero_apply, ← h0]
    simp only [smul_add]
  have hm : mixed Y = 0 := by
    refine mixed_zero hreg1 (mixed Y) fun u => ?_
    have a1 := key u 1
    have a2 := key u (-1)
    have a3 := congrArg₂ (· - ·) a1 a2
    simp only [sub_zero] at a3
    rw [← a3]
    module
  have hmix : ∀ i a, Y i (.inl a) (.inr ()) + Y i (.inr ()) (.inl a) = 0 := fun i a => congrFun (congrFun hm i) a
  have hφ' : Taylor2 φ (ruleD1 X_s) (ruleD2 (fun i a b => Y i (.inl a) (.inl b)) fun i => Y i (.inr ()) (.inr ())) := by
    intro z hz i
    have := hφ z hz i
    convert this using 4
    simp only [Fintype.sum_sum_type, ruleD2, Finset.univ_unique, Finset.sum_singleton, map_zero, zero_mul, add_zero,
      Finset.sum_const_zero, zero_add, Finset.sum_add_distrib]
    have e : ∑ x, C (Y i (.inr ()) (.inl x)) * (z (.inr ()) * z (.inl x)) + ∑ x, C (Y i (.inl x) (.inr ())) * (z (.inl x) * z (.inr ())) = 0 := by
      rw [← Finset.sum_add_distrib]
      refine Finset.sum_eq_zero fun x _ => ?_
      rw [mul_comm (z (.inr ())) (z (.inl x)), ← add_mul, ← map_add, add_comm (Y i _ _), hmix, map_zero, zero_mul]
    change _ + _ = _ + ∑ x, C (Y i (.inr ()) (.inl x)) * (z (.inr ()) * z (.inl x))
      + (∑ x, C (Y i (.inl x) (.inr ())) * (z (.inl x) * z (.inr ())) + _)
    rw [add_assoc, ← add_assoc (∑ x, C (Y i (.inr ()) (.inl x)) * _), e, zero_add]
  obtain ⟨b1, b2⟩ := C36_second_unique p solve hsolve lsolve hlsolve hsym X_s hreg hinj X_tt hX F G φ hF hG _ _ hφ' w ε hε hres
  exact ⟨rfl, hmix, b1, fun i => congrFun b2 i⟩

/-- **C36, uniqueness at second order without risk.**  If a rule with the first-order terms `X_s` solves the model without
shocks up to second order along every direction of the states, its second-order terms are those that `state_perturb`
computes. -/
theorem C36_second_unique_certain [CharZero K] (lsolve : LinSolver K) (hlsolve : lsolve.Correct)
    (hsym : ∀ i a b, p.g2 i a b = p.g2 i b a) (X_s : Fin nx → Fin ns → K)
    (hreg : RegularN 2 (p.sylA X_s) p.f_X (p.V1_3 X_s))
    (F : (ZIdx ns nx → K⟦X⟧) → Fin nx → K⟦X⟧) (G : (MIdx ns nx ne → K⟦X⟧) → Fin ns → K⟦X⟧)
    (φ : (Fin ns ⊕ Unit → K⟦X⟧) → Fin nx → K⟦X⟧) (hF : Taylor2 F p.f1 p.f2) (hG : Taylor2 G p.g1 p.g2)
    (Y_ss : Fin nx → Fin ns → Fin ns → K) (Y_tt : Fin nx → K) (hφ : Taylor2 φ (ruleD1 X_s) (ruleD2 Y_ss Y_tt))
    (hres : ∀ (h : Fin ns → K) (i : Fin nx), X ^ 3 ∣ pathResidual F G φ (fun a => C (h a) * X) 0 (fun _ => 0) i)
    (i : Fin nx) (h : Fin ns → K) :
    ∑ a, ∑ b, Y_ss i a b * h a * h b = ∑ a, ∑ b, p.Xss X_s lsolve i a b * h a * h b := by
  set X_ss := p.Xss X_s lsolve with hXss
  have h2 : ∀ h : Fin ns → K, L1 (p.sylA X_s) (L2 Y_ss h h)
        + L1 p.f_X (L2 Y_ss (L1 (p.V1_3 X_s) h) (L1 (p.V1_3 X_s) h)) + L2 (p.D2 X_s) h h = 0 := by
    intro h
    have hc := path_coeffs p X_s hF hG hsym hφ h 0 0
    simp only [map_zero, zero_mul, zero_smul, add_zero, zero_pow two_ne_zero, zero_div] at hc
    refine (smul_eq_zero.1 (hc.2.2.symm.trans ?_)).resolve_left (by norm_num : (1 / 2 : K) ≠ 0)
    funext j
    exact X_pow_dvd_iff.1 (hres h j) 2 (by norm_num)
  have hadd : ∀ u v, L2 (fun i a b => Y_ss i a b + (-1) * X_ss i a b) u v = L2 Y_ss u v + (-1 : K) • L2 X_ss u v := by
    intro u v
    rw [L2_addT Y_ss (fun i a b => (-1) * X_ss i a b), L2_mulT]
  have := quadratic_zero hreg (fun i a b => Y_ss i a b + (-1) * X_ss i a b) (fun h => by
    have a2 : L1 (p.sylA X_s) (L2 X_ss h h) + L1 p.f_X (L2 X_ss (L1 (p.V1_3 X_s) h) (L1 (p.V1_3 X_s) h))
        + L2 (p.D2 X_s) h h = 0 := sylvester2_spec lsolve hlsolve (p.D2 X_s) hreg h h
    rw [hadd, hadd, map_add, map_add, map_smul, map_smul]
    calc _ = (L1 (p.sylA X_s) (L2 Y_ss h h) + L1 p.f_X (L2 Y_ss (L1 (p.V1_3 X_s) h) (L1 (p.V1_3 X_s) h))
            + L2 (p.D2 X_s) h h)
          - (L1 (p.sylA X_s) (L2 X_ss h h) + L1 p.f_X (L2 X_ss (L1 (p.V1_3 X_s) h) (L1 (p.V1_3 X_s) h))
            + L2 (p.D2 X_s) h h) := by module
      _ = 0 := by rw [a2, h2 h, sub_zero]) h
  rw [hadd, neg_one_smul, ← sub_eq_add_neg, sub_eq_zero] at this
  exact congrFun this i

end second

/-! ### Third order: helpers -/

section third
variable {I A B E P Q R : Type} [Fintype A] [Fintype B] [Fintype E] [DecidableEq A] [DecidableEq B] [DecidableEq E]

private structure IsTri (f : (A → K) → (B → K) → (E → K) → (I → K)) : Prop where
  add1 : ∀ u u' v w, f (u + u') v w = f u v w + f u' v w
  smul1 : ∀ (c : K) u v w, f (c • u) v w = c • f u v w
  add2 : ∀ u v v' w, f u (v + v') w = f u v w + f u v' w
  smul2 : ∀ (c : K) u v w, f u (c • v) w = c • f u v w
  add3 : ∀ u v w w', f u v (w + w') = f u v w + f u v w'
  smul3 : ∀ (c : K) u v w, f u v (c • w) = c • f u v w

private def IsTri.map {f : (A → K) → (B → K) → (E → K) → (I → K)} (h : IsTri f) :
    (A → K) →ₗ[K] (B → K) →ₗ[K] (E → K) →ₗ[K] (I → K) where
  toFun u := LinearMap.mk₂ K (f u) (fun v v' w => h.add2 u v v' w) (fun c v w => h.smul2 c u v w)
    (fun v w w' => h.add3 u v w w') (fun c v w => h.smul3 c u v w)
  map_add' u u' := by
    refine LinearMap.ext fun v => LinearMap.ext fun w => ?_
    exact h.add1 u u' v w
  map_smul' c u := by
    refine LinearMap.ext fun v => LinearMap.ext fun w => ?_
    exact h.smul1 c u v w

private theorem tri_eq (T : I → A → B → E → K) {f : (A → K) → (B → K) → (E → K) → (I → K)} (hf : IsTri f)
    (h : ∀ a b c, f (Pi.single a 1) (Pi.single b 1) (Pi.single c 1) = fun i => T i a b c)
    (u : A → K) (v : B → K) (w : E → K) : L3 T u v w = f u v w := by
  have : L3 T = hf.map := by
    refine tri_ext fun a b c => ?_
    rw [L3_single, ← h]
    rfl
  rw [this]
  rfl

variable {ns nx ne : ℕ} (p : Problem ns nx ne K) (X_s : Fin nx → Fin ns → K)
  (X_ss : Fin nx → Fin ns → Fin ns → K) (X_sss : Fin nx → Fin ns → Fin ns → Fin ns → K) (X_tt : Fin nx → K)

private theorem map_V2_3 (u v : Fin ns → K) :
    L2 (p.V2_3 X_s X_ss) u v = L2 (p.K2 X_s) u v + L1 p.g_x (L2 X_ss u v) := by
  unfold Problem.V2_3
  rw [L2_addT, L2_post]

private theorem map_K3 (u v w : Fin ns → K) :
    L3 (p.K3 X_s X_ss) u v w = L3 p.g_sss u v w + (3 : K) • L3 p.g_ssx u v (L1 X_s w)
      + (3 : K) • L3 p.g_sxx u (L1 X_s v) (L1 X_s w) + (2 : K) • L2 p.g_sx u (L2 X_ss v w)
      + ((3 : K) • L2 p.g_xx (L2 X_ss u v) (L1 X_s w) + L3 p.g_xxx (L1 X_s u) (L1 X_s v) (L1 X_s w)) := by
  refine tri_eq (p.K3 X_s X_ss) (f := fun u v w => L3 p.g_sss u v w + (3 : K) • L3 p.g_ssx u v (L1 X_s w)
      + (3 : K) • L3 p.g_sxx u (L1 X_s v) (L1 X_s w) + (2 : K) • L2 p.g_sx u (L2 X_ss v w)
      + ((3 : K) • L2 p.g_xx (L2 X_ss u v) (L1 X_s w) + L3 p.g_xxx (L1 X_s u) (L1 X_s v) (L1 X_s w)))
    ?_ ?_ u v w
  · constructor <;> intros <;>
      simp only [map_add, map_smul, LinearMap.add_apply, LinearMap.smul_apply] <;> module
  · intro a b c
    funext i
    simp only [L3_single, L2_single, L1_single, Pi.add_apply, Pi.smul_apply, smul_eq_mul, L2_apply, L3_apply,
      c2_single_left]
    simp [Problem.K3, c3, c2, c1, Pi.single_apply]

private theorem map_D3 (u v w : Fin ns → K) :
    L3 (p.D3 X_s X_ss) u v w = L3 p.f3 (L1 (p.V1 X_s) u) (L1 (p.V1 X_s) v) (L1 (p.V1 X_s) w)
      + (3 : K) • L2 p.f2 (L2 (p.V2 X_s X_ss) u v) (L1 (p.V1 X_s) w) + L1 (p.fS X_s) (L3 (p.K3 X_s X_ss) u v w)
      + L1 p.f_X ((3 : K) • L2 X_ss (L1 (p.V1_3 X_s) u) (L2 (p.V2_3 X_s X_ss) v w)) := by
  refine tri_eq (p.D3 X_s X_ss) (f := fun u v w =>
    L3 p.f3 (L1 (p.V1 X_s) u) (L1 (p.V1 X_s) v) (L1 (p.V1 X_s) w)
      + (3 : K) • L2 p.f2 (L2 (p.V2 X_s X_ss) u v) (L1 (p.V1 X_s) w) + L1 (p.fS X_s) (L3 (p.K3 X_s X_ss) u v w)
      + L1 p.f_X ((3 : K) • L2 X_ss (L1 (p.V1_3 X_s) u) (L2 (p.V2_3 X_s X_ss) v w))) ?_ ?_ u v w
  · constructor <;> intros <;>
      simp only [map_add, map_smul, LinearMap.add_apply, LinearMap.smul_apply, smul_add] <;> module
  · intro a b c
    funext i
    simp only [L3_single, L2_single, L1_single, Pi.add_apply, Pi.smul_apply, smul_eq_mul, L2_apply, L3_apply,
      L1_apply, Problem.D3, Problem.L3]
    rfl

private theorem map_ruleD3 (X_stt : Fin nx → Fin ns → K) (s : Fin ns → K) (l : Unit → K) :
    L3 (ruleD3 X_sss X_stt) (Sum.elim s l) (Sum.elim s l) (Sum.elim s l)
      = L3 X_sss s s s + (3 * l () ^ 2) • L1 X_stt s := by
  funext i
  simp only [L3_apply, c3, Fintype.sum_sum_type, ruleD3, Sum.elim_inl, Sum.elim_inr, Pi.add_apply, Pi.smul_apply,
    L1_apply, c1, smul_eq_mul, Finset.mul_sum]
  simp only [Finset.univ_unique, Finset.sum_singleton, zero_mul, Finset.sum_const_zero, add_zero, zero_add,
    Finset.sum_add_distrib]
  rw [add_assoc, ← Finset.sum_add_distrib, ← Finset.sum_add_distrib]
  congr 1
  apply Finset.sum_congr rfl
  intro a _
  ring

/-- Arguments of `f` of which only the next ones move. -/
private def nextDir (v : Fin ns ⊕ Fin nx → K) : ZIdx ns nx → K := Sum.elim (0 : Fin ns ⊕ Fin nx → K) v

private theorem f2_next (u v : Fin ns ⊕ Fin nx → K) :
    L2 (fun i b c => p.f2 i (.inr b) (.inr c)) u v = L2 p.f2 (nextDir u) (nextDir v) := by
  funext i
  simp [L2_apply, c2, Fintype.sum_sum_type, nextDir]

private theorem f2_half (u : ZIdx ns nx → K) (v : Fin ns ⊕ Fin nx → K) :
    L2 (fun i z c => p.f2 i z (.inr c)) u v = L2 p.f2 u (nextDir v) := by
  funext i
  simp [L2_apply, c2, Fintype.sum_sum_type, nextDir]

private theorem f3_next (u : ZIdx ns nx → K) (v w : Fin ns ⊕ Fin nx → K) :
    L3 (fun i z b c => p.f3 i z (.inr b) (.inr c)) u v w = L3 p.f3 u (nextDir v) (nextDir w) := by
  funext i
  simp [L3_apply, c3, Fintype.sum_sum_type, nextDir]

private theorem nextDir_W (e : Fin ne → K) : nextDir (L1 (p.W X_s) e) = shockDir p X_s e := by
  rw [shockDir_apply]
  funext z
  rcases z with (i | j) | (i | j)
  · rfl
  · rfl
  · rfl
  · exact congrFun (L1_comp X_s p.g_e e) j

private theorem map_Vsl (u : Fin ns → K) (e : Fin ne → K) :
    L2 (p.Vsl X_s) u e = L2 p.g_se u e + L2 p.g_xe (L1 X_s u) e := by
  unfold Problem.Vsl
  rw [L2_addT, L2_comp]
  congr 2
  funext i
  simp [L1_apply, c1]

private theorem map_Wsl (u : Fin ns → K) (e : Fin ne → K) :
    nextDir (L2 (p.Wsl X_s X_ss) u e) = Sum.elim (Sum.elim (0 : Fin ns → K) (0 : Fin nx → K))
      (Sum.elim (L2 (p.Vsl X_s) u e)
        (L2 X_ss (L1 (p.V1_3 X_s) u) (L1 p.g_e e) + L1 X_s (L2 (p.Vsl X_s) u e))) := by
  funext z
  rcases z with (i | j) | (i | j)
  · rfl
  · rfl
  · rfl
  · have h1 := congrFun (L2_comp X_ss (p.V1_3 X_s) p.g_e u e) j
    have h2 := congrFun (L2_post X_s (p.Vsl X_s) u e) j
    have h3 := congrFun (L2_addT (fun j a e => c2 (X_ss j) (fun k => p.V1_3 X_s k a) fun k => p.g_e k e)
      (fun j a e => c1 (X_s j) fun k => p.Vsl X_s k a e) u e) j
    simp only [Pi.add_apply] at h3
    rw [h1, h2] at h3
    exact h3

private theorem map_SWll (e e' : Fin ne → K) :
    nextDir (L2 (p.SWll X_s X_ss) e e') = Sum.elim (Sum.elim (0 : Fin ns → K) (0 : Fin nx → K))
      (Sum.elim (L2 p.g_ee e e') (L2 X_ss (L1 p.g_e e) (L1 p.g_e e') + L1 X_s (L2 p.g_ee e e'))) := by
  funext z
  rcases z with (i | j) | (i | j)
  · rfl
  · rfl
  · rfl
  · have h1 := congrFun (L2_comp X_ss p.g_e p.g_e e e') j
    have h2 := congrFun (L2_post X_s p.g_ee e e') j
    have h3 := congrFun (L2_addT (fun j a e => c2 (X_ss j) (fun k => p.g_e k a) fun k => p.g_e k e)
      (fun j a e => c1 (X_s j) fun k => p.g_ee k a e) e e') j
    simp only [Pi.add_apply] at h3
    rw [h1, h2] at h3
    exact h3

private theorem map_DWll : p.DWll X_s X_tt = Sum.elim (Sum.elim (0 : Fin ns → K) X_tt)
    (Sum.elim (L1 p.g_x X_tt) (L1 X_s (L1 p.g_x X_tt) + X_tt)) := by
  funext z
  rcases z with (i | j) | (i | j) <;> rfl

private theorem expect_L3 {J D : Type} [Fintype D] {w : D → K} {ε : D → Fin ne → K}
    (hε : Shocks w ε p.sigma) (T : J → Fin ns → Fin ne → Fin ne → K) (h : Fin ns → K) :
    ∑ d, w d • L3 T h (ε d) (ε d) = L1 (fun i a => p.expect (T i a)) h := by
  have : ∀ d, L3 T h (ε d) (ε d) = L2 (fun i e e' => ∑ a, T i a e e' * h a) (ε d) (ε d) := fun d => rfl
  simp only [this]
  rw [expect_L2 p hε]
  funext i
  simp only [Problem.expect, L1_apply, c1, Finset.sum_mul]
  symm
  rw [Finset.sum_comm]
  apply Finset.sum_congr rfl
  intro e _
  rw [Finset.sum_comm]
  apply Finset.sum_congr rfl
  intro e' _
  apply Finset.sum_congr rfl
  intro a _
  ring

/-- The right-hand side `D` of the equation for `X_stt`, before the expectation. -/
private noncomputable def dRisk (h : Fin ns → K) (e : Fin ne → K) : Fin nx → K :=
  L3 p.f3 (L1 (p.V1 X_s) h) (shockDir p X_s e) (shockDir p X_s e)
    + (2 : K) • L2 p.f2 (nextDir (L2 (p.Wsl X_s X_ss) h e)) (shockDir p X_s e)
    + L2 p.f2 (L1 (p.V1 X_s) h) (nextDir (L2 (p.SWll X_s X_ss) e e))
    + L2 p.f2 (L1 (p.V1 X_s) h) (p.DWll X_s X_tt)
    + L1 (p.fS X_s) (L2 p.g_sx h X_tt + L2 p.g_xx (L1 X_s h) X_tt + (L3 p.g_see h e e + L3 p.g_xee (L1 X_s h) e e))
    + L1 p.f_X (L3 X_sss (L1 (p.V1_3 X_s) h) (L1 p.g_e e) (L1 p.g_e e)
      + (2 : K) • L2 X_ss (L2 (p.Vsl X_s) h e) (L1 p.g_e e)
      + L2 X_ss (L1 (p.V1_3 X_s) h) (L2 p.g_ee e e + L1 p.g_x X_tt))

private theorem map_TK (u : Fin ns → K) (e e' : Fin ne → K) :
    L3 (fun i a e e' => c3 (fun z b c => p.f3 i z (.inr b) (.inr c)) (fun z => p.V1 X_s z a)
          (fun b => p.W X_s b e) (fun b => p.W X_s b e')
        + 2 * c2 (fun b c => p.f2 i (.inr b) (.inr c)) (fun b => p.Wsl X_s X_ss b a e) (fun b => p.W X_s b e')
        + c2 (fun z b => p.f2 i z (.inr b)) (fun z => p.V1 X_s z a) fun b => p.SWll X_s X_ss b e e') u e e'
      = L3 p.f3 (L1 (p.V1 X_s) u) (shockDir p X_s e) (shockDir p X_s e')
        + (2 : K) • L2 p.f2 (nextDir (L2 (p.Wsl X_s X_ss) u e)) (shockDir p X_s e')
        + L2 p.f2 (L1 (p.V1 X_s) u) (nextDir (L2 (p.SWll X_s X_ss) e e')) := by
  rw [← nextDir_W, ← nextDir_W, ← f3_next, ← f2_next, ← f2_half]
  refine tri_eq _ (f := fun u e e' =>
    L3 (fun i z b c => p.f3 i z (.inr b) (.inr c)) (L1 (p.V1 X_s) u) (L1 (p.W X_s) e) (L1 (p.W X_s) e')
      + (2 : K) • L2 (fun i b c => p.f2 i (.inr b) (.inr c)) (L2 (p.Wsl X_s X_ss) u e) (L1 (p.W X_s) e')
      + L2 (fun i z c => p.f2 i z (.inr c)) (L1 (p.V1 X_s) u) (L2 (p.SWll X_s X_ss) e e')) ?_ ?_ u e e'
  · constructor <;> intros <;>
      simp only [map_add, map_smul, LinearMap.add_apply, LinearMap.smul_apply, smul_add] <;> module
  · intro a b c
    funext i
    simp only [L2_single, L1_single, Pi.add_apply, Pi.smul_apply, smul_eq_mul, L2_apply, L3_apply]

private theorem map_TL (u : Fin ns → K) (e e' : Fin ne → K) :
    L3 (fun i a e e' => p.g_see i a e e'
      + c3 (p.g_xee i) (fun x => X_s x a) (fun d => if d = e then 1 else 0) fun d => if d = e' then 1 else 0) u e e'
      = L3 p.g_see u e e' + L3 p.g_xee (L1 X_s u) e e' := by
  refine tri_eq _ (f := fun u e e' => L3 p.g_see u e e' + L3 p.g_xee (L1 X_s u) e e') ?_ ?_ u e e'
  · constructor <;> intros <;>
      simp only [map_add, map_smul, LinearMap.add_apply, LinearMap.smul_apply, smul_add] <;> module
  · intro a b c
    funext i
    simp only [L3_single, L1_single, Pi.add_apply, L3_apply]
    congr 2
    · funext d; simp [Pi.single_apply]
    · funext d; simp [Pi.single_apply]

private theorem map_TM (u : Fin ns → K) (e e' : Fin ne → K) :
    L3 (fun j a e e' => c3 (X_sss j) (fun k => p.V1_3 X_s k a) (fun k => p.g_e k e) (fun k => p.g_e k e')
      + 2 * c2 (X_ss j) (fun k => p.Vsl X_s k a e) fun k => p.g_e k e') u e e'
      = L3 X_sss (L1 (p.V1_3 X_s) u) (L1 p.g_e e) (L1 p.g_e e')
      + (2 : K) • L2 X_ss (L2 (p.Vsl X_s) u e) (L1 p.g_e e') := by
  refine tri_eq _ (f := fun u e e' => L3 X_sss (L1 (p.V1_3 X_s) u) (L1 p.g_e e) (L1 p.g_e e')
      + (2 : K) • L2 X_ss (L2 (p.Vsl X_s) u e) (L1 p.g_e e')) ?_ ?_ u e e'
  · constructor <;> intros <;>
      simp only [map_add, map_smul, LinearMap.add_apply, LinearMap.smul_apply, smul_add] <;> module
  · intro a b c
    funext i
    simp only [L2_single, L1_single, Pi.add_apply, Pi.smul_apply, smul_eq_mul, L2_apply, L3_apply]

private theorem L2_vec {J A' B' : Type} [Fintype A'] [Fintype B'] (T : J → A' → B' → K) (M : A' → Fin ns → K)
    (x : B' → K) (u : Fin ns → K) :
    L1 (fun i a => c2 (T i) (fun k => M k a) x) u = L2 T (L1 M u) x := by
  have : L1 (fun i a => c2 (T i) (fun k => M k a) x) = (L2 T).flip x ∘ₗ L1 M := by
    refine lin_ext fun a => ?_
    funext i
    simp only [L1_single, LinearMap.comp_apply, LinearMap.flip_apply, L2_apply]
  rw [this]
  rfl

private theorem L2_vec' {J B' : Type} [Fintype B'] (T : J → Fin ns → B' → K)
    (x : B' → K) (u : Fin ns → K) :
    L1 (fun i a => c1 (T i a) x) u = L2 T u x := by
  have : L1 (fun i a => c1 (T i a) x) = (L2 T).flip x := by
    refine lin_ext fun a => ?_
    funext i
    simp only [L1_single, LinearMap.flip_apply, L2_apply]
    simp [c1, c2, Pi.single_apply]
  rw [this]
  rfl

private theorem Dst_eq {D : Type} [Fintype D] {w : D → K} {ε : D → Fin ne → K} (hε : Shocks w ε p.sigma)
    (h : Fin ns → K) :
    ∑ d, w d • dRisk p X_s X_ss X_sss X_tt h (ε d) = L1 (p.Dst X_s X_ss X_sss X_tt) h := by
  have eK : L1 (p.Kst X_s X_ss X_tt) h = ∑ d, w d • (L3 p.f3 (L1 (p.V1 X_s) h) (shockDir p X_s (ε d)) (shockDir p X_s (ε d))
        + (2 : K) • L2 p.f2 (nextDir (L2 (p.Wsl X_s X_ss) h (ε d))) (shockDir p X_s (ε d))
        + L2 p.f2 (L1 (p.V1 X_s) h) (nextDir (L2 (p.SWll X_s X_ss) (ε d) (ε d))))
      + L2 p.f2 (L1 (p.V1 X_s) h) (p.DWll X_s X_tt) := by
    unfold Problem.Kst
    rw [L1_addT, ← expect_L3 p hε, L2_vec]
    simp only [map_TK]
  have eL : L1 (p.Lst X_s X_tt) h = L2 p.g_sx h X_tt + L2 p.g_xx (L1 X_s h) X_tt
      + ∑ d, w d • (L3 p.g_see h (ε d) (ε d) + L3 p.g_xee (L1 X_s h) (ε d) (ε d)) := by
    unfold Problem.Lst
    rw [L1_addT, L1_addT, ← expect_L3 p hε, L2_vec, L2_vec']
    simp only [map_TL]
  have eM : L1 (p.Mst X_s X_ss X_sss X_tt) h
      = ∑ d, w d • (L3 X_sss (L1 (p.V1_3 X_s) h) (L1 p.g_e (ε d)) (L1 p.g_e (ε d))
        + (2 : K) • L2 X_ss (L2 (p.Vsl X_s) h (ε d)) (L1 p.g_e (ε d)))
      + L2 X_ss (L1 (p.V1_3 X_s) h) (∑ d, w d • L2 p.g_ee (ε d) (ε d) + L1 p.g_x X_tt) := by
    unfold Problem.Mst
    rw [L1_addT, ← expect_L3 p hε, L2_vec, expect_L2 p hε]
    simp only [map_TM]
    rfl
  have eD : L1 (p.Dst X_s X_ss X_sss X_tt) h = L1 (p.Kst X_s X_ss X_tt) h + L1 (p.fS X_s) (L1 (p.Lst X_s X_tt) h)
      + L1 p.f_X (L1 (p.Mst X_s X_ss X_sss X_tt) h) := by
    unfold Problem.Dst
    rw [L1_addT, L1_addT, L1_comp, L1_comp]
  have hw : ∀ v : Fin nx → K, v = ∑ d, w d • v := fun v => by
    rw [← Finset.sum_smul, hε.total, one_smul]
  have hw' : ∀ v : Fin ns → K, v = ∑ d, w d • v := fun v => by
    rw [← Finset.sum_smul, hε.total, one_smul]
  rw [eD, eK, eL, eM, hw (L2 p.f2 (L1 (p.V1 X_s) h) (p.DWll X_s X_tt)), hw' (L2 p.g_sx h X_tt),
    hw' (L2 p.g_xx (L1 X_s h) X_tt), hw' (L1 p.g_x X_tt)]
  simp only [map_add, map_sum, ← Finset.sum_add_distrib, map_smul]
  apply Finset.sum_congr rfl
  intro d _
  unfold dRisk
  simp only [map_add, map_smul]
  module

private theorem L3_swap12 {J N : Type} [Fintype N] {T : J → N → N → N → K}
    (h : ∀ i a b c, T i a b c = T i b a c) (u v w : N → K) : L3 T u v w = L3 T v u w := by
  funext i
  simp only [L3_apply, c3]
  rw [Finset.sum_comm]
  exact Finset.sum_congr rfl fun a _ => Finset.sum_congr rfl fun b _ => Finset.sum_congr rfl fun c _ => by
    rw [h]; ring

private theorem L3_swap23 {J N : Type} [Fintype N] {T : J → N → N → N → K}
    (h : ∀ i a b c, T i a b c = T i a c b) (u v w : N → K) : L3 T u v w = L3 T u w v := by
  funext i
  simp only [L3_apply, c3]
  apply Finset.sum_congr rfl
  intro a _
  rw [Finset.sum_comm]
  exact Finset.sum_congr rfl fun b _ => Finset.sum_congr rfl fun c _ => by
    rw [h]; ring

private theorem L2_swap {J N : Type} [Fintype N] {T : J → N → N → K}
    (h : ∀ i a b, T i a b = T i b a) (u v : N → K) : L2 T u v = L2 T v u := by
  funext i
  simp only [L2_apply, c2]
  rw [Finset.sum_comm]
  exact Finset.sum_congr rfl fun a _ => Finset.sum_congr rfl fun b _ => by rw [h]; ring

/-- Even part of a cube. -/
private theorem cube_even {J N : Type} [Fintype N] {T : J → N → N → N → K}
    (h12 : ∀ i a b c, T i a b c = T i b a c) (h23 : ∀ i a b c, T i a b c = T i a c b) (μ : K) (a b : N → K) :
    L3 T (a + μ • b) (a + μ • b) (a + μ • b) + L3 T (a + (-μ) • b) (a + (-μ) • b) (a + (-μ) • b)
      = (2 : K) • L3 T a a a + (6 : K) • (μ ^ 2) • L3 T a b b := by
  have e1 : L3 T b a b = L3 T a b b := L3_swap12 h12 _ _ _
  have e2 : L3 T b b a = L3 T a b b := by rw [L3_swap23 h23, e1]
  simp only [map_add, map_smul, LinearMap.add_apply, LinearMap.smul_apply, e1, e2]
  module

private theorem cube_two {J N : Type} [Fintype N] {T : J → N → N → N → K}
    (h12 : ∀ i a b c, T i a b c = T i b a c) (h23 : ∀ i a b c, T i a b c = T i a c b) (a b : N → K) :
    L3 T (a + b) (a + b) (a + b)
      = L3 T a a a + (3 : K) • L3 T a a b + (3 : K) • L3 T a b b + L3 T b b b := by
  have e1 : L3 T b a b = L3 T a b b := L3_swap12 h12 _ _ _
  have e2 : L3 T b b a = L3 T a b b := by rw [L3_swap23 h23, e1]
  have e3 : L3 T a b a = L3 T a a b := L3_swap23 h23 _ _ _
  have e4 : L3 T b a a = L3 T a a b := by rw [L3_swap12 h12, e3]
  simp only [map_add, LinearMap.add_apply, e1, e2, e3, e4]
  module

private theorem map_g3 (h12 : ∀ i a b c, p.g3 i a b c = p.g3 i b a c) (h23 : ∀ i a b c, p.g3 i a b c = p.g3 i a c b)
    (s : Fin ns → K) (x : Fin nx → K) (μ : K) (e : Fin ne → K) :
    L3 p.g3 (Sum.elim (Sum.elim s x) (μ • e)) (Sum.elim (Sum.elim s x) (μ • e)) (Sum.elim (Sum.elim s x) (μ • e))
      + L3 p.g3 (Sum.elim (Sum.elim s x) ((-μ) • e)) (Sum.elim (Sum.elim s x) ((-μ) • e))
        (Sum.elim (Sum.elim s x) ((-μ) • e))
      = (2 : K) • (L3 p.g_sss s s s + (3 : K) • L3 p.g_ssx s s x + (3 : K) • L3 p.g_sxx s x x + L3 p.g_xxx x x x)
        + (6 : K) • (μ ^ 2) • (L3 p.g_see s e e + L3 p.g_xee x e e) := by
  let a1 : MIdx ns nx ne → K := Sum.elim (Sum.elim s (0 : Fin nx → K)) (0 : Fin ne → K)
  let a2 : MIdx ns nx ne → K := Sum.elim (Sum.elim (0 : Fin ns → K) x) (0 : Fin ne → K)
  let b : MIdx ns nx ne → K := Sum.elim (Sum.elim (0 : Fin ns → K) (0 : Fin nx → K)) e
  have d1 : ∀ μ : K, (Sum.elim (Sum.elim s x) (μ • e) : MIdx ns nx ne → K) = (a1 + a2) + μ • b := by
    intro μ
    funext z
    rcases z with (z | z) | z <;> simp [a1, a2, b]
  rw [d1, d1, cube_even h12 h23, cube_two h12 h23]
  have t1 : L3 p.g3 a1 a1 a1 = L3 p.g_sss s s s := by
    funext i; simp [L3_apply, c3, Fintype.sum_sum_type, a1, Problem.g_sss]
  have t2 : L3 p.g3 a1 a1 a2 = L3 p.g_ssx s s x := by
    funext i; simp [L3_apply, c3, Fintype.sum_sum_type, a1, a2, Problem.g_ssx]
  have t3 : L3 p.g3 a1 a2 a2 = L3 p.g_sxx s x x := by
    funext i; simp [L3_apply, c3, Fintype.sum_sum_type, a1, a2, Problem.g_sxx]
  have t4 : L3 p.g3 a2 a2 a2 = L3 p.g_xxx x x x := by
    funext i; simp [L3_apply, c3, Fintype.sum_sum_type, a2, Problem.g_xxx]
  have t5 : L3 p.g3 a1 b b = L3 p.g_see s e e := by
    funext i; simp [L3_apply, c3, Fintype.sum_sum_type, a1, b, Problem.g_see]
  have t6 : L3 p.g3 a2 b b = L3 p.g_xee x e e := by
    funext i; simp [L3_apply, c3, Fintype.sum_sum_type, a2, b, Problem.g_xee]
  simp only [map_add, LinearMap.add_apply, t1, t2, t3, t4, t5, t6]

/-- Third coefficients of the residual, for one draw of the shocks; `S1`, `S2`, ... are expressed with the maps
above. -/
private theorem path_coeff3 {F : (ZIdx ns nx → K⟦X⟧) → Fin nx → K⟦X⟧}
    {G : (MIdx ns nx ne → K⟦X⟧) → Fin ns → K⟦X⟧} {φ : (Fin ns ⊕ Unit → K⟦X⟧) → Fin nx → K⟦X⟧}
    (hF : Taylor3 F p.f1 p.f2 p.f3) (hG : Taylor3 G p.g1 p.g2 p.g3) (hsym : ∀ i a b, p.g2 i a b = p.g2 i b a)
    {X_stt : Fin nx → Fin ns → K}
    (hφ : Taylor3 φ (ruleD1 X_s) (ruleD2 X_ss X_tt) (ruleD3 X_sss X_stt)) [CharZero K]
    (h : Fin ns → K) (μ ν : K) (e : Fin ne → K) :
    let r := pathResidual F G φ (fun a => C (h a) * X) (C μ * X) (fun k => C (ν * e k) * X)
    let x1 := L1 X_s h
    let x2 := (1 / 2 : K) • (L2 X_ss h h + (μ ^ 2) • X_tt)
    let x3 := (1 / 6 : K) • L3 X_sss h h h + (μ ^ 2 / 2) • L1 X_stt h
    let S1 := L1 (p.V1_3 X_s) h + ν • L1 p.g_e e
    let S2 := L1 p.g_x x2 + (1 / 2 : K) • (L2 (p.K2 X_s) h h + (2 * ν) • L2 (p.Vsl X_s) h e + (ν ^ 2) • L2 p.g_ee e e)
    let m : MIdx ns nx ne → K := Sum.elim (Sum.elim h x1) (ν • e)
    let S3 := L1 p.g_x x3 + (L2 p.g_sx h x2 + L2 p.g_xx x2 x1 + ν • L2 p.g_xe x2 e) + (1 / 6 : K) • L3 p.g3 m m m
    let y2 := L1 X_s S2 + (1 / 2 : K) • (L2 X_ss S1 S1 + (μ ^ 2) • X_tt)
    let y3 := L1 X_s S3 + (1 / 2 : K) • (L2 X_ss S1 S2 + L2 X_ss S2 S1) + (1 / 6 : K) • L3 X_sss S1 S1 S1
      + (μ ^ 2 / 2) • L1 X_stt S1
    let z1 : ZIdx ns nx → K := L1 (p.V1 X_s) h + ν • shockDir p X_s e
    let z2 : ZIdx ns nx → K := Sum.elim (Sum.elim (0 : Fin ns → K) x2) (Sum.elim S2 y2)
    cf 3 r = L1 p.f_x x3 + L1 p.f_S S3 + L1 p.f_X y3 + (1 / 2 : K) • (L2 p.f2 z1 z2 + L2 p.f2 z2 z1)
      + (1 / 6 : K) • L3 p.f3 z1 z1 z1 := by
  intro r X1 X2 X3 T1 T2 m T3 Y2 Y3 Z1 Z2
  obtain ⟨s0, s1, s2, s3⟩ := cf_line h
  set s : Fin ns → K⟦X⟧ := fun a => C (h a) * X with hs
  obtain ⟨l0, l1, l2, l3⟩ := cf_line (fun _ : Unit => μ)
  set lam : Unit → K⟦X⟧ := fun _ => C μ * X with hlam
  obtain ⟨e0, e1, e2, e3⟩ := cf_line (fun k => ν * e k)
  set ε : Fin ne → K⟦X⟧ := fun k => C (ν * e k) * X with hε
  have e1' : cf 1 ε = ν • e := e1
  have hsxx : ∀ i a b, p.g_xx i a b = p.g_xx i b a := fun i a b => hsym _ _ _
  have hφ2 := hφ.to2
  -- the control
  set x := φ (Sum.elim s lam) with hx
  have hz0 : cf 0 (Sum.elim s lam) = 0 := by rw [cf_elim, s0, l0]; funext j; rcases j <;> rfl
  obtain ⟨x0, x1, x2⟩ := cf_taylor2 hφ2 (Sum.elim s lam) hz0
  have x3 := cf_taylor3 hφ (Sum.elim s lam) hz0
  rw [← hx] at x0 x1 x2 x3
  rw [cf_elim, s1, l1, map_ruleD1] at x1
  rw [cf_elim, cf_elim, s1, s2, l1, l2, map_ruleD1, map_ruleD2, map_zero, zero_add] at x2
  rw [cf_elim, cf_elim, cf_elim, s1, s2, s3, l1, l2, l3, map_ruleD1, map_ruleD2, map_ruleD2, map_ruleD3] at x3
  have x1' : cf 1 x = X1 := x1
  have x2' : cf 2 x = X2 := by
    rw [x2]
    simp only [X2]
    rw [← pow_two]
  have x3' : cf 3 x = X3 := by
    rw [x3]
    simp only [X3, map_zero, LinearMap.zero_apply, Pi.zero_apply, mul_zero, zero_mul, zero_smul, add_zero,
      smul_zero, zero_add]
    module
  -- the next state
  set S := G (Sum.elim (Sum.elim s x) ε) with hS
  have hm0 : cf 0 (Sum.elim (Sum.elim s x) ε) = 0 := by
    rw [cf_elim, cf_elim, s0, x0, e0]; funext j; rcases j with (j | j) | j <;> rfl
  obtain ⟨S0, S1, S2⟩ := cf_taylor2 hG.to2 (Sum.elim (Sum.elim s x) ε) hm0
  have S3 := cf_taylor3 hG (Sum.elim (Sum.elim s x) ε) hm0
  rw [← hS] at S0 S1 S2 S3
  rw [cf_elim, cf_elim, s1, x1', e1', map_g1] at S1
  rw [cf_elim, cf_elim, cf_elim, cf_elim, s1, x1', e1', s2, x2', e2, map_g1, map_g2 p hsym] at S2
  rw [cf_elim, cf_elim, cf_elim, cf_elim, cf_elim, cf_elim, s1, x1', e1', s2, x2', e2, s3, x3', e3, map_g1,
    map_g2 p hsym, map_g2 p hsym] at S3
  have S1' : cf 1 S = T1 := by
    rw [S1]
    simp only [T1, map_V1_3, map_smul, X1]
  have S2' : cf 2 S = T2 := by
    rw [S2]
    simp only [T2, map_K2, map_Vsl, map_smul, LinearMap.smul_apply, map_zero, smul_add, X1]
    module
  have S3' : cf 3 S = T3 := by
    rw [S3]
    have hxx : L2 p.g_xx X1 X2 = L2 p.g_xx X2 X1 := L2_swap hsxx _ _
    simp only [T3, m, map_smul, map_zero, LinearMap.zero_apply, hxx]
    module
  -- the next control
  set x' := φ (Sum.elim S lam) with hx'
  have hy0 : cf 0 (Sum.elim S lam) = 0 := by rw [cf_elim, S0, l0]; funext j; rcases j <;> rfl
  obtain ⟨y0, y1, y2⟩ := cf_taylor2 hφ2 (Sum.elim S lam) hy0
  have y3 := cf_taylor3 hφ (Sum.elim S lam) hy0
  rw [← hx'] at y0 y1 y2 y3
  rw [cf_elim, S1', l1, map_ruleD1] at y1
  rw [cf_elim, cf_elim, S1', S2', l1, l2, map_ruleD1, map_ruleD2] at y2
  rw [cf_elim, cf_elim, cf_elim, S1', S2', S3', l1, l2, l3, map_ruleD1, map_ruleD2, map_ruleD2, map_ruleD3] at y3
  have y2' : cf 2 x' = Y2 := by
    rw [y2]
    simp only [Y2]
    rw [← pow_two]
  have y3' : cf 3 x' = Y3 := by
    rw [y3]
    simp only [Y3, Pi.zero_apply, mul_zero, zero_mul, zero_smul, add_zero]
    module
  -- the residual
  have hr : r = F (Sum.elim (Sum.elim s x) (Sum.elim S x')) := rfl
  have r3 := cf_taylor3 hF (Sum.elim (Sum.elim s x) (Sum.elim S x'))
    (by rw [cf_elim, cf_elim, cf_elim, s0, x0, S0, y0]; funext j; rcases j with (j | j) | (j | j) <;> rfl)
  rw [← hr] at r3
  have z1 : Sum.elim (Sum.elim h X1) (Sum.elim T1 (L1 X_s T1)) = Z1 := by
    simp only [Z1, T1, X1]
    rw [map_V1, shockDir_apply, elim_smul, elim_smul, elim_smul, elim_add, elim_add, elim_add]
    simp only [smul_zero, add_zero, map_add, map_smul]
  rw [r3]
  simp only [cf_elim]
  rw [s1, x1', S1', y1, z1, s2, x2', S2', y2', s3, x3', S3', y3', map_f1, map_zero, zero_add]

private theorem assemble {Xv Sv : Type} [AddCommGroup Xv] [Module K Xv] [AddCommGroup Sv] [Module K Sv] [CharZero K]
    (fx fX : Xv →ₗ[K] Xv) (fS FS : Sv →ₗ[K] Xv) (Xs : Sv →ₗ[K] Xv) (gx : Xv →ₗ[K] Sv)
    (hFS : ∀ v, FS v = fS v + fX (Xs v)) (μ : K) (xa xb : Xv) (A A1 A2 Cc G1 G2 g0 g1 : Sv)
    (P1 P2 p0 p1 F1 F2 f0 f1 Q1 Q2 q0 q1 Y1 Y2 y0 y1 tv te : Xv)
    (hA : A = (1 / 2 : K) • (A1 + (μ ^ 2) • A2)) (hG : G1 + G2 = (2 : K) • g0 + (6 : K) • (μ ^ 2) • g1)
    (hP : P1 + P2 = p0 + (μ ^ 2) • p1) (hF : F1 + F2 = (2 : K) • f0 + (6 : K) • (μ ^ 2) • f1)
    (hQ : Q1 + Q2 = q0 + (μ ^ 2) • q1) (hY : Y1 + Y2 = (2 : K) • y0 + (6 : K) • (μ ^ 2) • y1) :
    let x3 := (1 / 6 : K) • xa + (μ ^ 2 / 2) • xb
    let S3 := gx x3 + (A + μ • Cc) + (1 / 6 : K) • G1
    let S3' := gx x3 + (A + (-μ) • Cc) + (1 / 6 : K) • G2
    (fx x3 + fS S3 + fX (Xs S3 + Q1 + (1 / 6 : K) • Y1 + (μ ^ 2 / 2) • (tv + μ • te)) + P1 + (1 / 6 : K) • F1)
      + (fx x3 + fS S3' + fX (Xs S3' + Q2 + (1 / 6 : K) • Y2 + (μ ^ 2 / 2) • (tv + (-μ) • te)) + P2
        + (1 / 6 : K) • F2)
      = (1 / 3 : K) • ((fx xa + FS (gx xa)) + fX y0 + (f0 + (3 : K) • p0 + FS (g0 + (3 : K) • A1)
          + fX ((3 : K) • q0)))
        + (μ ^ 2) • ((fx xb + FS (gx xb)) + fX tv + (f1 + p1 + FS (A2 + g1) + fX (y1 + q1))) := by
  intro x3 S3 S3'
  have hG2 := eq_sub_of_add_eq' hG
  have hP2 := eq_sub_of_add_eq' hP
  have hF2 := eq_sub_of_add_eq' hF
  have hQ2 := eq_sub_of_add_eq' hQ
  have hY2 := eq_sub_of_add_eq' hY
  simp only [S3, S3', x3]
  rw [hG2, hP2, hF2, hQ2, hY2, hA]
  simp only [hFS, map_add, map_sub, map_smul, smul_add, smul_sub, smul_smul]
  module

private theorem even_bil {U V : Type} [AddCommGroup U] [Module K U] [AddCommGroup V] [Module K V] [CharZero K]
    (B : U →ₗ[K] U →ₗ[K] V) (hB : ∀ u v, B u v = B v u) (μ : K) (a b V2 D W SW : U) :
    (1 / 2 : K) • (B (a + μ • b) ((1 / 2 : K) • V2 + (μ ^ 2 / 2) • D + μ • W + (μ ^ 2 / 2) • SW)
        + B ((1 / 2 : K) • V2 + (μ ^ 2 / 2) • D + μ • W + (μ ^ 2 / 2) • SW) (a + μ • b))
      + (1 / 2 : K) • (B (a + (-μ) • b) ((1 / 2 : K) • V2 + (μ ^ 2 / 2) • D + (-μ) • W + ((-μ) ^ 2 / 2) • SW)
        + B ((1 / 2 : K) • V2 + (μ ^ 2 / 2) • D + (-μ) • W + ((-μ) ^ 2 / 2) • SW) (a + (-μ) • b))
      = B V2 a + (μ ^ 2) • (B a D + B a SW + (2 : K) • B W b) := by
  rw [hB ((1 / 2 : K) • V2 + (μ ^ 2 / 2) • D + μ • W + (μ ^ 2 / 2) • SW),
    hB ((1 / 2 : K) • V2 + (μ ^ 2 / 2) • D + (-μ) • W + ((-μ) ^ 2 / 2) • SW), hB V2 a, hB W b]
  simp only [map_add, map_smul, LinearMap.add_apply, LinearMap.smul_apply]
  module

/-- The sum of the third coefficients for opposite shocks, when `X_ss`, `X_sss` are symmetric and the second
derivative of `x'` was composed properly. -/
private theorem path_even {F : (ZIdx ns nx → K⟦X⟧) → Fin nx → K⟦X⟧}
    {G : (MIdx ns nx ne → K⟦X⟧) → Fin ns → K⟦X⟧} {φ : (Fin ns ⊕ Unit → K⟦X⟧) → Fin nx → K⟦X⟧}
    (hF : Taylor3 F p.f1 p.f2 p.f3) (hG : Taylor3 G p.g1 p.g2 p.g3) (hsym : ∀ i a b, p.g2 i a b = p.g2 i b a)
    (g12 : ∀ i a b c, p.g3 i a b c = p.g3 i b a c) (g23 : ∀ i a b c, p.g3 i a b c = p.g3 i a c b)
    (fsym : ∀ i a b, p.f2 i a b = p.f2 i b a)
    (f12 : ∀ i a b c, p.f3 i a b c = p.f3 i b a c) (f23 : ∀ i a b c, p.f3 i a b c = p.f3 i a c b)
    (xsym : ∀ i a b, X_ss i a b = X_ss i b a)
    (x12 : ∀ i a b c, X_sss i a b c = X_sss i b a c) (x23 : ∀ i a b c, X_sss i a b c = X_sss i a c b)
    (hV2 : ∀ u, L2 (p.V2 X_s X_ss) u u = Sum.elim (Sum.elim (0 : Fin ns → K) (L2 X_ss u u))
      (Sum.elim (L2 (p.V2_3 X_s X_ss) u u)
        (L1 X_s (L2 (p.V2_3 X_s X_ss) u u) + L2 X_ss (L1 (p.V1_3 X_s) u) (L1 (p.V1_3 X_s) u))))
    {X_stt : Fin nx → Fin ns → K}
    (hφ : Taylor3 φ (ruleD1 X_s) (ruleD2 X_ss X_tt) (ruleD3 X_sss X_stt)) [CharZero K]
    (h : Fin ns → K) (μ : K) (e : Fin ne → K) :
    let r := fun e : Fin ne → K => pathResidual F G φ (fun a => C (h a) * X) (C μ * X) (fun k => C (μ * e k) * X)
    let V := L1 (p.V1_3 X_s) h
    cf 3 (r e) + cf 3 (r (-e))
      = (1 / 3 : K) • (L1 (p.sylA X_s) (L3 X_sss h h h) + L1 p.f_X (L3 X_sss V V V) + L3 (p.D3 X_s X_ss) h h h
          + L1 (p.fS X_s) (L2 p.g_sx h (L2 X_ss h h)))
        + (μ ^ 2) • (L1 (p.sylA X_s) (L1 X_stt h) + L1 p.f_X (L1 X_stt V) + dRisk p X_s X_ss X_sss X_tt h e) := by
  intro r V
  have hS2 : ∀ ν : K, L1 p.g_x ((1 / 2 : K) • (L2 X_ss h h + (μ ^ 2) • X_tt))
      + (1 / 2 : K) • (L2 (p.K2 X_s) h h + (2 * ν) • L2 (p.Vsl X_s) h e + (ν ^ 2) • L2 p.g_ee e e)
      = (1 / 2 : K) • L2 (p.V2_3 X_s X_ss) h h + (μ ^ 2 / 2) • L1 p.g_x X_tt + ν • L2 (p.Vsl X_s) h e
        + (ν ^ 2 / 2) • L2 p.g_ee e e := by
    intro ν
    rw [map_V2_3]
    simp only [map_smul, map_add]
    module
  have hz2 : ∀ ν : K, (Sum.elim (Sum.elim (0 : Fin ns → K) ((1 / 2 : K) • (L2 X_ss h h + (μ ^ 2) • X_tt)))
      (Sum.elim ((1 / 2 : K) • L2 (p.V2_3 X_s X_ss) h h + (μ ^ 2 / 2) • L1 p.g_x X_tt + ν • L2 (p.Vsl X_s) h e
          + (ν ^ 2 / 2) • L2 p.g_ee e e)
        (L1 X_s ((1 / 2 : K) • L2 (p.V2_3 X_s X_ss) h h + (μ ^ 2 / 2) • L1 p.g_x X_tt + ν • L2 (p.Vsl X_s) h e
            + (ν ^ 2 / 2) • L2 p.g_ee e e)
          + (1 / 2 : K) • (L2 X_ss (L1 (p.V1_3 X_s) h + ν • L1 p.g_e e) (L1 (p.V1_3 X_s) h + ν • L1 p.g_e e)
            + (μ ^ 2) • X_tt))) : ZIdx ns nx → K)
      = (1 / 2 : K) • L2 (p.V2 X_s X_ss) h h + (μ ^ 2 / 2) • p.DWll X_s X_tt
        + ν • nextDir (L2 (p.Wsl X_s X_ss) h e) + (ν ^ 2 / 2) • nextDir (L2 (p.SWll X_s X_ss) e e) := by
    intro ν
    have hs : L2 X_ss (L1 p.g_e e) (L1 (p.V1_3 X_s) h) = L2 X_ss (L1 (p.V1_3 X_s) h) (L1 p.g_e e) :=
      L2_swap xsym _ _
    rw [hV2, map_DWll, map_Wsl, map_SWll]
    simp only [elim_smul, elim_add]
    congr 1
    · congr 1
      · simp
      · simp only [smul_zero, add_zero]; module
    · congr 1
      simp only [map_add, map_smul, LinearMap.add_apply, LinearMap.smul_apply, hs]
      module
  have hr : r (-e) = pathResidual F G φ (fun a => C (h a) * X) (C μ * X) (fun k => C ((-μ) * e k) * X) := by
    simp only [r, Pi.neg_apply, mul_neg, neg_mul]
  rw [hr]
  have e1 := path_coeff3 p X_s X_ss X_sss X_tt hF hG hsym hφ h μ μ e
  have e2 := path_coeff3 p X_s X_ss X_sss X_tt hF hG hsym hφ h μ (-μ) e
  simp only [hS2, hz2, map_add (L1 X_stt), map_smul (L1 X_stt)] at e1 e2
  have hf2 : ∀ u v, L2 p.f2 u v = L2 p.f2 v u := fun u v => L2_swap fsym u v
  have hxs : ∀ u v, L2 X_ss u v = L2 X_ss v u := fun u v => L2_swap xsym u v
  have hP := even_bil (L2 p.f2) hf2 μ (L1 (p.V1 X_s) h) (shockDir p X_s e) (L2 (p.V2 X_s X_ss) h h)
    (p.DWll X_s X_tt) (nextDir (L2 (p.Wsl X_s X_ss) h e)) (nextDir (L2 (p.SWll X_s X_ss) e e))
  have hQ := even_bil (L2 X_ss) hxs μ (L1 (p.V1_3 X_s) h) (L1 p.g_e e) (L2 (p.V2_3 X_s X_ss) h h)
    (L1 p.g_x X_tt) (L2 (p.Vsl X_s) h e) (L2 p.g_ee e e)
  have hg3 := map_g3 p g12 g23 h (L1 X_s h) μ e
  have hf3 := cube_even f12 f23 μ (L1 (p.V1 X_s) h) (shockDir p X_s e)
  have hx3 := cube_even x12 x23 μ (L1 (p.V1_3 X_s) h) (L1 p.g_e e)
  have hsxx : ∀ i a b, p.g_xx i a b = p.g_xx i b a := fun i a b => hsym _ _ _
  have d1 : L2 p.g_xx X_tt (L1 X_s h) = L2 p.g_xx (L1 X_s h) X_tt := L2_swap hsxx _ _
  have hA2 : L2 p.g_sx h ((1 / 2 : K) • (L2 X_ss h h + (μ ^ 2) • X_tt))
      + L2 p.g_xx ((1 / 2 : K) • (L2 X_ss h h + (μ ^ 2) • X_tt)) (L1 X_s h)
      = (1 / 2 : K) • ((L2 p.g_sx h (L2 X_ss h h) + L2 p.g_xx (L2 X_ss h h) (L1 X_s h))
        + (μ ^ 2) • (L2 p.g_sx h X_tt + L2 p.g_xx (L1 X_s h) X_tt)) := by
    simp only [map_add, map_smul, LinearMap.add_apply, LinearMap.smul_apply, d1]
    module
  have key := assemble (L1 p.f_x) (L1 p.f_X) (L1 p.f_S) (L1 (p.fS X_s)) (L1 X_s) (L1 p.g_x) (map_fS p X_s) μ
    (L3 X_sss h h h) (L1 X_stt h) _ _ _ (L2 p.g_xe ((1 / 2 : K) • (L2 X_ss h h + (μ ^ 2) • X_tt)) e) _ _ _ _ _ _ _ _
    _ _ _ _ _ _ _ _ _ _ _ _ (L1 X_stt (L1 (p.V1_3 X_s) h)) (L1 X_stt (L1 p.g_e e)) hA2 hg3 hP hf3 hQ hx3
  rw [e1, e2]
  refine Eq.trans key ?_
  clear key e1 e2 hP hQ hg3 hf3 hx3 hA2 hz2 hS2
  have b1 := hxs (L2 (p.V2_3 X_s X_ss) h h) (L1 (p.V1_3 X_s) h)
  rw [map_sylA, map_sylA, map_D3, map_K3, dRisk, b1]
  simp only [V]
  have k1 : L3 p.g_sss h h h + (3 : K) • L3 p.g_ssx h h (L1 X_s h) + (3 : K) • L3 p.g_sxx h (L1 X_s h) (L1 X_s h)
        + L3 p.g_xxx (L1 X_s h) (L1 X_s h) (L1 X_s h)
        + (3 : K) • (L2 p.g_sx h (L2 X_ss h h) + L2 p.g_xx (L2 X_ss h h) (L1 X_s h))
      = (L3 p.g_sss h h h + (3 : K) • L3 p.g_ssx h h (L1 X_s h) + (3 : K) • L3 p.g_sxx h (L1 X_s h) (L1 X_s h)
        + (2 : K) • L2 p.g_sx h (L2 X_ss h h)
        + ((3 : K) • L2 p.g_xx (L2 X_ss h h) (L1 X_s h) + L3 p.g_xxx (L1 X_s h) (L1 X_s h) (L1 X_s h)))
        + L2 p.g_sx h (L2 X_ss h h) := by
    module
  rw [k1, map_add (L1 (p.fS X_s)) _ (L2 p.g_sx h (L2 X_ss h h))]
  congr 1
  · congr 1
    abel
  · congr 1
    simp only [map_add (L1 p.f_X), map_add (L2 X_ss (L1 (p.V1_3 X_s) h))]
    abel

private theorem sylvester3_map {lsolve : LinSolver K} (hlsolve : lsolve.Correct) {A B : Fin nx → Fin nx → K}
    {C : Fin ns → Fin ns → K} (D : Fin nx → Fin ns → Fin ns → Fin ns → K) (hreg : RegularN 3 A B C)
    (u v w : Fin ns → K) :
    L1 A (L3 (sylvester3 lsolve A B C D) u v w)
      + L1 B (L3 (sylvester3 lsolve A B C D) (L1 C u) (L1 C v) (L1 C w)) + L3 D u v w = 0 := by
  have h := sylvester3_spec lsolve hlsolve D hreg
  have key := tri_eq (fun i a b c => - D i a b c) (f := fun u v w => L1 A (L3 (sylvester3 lsolve A B C D) u v w)
      + L1 B (L3 (sylvester3 lsolve A B C D) (L1 C u) (L1 C v) (L1 C w))) ?_ ?_ u v w
  · rw [← key]
    funext i
    simp [L3_apply, c3]
  · constructor <;> intros <;>
      simp only [map_add, map_smul, LinearMap.add_apply, LinearMap.smul_apply, smul_add] <;> module
  · intro a b c
    funext i
    have := h i a b c
    simp only [L3_single, L1_single, Pi.add_apply, L1_apply, L3_apply, c1, c3]
    exact eq_neg_of_add_eq_zero_left this

end third

section thirdOne
variable {nx ne : ℕ} (p : Problem 1 nx ne K)

/-- **C36, third order with one state (partial).**  With one state, and for symmetric distributions of the shocks,
the expected residual along the rule with the derivatives computed by `state_perturb` is, up to terms of fourth
order, exactly `t³/6 · h³ · (f_S + f_X X_s) · g_sx X_ss`: it vanishes to third order if and only if this term is
zero.  (The term comes from the factor `2` in front of `sdot(g_sx, X_ss)` on line 287, which should be `3`.)
Missing for the full property: this term, see `C36_third_fails`; and several states, see
`C36_third_fails_two_states`. -/
theorem C36_third_order_partial [CharZero K] (solve : MatSolver K)
    (hsolve : ∀ n m M R X, solve n m M R = .ok X → M * X = R)
    (lsolve : LinSolver K) (hlsolve : lsolve.Correct) (hsym : p.Symmetric)
    (X_s : Fin nx → Fin 1 → K) (h1 : p.FirstOrder X_s)
    (hreg1 : RegularN 1 (p.sylA X_s) p.f_X (p.V1_3 X_s)) (hreg2 : RegularN 2 (p.sylA X_s) p.f_X (p.V1_3 X_s))
    (hreg3 : RegularN 3 (p.sylA X_s) p.f_X (p.V1_3 X_s))
    (X_ss : Fin nx → Fin 1 → Fin 1 → K) (X_sss : Fin nx → Fin 1 → Fin 1 → Fin 1 → K) (X_tt : Fin nx → K)
    (X_stt : Fin nx → Fin 1 → K) (hX : higherOrders solve lsolve p 3 X_s = .ok (.third X_s X_ss X_sss X_tt X_stt))
    (F : (ZIdx 1 nx → K⟦X⟧) → Fin nx → K⟦X⟧) (G : (MIdx 1 nx ne → K⟦X⟧) → Fin 1 → K⟦X⟧)
    (φ : (Fin 1 ⊕ Unit → K⟦X⟧) → Fin nx → K⟦X⟧) (hF : Taylor3 F p.f1 p.f2 p.f3) (hG : Taylor3 G p.g1 p.g2 p.g3)
    (hφ : Taylor3 φ (ruleD1 X_s) (ruleD2 X_ss X_tt) (ruleD3 X_sss X_stt))
    {D : Type} [Fintype D] (w : D → K) (ε : D → Fin ne → K) (hε : Shocks w ε p.sigma)
    (hs : SymmetricShocks w ε) (h : K) (μ : K) (i : Fin nx) :
    X ^ 4 ∣ ∑ d, C (w d) * pathResidual F G φ (fun _ => C h * X) (C μ * X) (fun k => C (μ * ε d k) * X) i
      - C (h ^ 3 / 6 * ((p.f_S i 0 + ∑ x, p.f_X i x * X_s x 0) * ∑ x, p.g_sx 0 0 x * X_ss x 0 0)) * X ^ 3 := by
  have hXX : X_ss = p.Xss X_s lsolve ∧ p.Xtt X_s solve (p.Xss X_s lsolve) = .ok X_tt ∧
      X_sss = p.Xsss X_s X_ss lsolve ∧ X_stt = p.Xstt X_s X_ss X_sss X_tt lsolve := by
    unfold higherOrders at hX
    rcases ht : p.Xtt X_s solve (p.Xss X_s lsolve) with er | t
    · simp [ht, bind, Except.bind] at hX
    · simp [ht, bind, Except.bind, pure, Except.pure] at hX
      obtain ⟨e1, e2, e3, e4⟩ := hX
      subst e1 e2 e3
      exact ⟨rfl, rfl, rfl, e4.symm⟩
  obtain ⟨hss, htt0, hsss, hstt⟩ := hXX
  rw [← hss] at htt0
  have htt := Xtt_eq p hsolve htt0
  have sub1 : ∀ a : Fin 1, a = 0 := fun a => Subsingleton.elim _ _
  have hV2 : ∀ u, L2 (p.V2 X_s X_ss) u u = Sum.elim (Sum.elim (0 : Fin 1 → K) (L2 X_ss u u))
      (Sum.elim (L2 (p.V2_3 X_s X_ss) u u)
        (L1 X_s (L2 (p.V2_3 X_s X_ss) u u) + L2 X_ss (L1 (p.V1_3 X_s) u) (L1 (p.V1_3 X_s) u))) := by
    intro u
    funext z
    rcases z with (a | a) | (a | a)
    · simp [L2_apply, c2, Problem.V2]
    · simp [L2_apply, c2, Problem.V2]
    · simp [L2_apply, c2, Problem.V2]
    · simp [L2_apply, c2, Problem.V2, L1_apply, c1]
      ring
  set hh : Fin 1 → K := fun _ => h with hhh
  have he := fun e => path_even p X_s X_ss X_sss X_tt hF hG hsym.g2 hsym.g3l hsym.g3r hsym.f2 hsym.f3l hsym.f3r
    (fun i a b => by rw [sub1 a, sub1 b]) (fun i a b c => by rw [sub1 a, sub1 b])
    (fun i a b c => by rw [sub1 b, sub1 c]) hV2 hφ hh μ e
  simp only at he
  have low : X ^ 3 ∣ ∑ d, C (w d) * pathResidual F G φ (fun a => C (hh a) * X) (C μ * X)
      (fun k => C (μ * ε d k) * X) i :=
    C36_second_order p solve hsolve lsolve hlsolve hsym.g2 X_s h1 hreg2 X_tt (by rw [← hss]; exact htt0) F G φ
      hF.to2 hG.to2 (by rw [← hss]; exact hφ.to2) w ε hε hh μ i
  have hsyl3 : L1 (p.sylA X_s) (L3 X_sss hh hh hh)
      + L1 p.f_X (L3 X_sss (L1 (p.V1_3 X_s) hh) (L1 (p.V1_3 X_s) hh) (L1 (p.V1_3 X_s) hh))
      + L3 (p.D3 X_s X_ss) hh hh hh = 0 := by
    rw [hsss]
    exact sylvester3_map hlsolve (p.D3 X_s X_ss) hreg3 hh hh hh
  have hsyl1 : L1 (p.sylA X_s) (L1 X_stt hh) + L1 p.f_X (L1 X_stt (L1 (p.V1_3 X_s) hh))
      + L1 (p.Dst X_s X_ss X_sss X_tt) hh = 0 := by
    rw [hstt]
    have := sylvester1_spec lsolve hlsolve (p.Dst X_s X_ss X_sss X_tt) hreg1
    exact congrFun (congrArg DFunLike.coe this) hh
  obtain ⟨τ, hτ⟩ := hs
  set r := fun e : Fin ne → K => pathResidual F G φ (fun a => C (hh a) * X) (C μ * X)
    (fun k => C (μ * e k) * X) with hr
  have he' : ∀ e, cf 3 (r e) + cf 3 (r (-e)) = (1 / 3 : K) • L1 (p.fS X_s) (L2 p.g_sx hh (L2 X_ss hh hh))
      + (μ ^ 2) • (L1 (p.sylA X_s) (L1 X_stt hh) + L1 p.f_X (L1 X_stt (L1 (p.V1_3 X_s) hh))
        + dRisk p X_s X_ss X_sss X_tt hh e) := by
    intro e
    rw [hr]
    simp only
    rw [he e, hsyl3, zero_add]
  have hsum : (2 : K) • ∑ d, w d • cf 3 (r (ε d))
      = (1 / 3 : K) • L1 (p.fS X_s) (L2 p.g_sx hh (L2 X_ss hh hh)) := by
    have e1 : ∑ d, w d • cf 3 (r (-ε d)) = ∑ d, w d • cf 3 (r (ε d)) := by
      rw [← Equiv.sum_comp τ]
      exact Finset.sum_congr rfl fun d _ => by rw [(hτ d).1, (hτ d).2, neg_neg]
    have e2 : (2 : K) • ∑ d, w d • cf 3 (r (ε d)) = ∑ d, w d • (cf 3 (r (ε d)) + cf 3 (r (-ε d))) := by
      simp only [smul_add, Finset.sum_add_distrib]
      rw [e1, two_smul]
    rw [e2]
    simp only [he', smul_add, Finset.sum_add_distrib]
    rw [← Finset.sum_smul, ← Finset.sum_smul, ← Finset.sum_smul, hε.total, one_smul, one_smul, one_smul]
    have e3 : ∑ d, w d • (μ ^ 2) • dRisk p X_s X_ss X_sss X_tt hh (ε d)
        = (μ ^ 2) • L1 (p.Dst X_s X_ss X_sss X_tt) hh := by
      rw [← Dst_eq p X_s X_ss X_sss X_tt hε, Finset.smul_sum]
      exact Finset.sum_congr rfl fun d _ => smul_comm _ _ _
    rw [e3, ← smul_add, ← smul_add, hsyl1, smul_zero, add_zero]
  apply dvd_of_coeffs
  intro k hk
  rw [map_sub, coeff_C_mul, coeff_X_pow]
  by_cases hk3 : k = 3
  · subst hk3
    have e4 := coeff_expect w (fun d => r (ε d)) 3 i
    have e5 := congrFun hsum i
    rw [Pi.smul_apply, ← e4] at e5
    have e6 : L1 (p.fS X_s) (L2 p.g_sx hh (L2 X_ss hh hh)) i
        = h ^ 3 * ((p.f_S i 0 + ∑ x, p.f_X i x * X_s x 0) * ∑ x, p.g_sx 0 0 x * X_ss x 0 0) := by
      simp only [L1_apply, L2_apply, c1, c2, Problem.fS, Finset.univ_unique, Fin.default_eq_zero,
        Finset.sum_singleton, hhh]
      rw [mul_left_comm (h ^ 3)]
      congr 1
      rw [Finset.mul_sum]
      exact Finset.sum_congr rfl fun x _ => by ring
    rw [Pi.smul_apply, e6, smul_eq_mul, smul_eq_mul] at e5
    have e7 : coeff 3 (∑ d, C (w d) * pathResidual F G φ (fun _ => C h * X) (C μ * X)
        (fun k => C (μ * ε d k) * X) i) = h ^ 3 / 6
          * ((p.f_S i 0 + ∑ x, p.f_X i x * X_s x 0) * ∑ x, p.g_sx 0 0 x * X_ss x 0 0) := by
      have : (2 : K) ≠ 0 := two_ne_zero
      apply mul_left_cancel₀ this
      rw [show (2 : K) * coeff 3 (∑ d, C (w d) * pathResidual F G φ (fun _ => C h * X) (C μ * X)
        (fun k => C (μ * ε d k) * X) i) = _ from e5]
      ring
    rw [e7]
    simp
  · rw [X_pow_dvd_iff.1 low k (by omega), if_neg hk3, mul_zero, sub_zero]

end thirdOne

/-! ### The whole of `state_perturb` -/

section whole
variable {K : Type} [Field K] [LinearOrder K] [IsStrictOrderedRing K] {ns nx ne : ℕ}

/-- `ordqz` decomposes the pencil of the model, for every criterion, and orders it so that it splits at the number
of states. -/
def DecomposesPencil (qz : Matrix (Fin ns ⊕ Fin nx) (Fin ns ⊕ Fin nx) K →
      Matrix (Fin ns ⊕ Fin nx) (Fin ns ⊕ Fin nx) K → K → QZ (Fin ns ⊕ Fin nx) K) (p : Problem ns nx ne K) : Prop :=
  let A := pencilA (Matrix.of p.f_S) (Matrix.of p.f_X)
  let B := pencilB (Matrix.of p.g_s) (Matrix.of p.g_x) (Matrix.of p.f_s) (Matrix.of p.f_x)
  ∀ c, (qz A B c).Correct A B ∧ (qz A B c).S.toBlocks₂₁ = 0 ∧ (qz A B c).T.toBlocks₂₁ = 0

private theorem rule2_linear {solve : MatSolver K} (hsolve : solve.Correct) {d : QZ (Fin ns ⊕ Fin nx) K}
    {p : Problem ns nx ne K}
    (hd : d.Correct (pencilA (Matrix.of p.f_S) (Matrix.of p.f_X))
      (pencilB (Matrix.of p.g_s) (Matrix.of p.g_x) (Matrix.of p.f_s) (Matrix.of p.f_x)))
    (hS : d.S.toBlocks₂₁ = 0) (hT : d.T.toBlocks₂₁ = 0) {C : Matrix (Fin nx) (Fin ns) K}
    (h : ruleFromQZ2 solve d = .ok C) : p.FirstOrder C := by
  unfold ruleFromQZ2 at h
  rcases hr : ruleFromQZ solve d with e | C'
  · simp [hr, bind, Except.bind] at h
  · rcases h1 : solve ns ns d.S.toBlocks₁₁.transpose d.Z.toBlocks₁₁.transpose with e | Y
    · simp [hr, h1, bind, Except.bind] at h
    · rcases h2 : solve ns ns d.Z.toBlocks₁₁.transpose d.T.toBlocks₁₁.transpose with e | Y'
      · simp [hr, h1, h2, bind, Except.bind] at h
      · simp only [hr, h1, h2, bind, Except.bind, pure, Except.pure, Except.ok.injEq] at h
        subst h
        obtain ⟨hz, hC⟩ := rule_eq hsolve hr
        have hu := (hsolve _ _ _ _ _ h1).1
        rw [Matrix.det_transpose] at hu
        exact linear_solution_of_split hd ⟨hS, hT, hu⟩ hz hC

private theorem perturb_first {solve : MatSolver K} (hsolve : solve.Correct) {lsolve : LinSolver K}
    {qz : Matrix (Fin ns ⊕ Fin nx) (Fin ns ⊕ Fin nx) K → Matrix (Fin ns ⊕ Fin nx) (Fin ns ⊕ Fin nx) K → K →
      QZ (Fin ns ⊕ Fin nx) K} {p : Problem ns nx ne K} (hqz : DecomposesPencil qz p)
    {cut : WithTop K → WithTop K → K} {order : ℕ} {r : PertSol ns nx K} {w : Bool}
    (h : statePerturb solve lsolve qz cut p order = .ok (r, w)) :
    ∃ X_s, p.FirstOrder X_s ∧ higherOrders solve lsolve p order X_s = .ok r := by
  unfold statePerturb at h
  split_ifs at h with h0
  simp only [bind, Except.bind] at h
  split at h
  · simp at h
  · rename_i v hv
    refine ⟨v.1, ?_, ?_⟩
    · unfold selectRule2 at hv
      simp only [bind, Except.bind, pure, Except.pure, throw, throwThe, MonadExceptOf.throw] at hv
      repeat' (split at hv)
      all_goals first
        | (simp at hv; done)
        | skip
      all_goals
        simp only [Except.ok.injEq] at hv
        subst hv
        rename_i hx
        exact rule2_linear hsolve (hqz _).1 (hqz _).2.1 (hqz _).2.2 hx
    · split at h
      · simp at h
      · rename_i r' hr'
        simp only [pure, Except.pure, Except.ok.injEq, Prod.mk.injEq] at h
        rw [hr', h.1]

/-- **C36, `state_perturb` at order two.**  Whatever the model, if `state_perturb` returns a second-order
solution then every rule with these derivatives solves the model up to second order: along every direction
`(h, μ)` of states and scale of risk, the expected residual has no terms of order zero, one or two. -/
theorem C36_state_perturb (solve : MatSolver K) (hsolve : solve.Correct) (lsolve : LinSolver K)
    (hlsolve : lsolve.Correct)
    (qz : Matrix (Fin ns ⊕ Fin nx) (Fin ns ⊕ Fin nx) K → Matrix (Fin ns ⊕ Fin nx) (Fin ns ⊕ Fin nx) K → K →
      QZ (Fin ns ⊕ Fin nx) K) (p : Problem ns nx ne K) (hqz : DecomposesPencil qz p)
    (hsym : ∀ i a b, p.g2 i a b = p.g2 i b a) (cut : WithTop K → WithTop K → K)
    (X_s : Fin nx → Fin ns → K) (X_ss : Fin nx → Fin ns → Fin ns → K) (X_tt : Fin nx → K) (warned : Bool)
    (hreg : RegularN 2 (p.sylA X_s) p.f_X (p.V1_3 X_s))
    (hX : statePerturb solve lsolve qz cut p 2 = .ok (.second X_s X_ss X_tt, warned))
    (F : (ZIdx ns nx → K⟦X⟧) → Fin nx → K⟦X⟧) (G : (MIdx ns nx ne → K⟦X⟧) → Fin ns → K⟦X⟧)
    (φ : (Fin ns ⊕ Unit → K⟦X⟧) → Fin nx → K⟦X⟧) (hF : Taylor2 F p.f1 p.f2) (hG : Taylor2 G p.g1 p.g2)
    (hφ : Taylor2 φ (ruleD1 X_s) (ruleD2 X_ss X_tt))
    {D : Type} [Fintype D] (w : D → K) (ε : D → Fin ne → K) (hε : Shocks w ε p.sigma)
    (h : Fin ns → K) (μ : K) (i : Fin nx) :
    X ^ 3 ∣ ∑ d, C (w d) * pathResidual F G φ (fun a => C (h a) * X) (C μ * X) (fun k => C (μ * ε d k) * X) i := by
  obtain ⟨X_s', h1, h2⟩ := perturb_first hsolve hqz hX
  unfold higherOrders at h2
  rcases ht : p.Xtt X_s' solve (p.Xss X_s' lsolve) with er | t
  · simp [ht, bind, Except.bind] at h2
  · simp [ht, bind, Except.bind, pure, Except.pure] at h2
    obtain ⟨rfl, rfl, rfl⟩ := h2
    exact C36_second_order p solve (fun n m M R X hh => (hsolve n m M R X hh).2) lsolve hlsolve hsym X_s' h1 hreg t ht F G
      φ hF hG hφ w ε hε h μ i

/-- **C36, first order.**  The coefficients returned by `state_perturb` at order one cancel the first-order terms of the
expected residual, whatever the second-order terms of the rule. -/
theorem C36_first_order (solve : MatSolver K) (hsolve : solve.Correct) (lsolve : LinSolver K)
    (qz : Matrix (Fin ns ⊕ Fin nx) (Fin ns ⊕ Fin nx) K → Matrix (Fin ns ⊕ Fin nx) (Fin ns ⊕ Fin nx) K → K →
      QZ (Fin ns ⊕ Fin nx) K) (p : Problem ns nx ne K) (hqz : DecomposesPencil qz p)
    (hsym : ∀ i a b, p.g2 i a b = p.g2 i b a) (cut : WithTop K → WithTop K → K)
    (X_s : Fin nx → Fin ns → K) (warned : Bool)
    (hX : statePerturb solve lsolve qz cut p 1 = .ok (.first X_s, warned))
    (F : (ZIdx ns nx → K⟦X⟧) → Fin nx → K⟦X⟧) (G : (MIdx ns nx ne → K⟦X⟧) → Fin ns → K⟦X⟧)
    (φ : (Fin ns ⊕ Unit → K⟦X⟧) → Fin nx → K⟦X⟧) (hF : Taylor2 F p.f1 p.f2) (hG : Taylor2 G p.g1 p.g2)
    (Y_ss : Fin nx → Fin ns → Fin ns → K) (Y_tt : Fin nx → K) (hφ : Taylor2 φ (ruleD1 X_s) (ruleD2 Y_ss Y_tt))
    {D : Type} [Fintype D] (w : D → K) (ε : D → Fin ne → K) (hε : Shocks w ε p.sigma)
    (h : Fin ns → K) (μ : K) (i : Fin nx) :
    X ^ 2 ∣ ∑ d, C (w d) * pathResidual F G φ (fun a => C (h a) * X) (C μ * X) (fun k => C (μ * ε d k) * X) i := by
  obtain ⟨X_s', h1, h2⟩ := perturb_first hsolve hqz hX
  simp [higherOrders] at h2
  subst h2
  exact residual_first p hsym X_s' h1 F G φ hF hG Y_ss Y_tt hφ w ε hε h μ i

end whole

/-! ### Existence of functions with given derivatives -/

/-- The Taylor polynomial itself is a function with the given derivatives. -/
noncomputable def taylorPoly {I J : Type} [Fintype J] (f1 : I → J → K) (f2 : I → J → J → K)
    (f3 : I → J → J → J → K) : (J → K⟦X⟧) → I → K⟦X⟧ := fun z i =>
  ∑ j, C (f1 i j) * z j + C (1 / 2) * ∑ j, ∑ l, C (f2 i j l) * (z j * z l)
    + C (1 / 6) * ∑ j, ∑ l, ∑ m, C (f3 i j l m) * (z j * z l * z m)

theorem taylorPoly_spec {I J : Type} [Fintype J] (f1 : I → J → K) (f2 : I → J → J → K)
    (f3 : I → J → J → J → K) : Taylor3 (taylorPoly f1 f2 f3) f1 f2 f3 := by
  intro z _ i
  simp [taylorPoly]

end Dolo
