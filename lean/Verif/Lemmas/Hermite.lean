import Mathlib.Algebra.Polynomial.Derivative
import Mathlib.Algebra.Polynomial.Div
import Mathlib.Algebra.Polynomial.Monic
import Mathlib.LinearAlgebra.Matrix.NonsingularInverse
import Mathlib.Algebra.Order.Field.Basic
import Mathlib.Algebra.Order.BigOperators.Ring.Finset
import Mathlib.Data.Nat.Factorial.Basic
import Mathlib.Tactic.Ring
import Mathlib.Tactic.FieldSimp
import Mathlib.Tactic.LinearCombination
import Mathlib.Tactic.Linarith
import Mathlib.Tactic.NormNum
import Mathlib.Tactic.Positivity

/-!
# Gauss–Hermite quadrature, algebraically

Monic Hermite polynomials for the weight `exp (-x²)` over an ordered field, the Christoffel–Darboux
formula, and the exactness of the quadrature rule at their roots.
-/

set_option linter.unusedSectionVars false

namespace Dolo.Hermite

open Polynomial Finset

variable {K : Type} [Field K] [LinearOrder K] [IsStrictOrderedRing K]

/-- Monic Hermite polynomials: `h₀ = 1`, `h₁ = X`, `h_{j+2} = X h_{j+1} - (j+1)/2 h_j`. -/
noncomputable def h : ℕ → K[X]
  | 0 => 1
  | 1 => X
  | (j + 2) => X * h (j + 1) - C (((j : K) + 1) / 2) * h j

/-- The squared norm of `h j`, for the weight normalised to mass one. -/
def κ (j : ℕ) : K := (j.factorial : K) / 2 ^ j

theorem κ_pos (j : ℕ) : (0 : K) < κ j := by
  unfold κ
  have : (0 : K) < (j.factorial : K) := by exact_mod_cast j.factorial_pos
  positivity

theorem κ_succ (j : ℕ) : (κ (j + 1) : K) = ((j : K) + 1) / 2 * κ j := by
  unfold κ
  rw [Nat.factorial_succ]
  push_cast
  rw [pow_succ]
  field_simp

theorem h_succ_succ (j : ℕ) : (h (j + 2) : K[X]) = X * h (j + 1) - C (((j : K) + 1) / 2) * h j := rfl

theorem derivative_h (n : ℕ) : derivative (h (n + 1) : K[X]) = C ((n : K) + 1) * h n := by
  induction n using Nat.twoStepInduction with
  | zero => simp [h]
  | one =>
    simp only [h, derivative_sub, derivative_mul, derivative_X, derivative_C]
    simp only [Nat.cast_zero, Nat.cast_one, C_add, derivative_one]
    simp
    ring
  | more n ih1 ih2 =>
    rw [h_succ_succ (n + 1)]
    simp only [derivative_sub, derivative_mul, derivative_X, derivative_C]
    rw [ih2, ih1, h_succ_succ n]
    simp only [Nat.cast_add, Nat.cast_one, zero_mul, zero_add, one_mul, C_add, C_1,
      Nat.cast_ofNat, C_ofNat, div_eq_mul_inv, C_mul]
    ring

theorem monic_natDegree_h (n : ℕ) : (h n : K[X]).Monic ∧ (h n : K[X]).natDegree = n := by
  induction n using Nat.twoStepInduction with
  | zero => exact ⟨monic_one, natDegree_one⟩
  | one => exact ⟨monic_X, natDegree_X⟩
  | more n ih1 ih2 =>
    have hX : (X * h (n + 1) : K[X]).Monic := monic_X.mul ih2.1
    have hd : (X * h (n + 1) : K[X]).natDegree = n + 2 := by
      rw [monic_X.natDegree_mul ih2.1, natDegree_X, ih2.2]; ring
    have hlt : (C (((n : K) + 1) / 2) * h n : K[X]).degree < (X * h (n + 1) : K[X]).degree := by
      refine lt_of_le_of_lt (degree_mul_le _ _) (lt_of_le_of_lt (add_le_add degree_C_le le_rfl) ?_)
      rw [zero_add]
      rw [degree_eq_natDegree ih1.1.ne_zero, degree_eq_natDegree hX.ne_zero, hd, ih1.2]
      exact_mod_cast (by omega : n < n + 2)
    rw [h_succ_succ]
    constructor
    · exact hX.sub_of_left hlt
    · rw [natDegree_sub_eq_left_of_natDegree_lt, hd]
      rw [hd]
      refine lt_of_le_of_lt (natDegree_C_mul_le _ _) ?_
      rw [ih1.2]; omega

/-- **Christoffel–Darboux.** -/
theorem christoffelDarboux (n : ℕ) (x y : K) :
    (x - y) * ∑ k ∈ range (n + 1), (h k).eval x * (h k).eval y / κ k
      = ((h (n + 1)).eval x * (h n).eval y - (h n).eval x * (h (n + 1)).eval y) / κ n := by
  induction n with
  | zero => simp [h, κ]
  | succ n ih =>
    rw [sum_range_succ, mul_add, ih, h_succ_succ, κ_succ]
    simp only [eval_sub, eval_mul, eval_X, eval_C]
    have h1 : (κ n : K) ≠ 0 := (κ_pos n).ne'
    have h2 : ((n : K) + 1) ≠ 0 := by positivity
    field_simp
    ring

/-- The confluent case. -/
theorem christoffelDarboux_diag (n : ℕ) (x : K) :
    ∑ k ∈ range (n + 1), (h k).eval x ^ 2 / κ k
      = ((derivative (h (n + 1))).eval x * (h n).eval x
          - (derivative (h n)).eval x * (h (n + 1)).eval x) / κ n := by
  induction n with
  | zero => simp [h, κ]
  | succ n ih =>
    rw [sum_range_succ, ih, h_succ_succ, κ_succ]
    simp only [derivative_sub, derivative_mul, derivative_X, derivative_C, eval_sub, eval_mul,
      eval_X, eval_C, eval_add, zero_mul, zero_add, one_mul]
    have h1 : (κ n : K) ≠ 0 := (κ_pos n).ne'
    have h2 : ((n : K) + 1) ≠ 0 := by positivity
    field_simp
    ring

theorem sum_sq_pos (n : ℕ) (x : K) : 0 < ∑ k ∈ range (n + 1), (h k).eval x ^ 2 / κ k := by
  rw [sum_range_succ']
  have : (0 : K) ≤ ∑ k ∈ range n, (h (k + 1)).eval x ^ 2 / κ (k + 1) :=
    sum_nonneg fun k _ => div_nonneg (sq_nonneg _) (κ_pos _).le
  have h0 : (h 0 : K[X]).eval x ^ 2 / κ 0 = 1 := by simp [h, κ]
  rw [h0]
  linarith

/-- The weight of a node, normalised: `κ_{n} / ((n+1) h_n(x)²)` for the rule with `n + 1` nodes. -/
noncomputable def lam (n : ℕ) (x : K) : K := κ n / (((n : K) + 1) * (h n).eval x ^ 2)

theorem root_sum (n : ℕ) (x : K) (hx : (h (n + 1)).eval x = 0) :
    ∑ k ∈ range (n + 1), (h k).eval x ^ 2 / κ k = 1 / lam n x := by
  rw [christoffelDarboux_diag, hx, derivative_h, lam]
  simp only [eval_mul, eval_C, mul_zero, sub_zero]
  rw [one_div_div]
  congr 1
  ring

theorem lam_pos (n : ℕ) (x : K) (hx : (h (n + 1)).eval x = 0) : 0 < lam n x := by
  have := sum_sq_pos n x
  rw [root_sum n x hx] at this
  exact one_div_pos.1 this

/-- Discrete orthogonality. -/
theorem discrete_orthogonality (n : ℕ) (y : Fin (n + 1) → K) (hy : Function.Injective y)
    (hr : ∀ i, (h (n + 1)).eval (y i) = 0) (k l : Fin (n + 1)) :
    ∑ i, lam n (y i) * ((h k).eval (y i) * (h l).eval (y i)) = if k = l then κ k else 0 := by
  let A : Matrix (Fin (n + 1)) (Fin (n + 1)) K := fun i k => (h k).eval (y i) / κ k
  let B : Matrix (Fin (n + 1)) (Fin (n + 1)) K := fun k i => (h k).eval (y i) * lam n (y i)
  have hAB : A * B = 1 := by
    ext i j
    rw [Matrix.mul_apply, Matrix.one_apply]
    have e1 : ∑ k : Fin (n + 1), A i k * B k j
        = (∑ k ∈ range (n + 1), (h k).eval (y i) * (h k).eval (y j) / κ k) * lam n (y j) := by
      rw [sum_mul, ← Fin.sum_univ_eq_sum_range
        (fun k => (h k).eval (y i) * (h k).eval (y j) / κ k * lam n (y j))]
      refine sum_congr rfl fun k _ => ?_
      simp only [A, B]
      ring
    rw [e1]
    by_cases hij : i = j
    · subst hij
      rw [if_pos rfl]
      have := root_sum n (y i) (hr i)
      simp only [pow_two] at this
      rw [this, one_div_mul_cancel (lam_pos n _ (hr i)).ne']
    · rw [if_neg hij]
      have hcd := christoffelDarboux n (y i) (y j)
      rw [hr i, hr j] at hcd
      simp only [zero_mul, mul_zero, sub_zero, zero_div] at hcd
      have hne : y i - y j ≠ 0 := sub_ne_zero.2 fun h => hij (hy h)
      rw [(mul_eq_zero.1 hcd).resolve_left hne, zero_mul]
  have hBA : B * A = 1 := mul_eq_one_comm.1 hAB
  have := congrFun (congrFun hBA k) l
  rw [Matrix.mul_apply, Matrix.one_apply] at this
  have hκ : (κ l : K) ≠ 0 := (κ_pos l).ne'
  have e2 : ∑ i, lam n (y i) * ((h k).eval (y i) * (h l).eval (y i))
      = (∑ i, B k i * A i l) * κ l := by
    rw [sum_mul]
    refine sum_congr rfl fun i _ => ?_
    simp only [A, B]
    field_simp
  rw [e2, this]
  by_cases hkl : k = l
  · subst hkl; simp
  · simp [hkl]

/-! ### The moment functional -/

/-- The moments of the weight `exp (-x²)`, normalised: `1, 0, 1/2, 0, 3/4, ...`. -/
def moment : ℕ → K
  | 0 => 1
  | 1 => 0
  | (k + 2) => ((k : K) + 1) / 2 * moment k

/-- The linear functional with these moments. -/
noncomputable def L (f : K[X]) : K := f.sum fun k a => a * moment k

theorem L_add (f g : K[X]) : L (f + g) = L f + L g :=
  sum_add_index f g _ (by simp) (by intros; ring)

theorem L_monomial (k : ℕ) (a : K) : L (monomial k a) = a * moment k :=
  sum_monomial_index _ _ (by simp)

theorem L_C_mul (a : K) (f : K[X]) : L (C a * f) = a * L f := by
  induction f using Polynomial.induction_on' with
  | add p q hp hq => rw [mul_add, L_add, hp, hq, L_add]; ring
  | monomial k b => rw [C_mul_monomial, L_monomial, L_monomial]; ring

theorem L_X_mul (f : K[X]) : L (X * f) = L (derivative f) / 2 := by
  induction f using Polynomial.induction_on' with
  | add p q hp hq => rw [mul_add, L_add, hp, hq, derivative_add, L_add]; ring
  | monomial k a =>
    rw [X_mul_monomial, derivative_monomial, L_monomial, L_monomial]
    cases k with
    | zero => simp [moment]
    | succ k =>
      simp only [moment, Nat.add_sub_cancel]
      push_cast
      ring

theorem L_sub (f g : K[X]) : L (f - g) = L f - L g := by
  have : f - g = f + C (-1) * g := by rw [C_neg, C_1]; ring
  rw [this, L_add, L_C_mul]; ring

theorem L_one : L (1 : K[X]) = 1 := by
  rw [← C_1, ← monomial_zero_left, L_monomial]; simp [moment]

theorem h_succ (n : ℕ) : (h (n + 1) : K[X]) = X * h n - C (1 / 2) * derivative (h n) := by
  cases n with
  | zero => simp [h]
  | succ n =>
    rw [h_succ_succ, derivative_h, ← mul_assoc, ← C_mul]
    congr 3
    ring

theorem L_h_succ_mul (n : ℕ) (q : K[X]) :
    L (h (n + 1) * q) = L (h n * derivative q) / 2 := by
  have : (h (n + 1) * q : K[X]) = X * (h n * q) - C (1 / 2) * (derivative (h n) * q) := by
    rw [h_succ]; ring
  rw [this, L_sub, L_X_mul, L_C_mul, derivative_mul, L_add]
  ring

/-- The Hermite polynomials are orthogonal to lower degrees. -/
theorem L_h_mul (n : ℕ) (q : K[X]) (hq : q.degree < n) : L (h n * q) = 0 := by
  induction n generalizing q with
  | zero =>
    have : q = 0 := by
      rw [← degree_eq_bot]
      by_contra hne
      have h0 : (0 : WithBot ℕ) ≤ q.degree := zero_le_degree_iff.2 (by
        intro h; rw [h] at hne; simp at hne)
      exact absurd hq (not_lt.2 (by simpa using h0))
    rw [this, mul_zero, L, sum_zero_index]
  | succ n ih =>
    rw [L_h_succ_mul, ih, zero_div]
    by_cases hq0 : q = 0
    · rw [hq0, derivative_zero, degree_zero]; exact WithBot.bot_lt_coe n
    · by_cases hd : derivative q = 0
      · rw [hd, degree_zero]; exact WithBot.bot_lt_coe n
      · have h1 := degree_derivative_lt hq0
        rw [degree_eq_natDegree hd, degree_eq_natDegree hq0] at h1
        rw [degree_eq_natDegree hq0] at hq
        rw [degree_eq_natDegree hd]
        have h1' : (derivative q).natDegree < q.natDegree := by exact_mod_cast h1
        have hq' : q.natDegree < n + 1 := by exact_mod_cast hq
        exact_mod_cast (by omega : (derivative q).natDegree < n)

/-- The quadrature rule with nodes `y` and the weights of `hermgauss`, normalised. -/
noncomputable def Q (n : ℕ) (y : Fin (n + 1) → K) (f : K[X]) : K := ∑ i, lam n (y i) * f.eval (y i)

theorem Q_eq_L_low (n : ℕ) (y : Fin (n + 1) → K) (hy : Function.Injective y)
    (hr : ∀ i, (h (n + 1)).eval (y i) = 0) (d : ℕ) (hd : d ≤ n + 1) (f : K[X]) (hf : f.degree < d) :
    Q n y f = L f := by
  induction d generalizing f with
  | zero =>
    have : f = 0 := by
      by_contra hne
      have h0 : (0 : WithBot ℕ) ≤ f.degree := zero_le_degree_iff.2 hne
      exact absurd hf (not_lt.2 (by simpa using h0))
    subst this
    simp [Q, L]
  | succ d ih =>
    obtain ⟨hm, hdeg⟩ := monic_natDegree_h (K := K) d
    have hQ : Q n y (h d) = L (h d) := by
      have ho := discrete_orthogonality n y hy hr ⟨d, by omega⟩ ⟨0, by omega⟩
      have e1 : Q n y (h d) = ∑ i, lam n (y i) * ((h d).eval (y i) * (h 0).eval (y i)) := by
        unfold Q
        refine sum_congr rfl fun i _ => ?_
        simp [h]
      rw [e1, ho]
      cases d with
      | zero => simp [κ, h, L_one]
      | succ d =>
        rw [if_neg (by simp)]
        have := L_h_mul (d + 1) (1 : K[X]) (by
          rw [degree_one]; exact_mod_cast Nat.succ_pos d)
        rw [mul_one] at this
        exact this.symm
    let r := f - C (f.coeff d) * h d
    have hr' : r.degree < d := by
      rw [degree_lt_iff_coeff_zero]
      intro m hm'
      simp only [r, coeff_sub, coeff_C_mul]
      rcases Nat.lt_or_ge d m with hlt | hge
      · rw [degree_lt_iff_coeff_zero] at hf
        have hz : (h d : K[X]).coeff m = 0 :=
          coeff_eq_zero_of_natDegree_lt (by rw [hdeg]; exact hlt)
        rw [hf m (by exact_mod_cast hlt), hz]
        ring
      · have hmd : m = d := by
          have : d ≤ m := by exact_mod_cast hm'
          omega
        subst hmd
        have : (h m : K[X]).coeff m = 1 := by
          have := hm.coeff_natDegree
          rwa [hdeg] at this
        rw [this]; ring
    have hfr : f = r + C (f.coeff d) * h d := by simp [r]
    have hQlin : Q n y f = Q n y r + f.coeff d * Q n y (h d) := by
      unfold Q
      rw [mul_sum, ← sum_add_distrib]
      refine sum_congr rfl fun i _ => ?_
      conv_lhs => rw [hfr]
      simp only [eval_add, eval_mul, eval_C]
      ring
    rw [hQlin, ih (by omega) r hr', hQ]
    conv_rhs => rw [hfr]
    rw [L_add, L_C_mul]

/-- **Gauss–Hermite quadrature is exact** up to degree `2 (n + 1) - 1`. -/
theorem Q_eq_L (n : ℕ) (y : Fin (n + 1) → K) (hy : Function.Injective y)
    (hr : ∀ i, (h (n + 1)).eval (y i) = 0) (f : K[X]) (hf : f.natDegree < 2 * (n + 1)) :
    Q n y f = L f := by
  obtain ⟨hm, hdeg⟩ := monic_natDegree_h (K := K) (n + 1)
  have hdiv := modByMonic_add_div f (h (n + 1) : K[X])
  have hrem : (f %ₘ h (n + 1)).degree < (n + 1 : ℕ) := by
    have := degree_modByMonic_lt f hm
    rwa [degree_eq_natDegree hm.ne_zero, hdeg] at this
  have hq : (f /ₘ h (n + 1)).degree < (n + 1 : ℕ) := by
    by_cases h0 : f /ₘ h (n + 1) = 0
    · rw [h0, degree_zero]; exact WithBot.bot_lt_coe _
    · rw [degree_eq_natDegree h0, natDegree_divByMonic _ hm, hdeg]
      exact_mod_cast (by omega : f.natDegree - (n + 1) < n + 1)
  have e1 : Q n y f = Q n y (f %ₘ h (n + 1)) := by
    unfold Q
    refine sum_congr rfl fun i _ => ?_
    conv_lhs => rw [← hdiv]
    rw [eval_add, eval_mul, hr i, zero_mul, add_zero]
  rw [e1, Q_eq_L_low n y hy hr (n + 1) le_rfl _ hrem]
  conv_rhs => rw [← hdiv]
  rw [L_add, L_h_mul _ _ hq, add_zero]

end Dolo.Hermite
