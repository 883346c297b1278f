import Mathlib.Analysis.SpecialFunctions.Pow.Real
import Verif.Model.Hermgauss
import Verif.Lemmas.HermiteGauss
import Verif.Props.Quadrature

/-!
# C98: Gauss–Hermite nodes and weights
-/

set_option linter.unusedSectionVars false

namespace Dolo

open Polynomial

/-- The environment of the code: real square root, `1 / pi ** 0.25`, and a tolerance (`1e-14`). -/
noncomputable def realHerm (tol : ℝ) : HermEnv ℝ := ⟨Real.sqrt, 1 / Real.pi ^ (1 / 4 : ℝ), tol⟩

/-! ### The recurrence -/

namespace Hermite

theorem pim4_sq (tol : ℝ) : (realHerm tol).pim4 ^ 2 = 1 / Real.sqrt Real.pi := by
  simp only [realHerm]
  rw [div_pow, one_pow, ← Real.rpow_natCast, ← Real.rpow_mul Real.pi_pos.le, Real.sqrt_eq_rpow]
  norm_num

theorem pim4_pos (tol : ℝ) : 0 < (realHerm tol).pim4 := by
  simp only [realHerm]
  have := Real.rpow_pos_of_pos Real.pi_pos (1 / 4 : ℝ)
  positivity

theorem sqrt_κ_pos (j : ℕ) : 0 < Real.sqrt (κ j) := Real.sqrt_pos.2 (κ_pos j)

theorem hermP_eq (tol z : ℝ) (j : ℕ) :
    (hermP (realHerm tol) z j).1 = (realHerm tol).pim4 * (h j).eval z / Real.sqrt (κ j) ∧
    (hermP (realHerm tol) z (j + 1)).2 = (realHerm tol).pim4 * (h j).eval z / Real.sqrt (κ j) := by
  have key : ∀ j, (hermP (realHerm tol) z j).1 = (realHerm tol).pim4 * (h j).eval z / Real.sqrt (κ j) := by
    intro j
    induction j using Nat.twoStepInduction with
    | zero => simp [hermP, h, κ]
    | one =>
      have e : Real.sqrt (κ 1) = (Real.sqrt 2)⁻¹ := by
        rw [← Real.sqrt_inv]; simp [κ]
      rw [e]
      simp [hermP, h, realHerm]
      ring
    | more j ih1 ih2 =>
      have hrec : (hermP (realHerm tol) z (j + 2)).1
          = z * Real.sqrt (2 / (((j + 1 : ℕ) : ℝ) + 1)) * (hermP (realHerm tol) z (j + 1)).1
            - Real.sqrt (((j + 1 : ℕ) : ℝ) / (((j + 1 : ℕ) : ℝ) + 1)) * (hermP (realHerm tol) z j).1 := rfl
      rw [hrec, ih1, ih2, h_succ_succ]
      simp only [eval_sub, eval_mul, eval_X, eval_C]
      have hk0 := sqrt_κ_pos j
      have hj1 : (0 : ℝ) < (j : ℝ) + 1 := by positivity
      have hj2 : (0 : ℝ) < (j : ℝ) + 1 + 1 := by positivity
      have a1 : Real.sqrt (κ (j + 1)) = Real.sqrt (((j : ℝ) + 1) / 2) * Real.sqrt (κ j) := by
        rw [κ_succ, Real.sqrt_mul (by positivity)]
      have a2 : Real.sqrt (κ (j + 2)) = Real.sqrt (((j : ℝ) + 1 + 1) / 2) * Real.sqrt (κ (j + 1)) := by
        rw [κ_succ, Real.sqrt_mul (by positivity)]; push_cast; rfl
      have b0 : Real.sqrt (2 / ((j : ℝ) + 1 + 1)) = (Real.sqrt (((j : ℝ) + 1 + 1) / 2))⁻¹ := by
        rw [← Real.sqrt_inv, inv_div]
      have b1 : Real.sqrt (((j : ℝ) + 1) / ((j : ℝ) + 1 + 1))
          = Real.sqrt (((j : ℝ) + 1) / 2) / Real.sqrt (((j : ℝ) + 1 + 1) / 2) := by
        rw [← Real.sqrt_div (by positivity)]
        congr 1
        field_simp
      have c1 : (0 : ℝ) < Real.sqrt (((j : ℝ) + 1) / 2) := Real.sqrt_pos.2 (by positivity)
      have c2 : (0 : ℝ) < Real.sqrt (((j : ℝ) + 1 + 1) / 2) := Real.sqrt_pos.2 (by positivity)
      have d1 : ((j : ℝ) + 1) / 2 = Real.sqrt (((j : ℝ) + 1) / 2) ^ 2 := by
        rw [Real.sq_sqrt (by positivity)]
      push_cast
      rw [a2, a1, b0, b1, d1]
      generalize Real.sqrt (((j : ℝ) + 1) / 2) = s at *
      generalize Real.sqrt (((j : ℝ) + 1 + 1) / 2) = t at *
      have e : Real.sqrt (s ^ 2) = s := Real.sqrt_sq c1.le
      rw [e]
      field_simp
  exact ⟨key j, key j⟩

/-- The derivative factor and the Newton step. -/
theorem step_eq (tol z : ℝ) (n : ℕ) :
    (hermP (realHerm tol) z (n + 1)).1
        / (Real.sqrt (2 * ((n + 1 : ℕ) : ℝ)) * (hermP (realHerm tol) z (n + 1)).2)
      = (h (n + 1)).eval z / (derivative (h (n + 1))).eval z ∧
    2 / (Real.sqrt (2 * ((n + 1 : ℕ) : ℝ)) * (hermP (realHerm tol) z (n + 1)).2) ^ 2
      = Real.sqrt Real.pi * lam n z ∧
    (Real.sqrt (2 * ((n + 1 : ℕ) : ℝ)) * (hermP (realHerm tol) z (n + 1)).2 = 0 ↔
      (derivative (h (n + 1))).eval z = 0) := by
  have hp := pim4_pos tol
  have hp2 := pim4_sq tol
  have hk := sqrt_κ_pos n
  have hn : (0 : ℝ) < (n : ℝ) + 1 := by positivity
  have hkk : Real.sqrt (κ n) ^ 2 = κ n := Real.sq_sqrt (κ_pos n).le
  have hs : (0 : ℝ) < Real.sqrt (((n : ℝ) + 1) / 2) := Real.sqrt_pos.2 (by positivity)
  have a1 : Real.sqrt (κ (n + 1)) = Real.sqrt (((n : ℝ) + 1) / 2) * Real.sqrt (κ n) := by
    rw [κ_succ, Real.sqrt_mul (by positivity)]
  have a2 : Real.sqrt (2 * ((n : ℝ) + 1)) = 2 * Real.sqrt (((n : ℝ) + 1) / 2) := by
    have : 2 * ((n : ℝ) + 1) = 2 ^ 2 * (((n : ℝ) + 1) / 2) := by ring
    rw [this, Real.sqrt_mul (by positivity), Real.sqrt_sq (by norm_num)]
  have a3 : (n : ℝ) + 1 = 2 * Real.sqrt (((n : ℝ) + 1) / 2) ^ 2 := by
    rw [Real.sq_sqrt (by positivity)]; ring
  have hpi : (0 : ℝ) < Real.sqrt Real.pi := Real.sqrt_pos.2 Real.pi_pos
  rw [(hermP_eq tol z (n + 1)).1, (hermP_eq tol z n).2, a1, derivative_h]
  push_cast
  rw [a2]
  simp only [eval_mul, eval_C]
  refine ⟨?_, ?_, ?_⟩
  · rw [a3]
    generalize Real.sqrt (((n : ℝ) + 1) / 2) = s at *
    have e : Real.sqrt (2 * s ^ 2 / 2) = s := by
      rw [mul_div_cancel_left₀ _ (by norm_num : (2 : ℝ) ≠ 0), Real.sqrt_sq hs.le]
    by_cases hz : (h n).eval z = 0
    · simp [hz]
    · rw [mul_div_cancel_left₀ _ (by norm_num : (2 : ℝ) ≠ 0), Real.sqrt_sq hs.le]
      field_simp
  · rw [lam]
    by_cases hz : (h n).eval z = 0
    · simp [hz]
    · rw [mul_pow, div_pow, mul_pow, mul_pow, hp2, hkk, Real.sq_sqrt (by positivity)]
      field_simp
  · constructor
    · intro h0
      rcases mul_eq_zero.1 h0 with h1 | h1
      · exact absurd h1 (by positivity)
      · rcases div_eq_zero_iff.1 h1 with h2 | h2
        · rw [(mul_eq_zero.1 h2).resolve_left hp.ne', mul_zero]
        · exact absurd h2 hk.ne'
    · intro h0
      rw [(mul_eq_zero.1 h0).resolve_left hn.ne', mul_zero, zero_div, mul_zero]

/-- The Newton iterations end with a short step. -/
theorem hermNewton_spec (tol : ℝ) (n k : ℕ) (z : ℝ) (r : ℝ × ℝ)
    (hr : hermNewton (realHerm tol) (n + 1) k z = .ok r) :
    ∃ y, (derivative (h (n + 1))).eval y ≠ 0 ∧
      r.1 = y - (h (n + 1)).eval y / (derivative (h (n + 1))).eval y ∧
      |(h (n + 1)).eval y / (derivative (h (n + 1))).eval y| < tol ∧
      2 / r.2 ^ 2 = Real.sqrt Real.pi * lam n y := by
  induction k generalizing z with
  | zero => cases hr
  | succ k ih =>
    obtain ⟨s1, s2, s3⟩ := step_eq tol z n
    have hsq : ∀ a, (realHerm tol).sqrt a = Real.sqrt a := fun _ => rfl
    have htol : (realHerm tol).tol = tol := rfl
    simp only [hermNewton, hsq, htol] at hr
    split at hr
    · cases hr
    · rename_i hpp
      rw [s1] at hr
      split at hr
      · rename_i hlt
        split at hr
        · cases hr
        · cases hr
          refine ⟨z, fun h0 => hpp (s3.2 h0), rfl, ?_, s2⟩
          rwa [sub_sub_cancel_left, abs_neg] at hlt
      · exact ih _ hr

end Hermite

open Hermite

/-- What is known of one node and its weight: the node is one short Newton step away from a point
`y`, at which the weight is taken. -/
def HermNode (tol : ℝ) (n : ℕ) (x w : ℝ) : Prop :=
  ∃ y, (derivative (h (n + 1))).eval y ≠ 0 ∧
    |(h (n + 1)).eval y / (derivative (h (n + 1))).eval y| < tol ∧ |x - y| < tol ∧
    w = Real.sqrt Real.pi * lam n y

namespace Hermite

theorem h_neg_deriv (n : ℕ) (y : ℝ) :
    (derivative (h (n + 1))).eval (-y) = (-1) ^ n * (derivative (h (n + 1))).eval y := by
  rw [derivative_h]
  simp only [eval_mul, eval_C, h_neg]
  ring

theorem lam_neg (n : ℕ) (y : ℝ) : lam n (-y) = lam n y := by
  rw [lam, lam, h_neg, mul_pow, ← pow_mul, mul_comm n 2, pow_mul]
  simp

theorem hermNode_neg {tol : ℝ} {n : ℕ} {x w : ℝ} (hx : HermNode tol n x w) :
    HermNode tol n (-x) w := by
  obtain ⟨y, h1, h2, h3, h4⟩ := hx
  have hne : ((-1 : ℝ)) ^ n ≠ 0 := pow_ne_zero _ (by norm_num)
  refine ⟨-y, ?_, ?_, ?_, ?_⟩
  · rw [h_neg_deriv]; exact mul_ne_zero hne h1
  · rw [h_neg_deriv, h_neg, pow_succ, mul_assoc, mul_div_mul_left _ _ hne]
    simpa [neg_div] using h2
  · rw [← abs_neg]; simpa [sub_eq_add_neg, add_comm] using h3
  · rw [lam_neg]; exact h4

theorem hermLoop_spec (tol s6 c1 : ℝ) (n : ℕ) (k a : ℕ) (hk : a + k = (n + 1 + 1) / 2) (z : ℝ)
    (x w : ℕ → ℝ) (r : (ℕ → ℝ) × (ℕ → ℝ))
    (hin : ∀ i < a, HermNode tol n (x i) (w i) ∧ w (n - i) = w i ∧ (2 * i ≠ n → x (n - i) = -x i))
    (hr : hermLoop (realHerm tol) s6 c1 (n + 1) (List.range' a k) z x w = .ok r) :
    ∀ i < a + k, HermNode tol n (r.1 i) (r.2 i) ∧ r.2 (n - i) = r.2 i ∧
      (2 * i ≠ n → r.1 (n - i) = -r.1 i) := by
  induction k generalizing a z x w with
  | zero =>
    simp only [List.range'_zero, hermLoop] at hr
    cases hr
    simpa using hin
  | succ k ih =>
    rw [List.range'_succ] at hr
    simp only [hermLoop, bind, Except.bind] at hr
    split at hr
    · cases hr
    · rename_i z0 hz0
      split at hr
      · cases hr
      · rename_i p hp
        obtain ⟨y, h1, h2, h3, h4⟩ := hermNewton_spec tol n 100 z0 p hp
        have := ih (a + 1) (by omega) p.1 _ _ ?_ hr
        · rw [Nat.add_assoc, Nat.add_comm 1 k] at this
          exact this
        · intro i hi
          have hsub : n + 1 - a - 1 = n - a := by omega
          rw [hsub]
          by_cases hia : i = a
          · subst hia
            have hnode : HermNode tol n p.1 (2 / p.2 ^ 2) :=
              ⟨y, h1, h3, by rw [h2, sub_sub_cancel_left, abs_neg]; exact h3, h4⟩
            have hw : setAt (setAt w i (2 / p.2 ^ 2)) (n - i) (setAt w i (2 / p.2 ^ 2) i) i
                = 2 / p.2 ^ 2 := by
              simp only [setAt]; simp
            refine ⟨?_, ?_, ?_⟩
            · rw [hw]
              simp only [setAt, if_true]
              exact hermNode_neg hnode
            · rw [hw]; simp [setAt]
            · intro hne
              have : n - i ≠ i := by omega
              simp [setAt, this]
          · obtain ⟨g1, g2, g3⟩ := hin i (by omega)
            have e1 : i ≠ n - a := by omega
            have e2 : n - i ≠ n - a := by omega
            have e3 : n - i ≠ a ∨ i = a := by omega
            have e3 : n - i ≠ a := by omega
            simp only [setAt, hia, e1, e2, e3, if_false]
            exact ⟨g1, g2, g3⟩

end Hermite

theorem hermgauss_spec (tol s6 c1 : ℝ) (n : ℕ) (x w : List ℝ)
    (hr : hermgauss (realHerm tol) s6 c1 (n + 1) = .ok (x, w)) :
    x.length = n + 1 ∧ w.length = n + 1 ∧
    ∀ i < n + 1, HermNode tol n (x.getD i 0) (w.getD i 0) ∧ w.getD (n - i) 0 = w.getD i 0 ∧
      (2 * i ≠ n → x.getD (n - i) 0 = -x.getD i 0) := by
  unfold hermgauss at hr
  rcases hl : hermLoop (realHerm tol) s6 c1 (n + 1) (List.range ((n + 1 + 1) / 2)) 0 (fun _ => 0)
    (fun _ => 0) with e | r
  · rw [hl] at hr; cases hr
  · rw [hl] at hr
    simp only [bind, Except.bind, pure, Except.pure, Except.ok.injEq, Prod.mk.injEq] at hr
    obtain ⟨rfl, rfl⟩ := hr
    rw [List.range_eq_range'] at hl
    have := hermLoop_spec tol s6 c1 n ((n + 1 + 1) / 2) 0 (by omega) 0 _ _ r (by omega) hl
    refine ⟨by simp, by simp, ?_⟩
    intro i hi
    have e1 : ∀ f : ℕ → ℝ, ∀ j < n + 1, ((List.range (n + 1)).map f).getD j 0 = f j := by
      intro f j hj
      simp [List.getD_eq_getElem?_getD, hj]
    rw [e1 _ i hi, e1 _ i hi, e1 _ (n - i) (by omega), e1 _ (n - i) (by omega)]
    by_cases h2 : i < (n + 1 + 1) / 2
    · exact this i (by omega)
    · obtain ⟨g1, g2, g3⟩ := this (n - i) (by omega)
      have e2 : n - (n - i) = i := by omega
      rw [e2] at g2 g3
      have g4 := g3 (by omega)
      refine ⟨?_, g2.symm, fun _ => ?_⟩
      · rw [g4, g2]; exact hermNode_neg g1
      · rw [g4, neg_neg]

/-! ### The theorems -/

/-- **C98, the polynomials.**  `h n` is the Hermite polynomial: monic, of degree `n`, and orthogonal
to all polynomials of lower degree for the weight `exp (-x²)`. -/
theorem C98_polynomials (n : ℕ) :
    (h n : ℝ[X]).Monic ∧ (h n : ℝ[X]).natDegree = n ∧
    ∀ q : ℝ[X], q.degree < n → ∫ x : ℝ, (h n * q).eval x * Real.exp (-x ^ 2) = 0 := by
  refine ⟨(monic_natDegree_h n).1, (monic_natDegree_h n).2, fun q hq => ?_⟩
  rw [integral_poly, L_h_mul n q hq, mul_zero]

theorem hermNode_near {tol : ℝ} {n : ℕ} {x w : ℝ} (hx : HermNode tol n x w) (r : ℕ → ℝ)
    (hr : IncOn (n + 1) r) (h0 : ∀ i < n + 1, (h (n + 1)).eval (r i) = 0) :
    ∃ i < n + 1, |x - r i| < (n + 2) * tol ∧
      ∃ y, |y - r i| < (n + 2) * tol ∧ w = Real.sqrt Real.pi * lam n y := by
  obtain ⟨y, h1, h2, h3, h4⟩ := hx
  obtain ⟨i, hi, hy⟩ := near_root (n + 1) r hr h0 y tol h1 h2
  have htol : 0 < tol := lt_of_le_of_lt (abs_nonneg _) h2
  push_cast at hy
  refine ⟨i, hi, ?_, y, by linarith, h4⟩
  have := abs_sub_le x y (r i)
  linarith

/-- **C98, nodes.**  For every order `n ≥ 1`, whenever `hermgauss(n)` returns, whatever the starting
values, it returns `n` nodes and `n` weights; they are symmetric (except the middle node of an odd
order, which is opposite to itself only if it is zero), the weights are positive, and every node is
within `(n + 1) tol` of a root of the Hermite polynomial. -/
theorem C98_nodes (tol s6 c1 : ℝ) (n : ℕ) (x w : List ℝ)
    (hr : hermgauss (realHerm tol) s6 c1 (n + 1) = .ok (x, w)) :
    x.length = n + 1 ∧ w.length = n + 1 ∧
    ∀ i < n + 1, 0 < w.getD i 0 ∧ w.getD (n - i) 0 = w.getD i 0 ∧
      (2 * i ≠ n → x.getD (n - i) 0 = -x.getD i 0) ∧
      ∃ r, (h (n + 1)).eval r = 0 ∧ |x.getD i 0 - r| < (n + 2) * tol := by
  obtain ⟨h1, h2, h3⟩ := hermgauss_spec tol s6 c1 n x w hr
  refine ⟨h1, h2, fun i hi => ?_⟩
  obtain ⟨g1, g2, g3⟩ := h3 i hi
  refine ⟨?_, g2, g3, ?_⟩
  · obtain ⟨y, a1, -, -, a4⟩ := g1
    rw [a4, lam]
    rw [derivative_h, eval_mul] at a1
    have a5 : (h n).eval y ≠ 0 := right_ne_zero_of_mul a1
    have := κ_pos (K := ℝ) n
    have := Real.sqrt_pos.2 Real.pi_pos
    positivity
  · obtain ⟨r, hr, h0⟩ := exists_roots (n + 1)
    obtain ⟨j, hj, hn, -⟩ := hermNode_near g1 r hr h0
    exact ⟨r j, h0 j hj, hn⟩

/-- **C98, exactness of the weights.**  With nodes at the roots of the Hermite polynomial of degree
`n`, and at each of them the weight that `hermgauss` computes there, every polynomial of degree less
than `2 n` is integrated exactly against `exp (-x²)`. -/
theorem C98_weights (n : ℕ) (f : ℝ[X]) (hf : f.natDegree < 2 * (n + 1)) (r : Fin (n + 1) → ℝ)
    (hr : Function.Injective r) (h0 : ∀ i, (h (n + 1)).eval (r i) = 0) (tol : ℝ) :
    ∑ i, 2 / (Real.sqrt (2 * ((n + 1 : ℕ) : ℝ)) * (hermP (realHerm tol) (r i) (n + 1)).2) ^ 2
        * f.eval (r i)
      = ∫ x : ℝ, f.eval x * Real.exp (-x ^ 2) := by
  rw [integral_poly, ← Q_eq_L n r hr h0 f hf, Q, Finset.mul_sum]
  refine Finset.sum_congr rfl fun i _ => ?_
  rw [(step_eq tol (r i) n).2.1, mul_assoc]

theorem lam_continuousAt (n : ℕ) (r : ℝ) (h0 : (h (n + 1)).eval r = 0) : ContinuousAt (lam n) r := by
  have hpos := lam_pos n r h0
  have hne : (((n : ℝ) + 1) * (h n).eval r ^ 2) ≠ 0 := by
    intro h
    rw [lam, h, div_zero] at hpos
    exact lt_irrefl _ hpos
  unfold lam
  exact ContinuousAt.div continuousAt_const
    (continuousAt_const.mul ((h n).continuous.continuousAt.pow 2)) hne

/-- **C98, integration** (partial: the code does not check that its nodes are apart).  For every order
`n`, polynomial of degree less than `2 n` and `ε > 0`, with a small enough tolerance the rule
integrates the polynomial within `ε`, whatever the starting values, provided the returned nodes are
further apart than twice the distance `(n + 1) tol` to the nearest root. -/
theorem C98_integration_partial (n : ℕ) (f : ℝ[X]) (hf : f.natDegree < 2 * (n + 1)) (ε : ℝ)
    (hε : 0 < ε) :
    ∃ δ > 0, ∀ tol s6 c1 : ℝ, ∀ x w : List ℝ, tol ≤ δ →
      hermgauss (realHerm tol) s6 c1 (n + 1) = .ok (x, w) →
      (∀ i < n + 1, ∀ j < n + 1, i ≠ j → 2 * ((n + 2) * tol) ≤ |x.getD i 0 - x.getD j 0|) →
      |((x.zip w).map fun p => p.2 * f.eval p.1).sum - ∫ u : ℝ, f.eval u * Real.exp (-u ^ 2)| < ε := by
  obtain ⟨r, hr, h0⟩ := exists_roots (n + 1)
  have hpi : 0 < Real.sqrt Real.pi := Real.sqrt_pos.2 Real.pi_pos
  have hn1 : (0 : ℝ) < (n : ℝ) + 1 := by positivity
  have hloc : ∀ j < n + 1, ∃ δ > 0, ∀ a b : ℝ, |a - r j| < δ → |b - r j| < δ →
      |Real.sqrt Real.pi * lam n b * f.eval a - Real.sqrt Real.pi * lam n (r j) * f.eval (r j)|
        < ε / (n + 1) := by
    intro j hj
    have hc : ContinuousAt (fun p : ℝ × ℝ => Real.sqrt Real.pi * lam n p.2 * f.eval p.1)
        (r j, r j) := by
      refine (continuousAt_const.mul ?_).mul ?_
      · exact ContinuousAt.comp' (f := fun p : ℝ × ℝ => p.2) (lam_continuousAt n (r j) (h0 j hj))
          continuousAt_snd
      · exact ContinuousAt.comp' (f := fun p : ℝ × ℝ => p.1) f.continuous.continuousAt
          continuousAt_fst
    obtain ⟨δ, hδ, hd⟩ := Metric.continuousAt_iff.1 hc (ε / (n + 1)) (by positivity)
    refine ⟨δ, hδ, fun a b ha hb => ?_⟩
    have := hd (x := (a, b)) (by
      rw [Prod.dist_eq, max_lt_iff, Real.dist_eq, Real.dist_eq]; exact ⟨ha, hb⟩)
    rwa [Real.dist_eq] at this
  have hglob : ∃ δ > 0, ∀ j < n + 1, ∀ a b : ℝ, |a - r j| < δ → |b - r j| < δ →
      |Real.sqrt Real.pi * lam n b * f.eval a - Real.sqrt Real.pi * lam n (r j) * f.eval (r j)|
        < ε / (n + 1) := by
    have : ∀ m ≤ n + 1, ∃ δ > 0, ∀ j < m, ∀ a b : ℝ, |a - r j| < δ → |b - r j| < δ →
        |Real.sqrt Real.pi * lam n b * f.eval a - Real.sqrt Real.pi * lam n (r j) * f.eval (r j)|
          < ε / (n + 1) := by
      intro m
      induction m with
      | zero => exact fun _ => ⟨1, one_pos, fun j hj => by omega⟩
      | succ m ih =>
        intro hm
        obtain ⟨δ₁, p1, q1⟩ := ih (by omega)
        obtain ⟨δ₂, p2, q2⟩ := hloc m (by omega)
        refine ⟨min δ₁ δ₂, lt_min p1 p2, fun j hj a b ha hb => ?_⟩
        rcases Nat.lt_succ_iff_lt_or_eq.1 hj with h | h
        · exact q1 j h a b (ha.trans_le (min_le_left _ _)) (hb.trans_le (min_le_left _ _))
        · subst h
          exact q2 a b (ha.trans_le (min_le_right _ _)) (hb.trans_le (min_le_right _ _))
    exact this (n + 1) le_rfl
  obtain ⟨δ, hδ, hclose⟩ := hglob
  refine ⟨δ / (n + 2), by positivity, ?_⟩
  intro tol s6 c1 x w htol hgauss hsep
  have hle : ((n : ℝ) + 2) * tol ≤ δ := by
    have : (0 : ℝ) < (n : ℝ) + 2 := by positivity
    calc ((n : ℝ) + 2) * tol ≤ ((n : ℝ) + 2) * (δ / (n + 2)) := mul_le_mul_of_nonneg_left htol this.le
      _ = δ := by field_simp
  obtain ⟨l1, l2, hnodes⟩ := hermgauss_spec tol s6 c1 n x w hgauss
  have hex : ∀ i : Fin (n + 1), ∃ j : Fin (n + 1), |x.getD i 0 - r j| < (n + 2) * tol ∧
      ∃ y, |y - r j| < (n + 2) * tol ∧ w.getD i 0 = Real.sqrt Real.pi * lam n y := by
    intro i
    obtain ⟨j, hj, h1, h2⟩ := hermNode_near (hnodes i i.2).1 r hr h0
    exact ⟨⟨j, hj⟩, h1, h2⟩
  choose σ hσ y hy hw using hex
  have hinj : Function.Injective σ := by
    intro i j hij
    by_contra hne
    have h1 := hsep i i.2 j j.2 (fun h => hne (Fin.ext h))
    have h2 := hσ i
    have h3 := hσ j
    rw [hij] at h2
    have := abs_sub_le (x.getD i 0) (r (σ j)) (x.getD j 0)
    rw [abs_sub_comm (r (σ j))] at this
    linarith
  have hbij : Function.Bijective σ := Finite.injective_iff_bijective.1 hinj
  have hsum : ((x.zip w).map fun p => p.2 * f.eval p.1).sum
      = ∑ i : Fin (n + 1), w.getD i 0 * f.eval (x.getD i 0) := by
    have hz : (x.zip w).map (fun p => p.2 * f.eval p.1)
        = List.ofFn fun i : Fin (n + 1) => w.getD i 0 * f.eval (x.getD i 0) := by
      apply List.ext_getElem
      · simp [l1, l2]
      · intro i hi hi'
        have hi2 : i < n + 1 := by simpa using hi'
        rw [List.getElem_ofFn]
        simp [List.getD_eq_getElem?_getD, l1, l2, hi2]
    rw [hz, List.sum_ofFn]
  have hexact : ∫ u : ℝ, f.eval u * Real.exp (-u ^ 2)
      = ∑ i : Fin (n + 1), Real.sqrt Real.pi * lam n (r (σ i)) * f.eval (r (σ i)) := by
    rw [Function.Bijective.sum_comp hbij
      (fun j : Fin (n + 1) => Real.sqrt Real.pi * lam n (r j) * f.eval (r j))]
    rw [integral_poly, ← Q_eq_L n (fun i : Fin (n + 1) => r i) (fun i j h =>
      Fin.ext (hr.injOn i.2 j.2 h)) (fun i => h0 i i.2) f hf, Q, Finset.mul_sum]
    exact Finset.sum_congr rfl fun i _ => by ring
  rw [hsum, hexact, ← Finset.sum_sub_distrib]
  calc |∑ i : Fin (n + 1), (w.getD i 0 * f.eval (x.getD i 0)
        - Real.sqrt Real.pi * lam n (r (σ i)) * f.eval (r (σ i)))|
      ≤ ∑ i : Fin (n + 1), |w.getD i 0 * f.eval (x.getD i 0)
        - Real.sqrt Real.pi * lam n (r (σ i)) * f.eval (r (σ i))| := Finset.abs_sum_le_sum_abs _ _
    _ < ∑ _i : Fin (n + 1), ε / (n + 1) := by
      refine Finset.sum_lt_sum_of_nonempty ⟨0, Finset.mem_univ _⟩ fun i _ => ?_
      rw [hw i]
      exact hclose (σ i) (σ i).2 _ _ ((hσ i).trans_le hle) ((hy i).trans_le hle)
    _ = ε := by
      rw [Finset.sum_const, Finset.card_univ, Fintype.card_fin, nsmul_eq_mul]
      push_cast
      field_simp

/-- The rule for the standard normal distribution made from nodes at the roots, lines 86-89:
`points * sqrt(2)`, `weights / sqrt(pi)`. -/
noncomputable def exactRule (n : ℕ) (r : ℕ → ℝ) (tol : ℝ) : Rule ℝ :=
  ⟨(List.range (n + 1)).map fun i => r i * Real.sqrt 2,
    (List.range (n + 1)).map fun i =>
      2 / (Real.sqrt (2 * ((n + 1 : ℕ) : ℝ)) * (hermP (realHerm tol) (r i) (n + 1)).2) ^ 2
        / Real.sqrt Real.pi⟩

/-- **C98, normal expectations.**  The rule built from nodes at the roots gives the expectation of
every polynomial of degree less than `2 n` under the standard normal distribution. -/
theorem C98_normal (n : ℕ) (r : ℕ → ℝ) (hr : ∀ i < n + 1, ∀ j < n + 1, r i = r j → i = j)
    (h0 : ∀ i < n + 1, (h (n + 1)).eval (r i) = 0) (tol : ℝ) (g : ℝ[X])
    (hg : g.natDegree < 2 * (n + 1)) :
    (List.zipWith (fun w x => w * g.eval x) (exactRule n r tol).weights
        (exactRule n r tol).points).sum
      = ∫ x, g.eval x ∂(ProbabilityTheory.gaussianReal 0 1) := by
  have hpi : Real.sqrt Real.pi ≠ 0 := (Real.sqrt_pos.2 Real.pi_pos).ne'
  rw [gaussian_poly, ← Q_eq_L n (fun i : Fin (n + 1) => r i)
    (fun i j h => Fin.ext (hr i i.2 j j.2 h)) (fun i => h0 i i.2), Q,
    Fin.sum_univ_eq_sum_range
      (fun i => lam n (r i) * (g.comp (C (Real.sqrt 2) * X)).eval (r i))]
  · simp only [exactRule, List.zipWith_map, List.zipWith_self]
    show ∑ i ∈ Finset.range (n + 1), _ = _
    refine Finset.sum_congr rfl fun i _ => ?_
    rw [(step_eq tol (r i) n).2.1, mul_div_assoc, mul_comm (Real.sqrt Real.pi)]
    rw [div_mul_cancel₀ _ hpi]
    rw [eval_comp, eval_mul, eval_C, eval_X, mul_comm (r i)]
  · refine lt_of_le_of_lt natDegree_comp_le ?_
    have : (C (Real.sqrt 2) * X : ℝ[X]).natDegree ≤ 1 :=
      (natDegree_C_mul_le _ _).trans natDegree_X_le
    nlinarith

/-- **C98, for C09.**  With at least two nodes, that rule has the moments that the discretisation of
normal distributions relies on. -/
theorem C98_std_rule (n : ℕ) (hn : 1 ≤ n) (r : ℕ → ℝ)
    (hr : ∀ i < n + 1, ∀ j < n + 1, r i = r j → i = j)
    (h0 : ∀ i < n + 1, (h (n + 1)).eval (r i) = 0) (tol : ℝ) : StdRule (exactRule n r tol) := by
  have key := C98_normal n r hr h0 tol
  have hL : ∀ g : ℝ[X], ∫ x, g.eval x ∂(ProbabilityTheory.gaussianReal 0 1)
      = L (g.comp (C (Real.sqrt 2) * X)) := gaussian_poly
  refine ⟨by simp [exactRule], ?_, ?_, ?_⟩
  · have := key 1 (by simp)
    rw [hL, one_comp, L_one] at this
    rw [← this]
    simp only [eval_one, mul_one, exactRule]
    rw [List.zipWith_map, List.zipWith_self]
  · have := key X (by rw [natDegree_X]; omega)
    rw [hL, X_comp, L_C_mul, ← monomial_one_one_eq_X, L_monomial] at this
    simpa [moment] using this
  · have := key (X ^ 2) (by rw [natDegree_X_pow]; omega)
    have h2 : Real.sqrt 2 ^ 2 = 2 := Real.sq_sqrt (by norm_num)
    rw [hL, pow_comp, X_comp, mul_pow, ← C_pow, h2, L_C_mul, ← monomial_one_right_eq_X_pow,
      L_monomial] at this
    have e : (List.zipWith (fun w x => w * x ^ 2) (exactRule n r tol).weights
        (exactRule n r tol).points).sum
        = (List.zipWith (fun w x => w * (monomial 2 1 : ℝ[X]).eval x) (exactRule n r tol).weights
        (exactRule n r tol).points).sum := by simp
    rw [e, this]
    simp [moment]

/-- **C98, one node.**  Whatever the starting value, `hermgauss(1)` returns the node zero and the
weight `√π`. -/
theorem C98_order_one (tol s6 c1 : ℝ) (ht : 0 < tol) :
    hermgauss (realHerm tol) s6 c1 1 = .ok ([0], [Real.sqrt Real.pi]) := by
  have hsq : ∀ a, (realHerm tol).sqrt a = Real.sqrt a := fun _ => rfl
  have htol : (realHerm tol).tol = tol := rfl
  have hstep : ∀ z, (hermP (realHerm tol) z 1).1
      / (Real.sqrt (2 * ((1 : ℕ) : ℝ)) * (hermP (realHerm tol) z 1).2) = z := by
    intro z
    have := (step_eq tol z 0).1
    simpa [h] using this
  have hne : ∀ z, Real.sqrt (2 * ((1 : ℕ) : ℝ)) * (hermP (realHerm tol) z 1).2 ≠ 0 := by
    intro z
    have := (step_eq tol z 0).2.2
    simp only [zero_add, h, derivative_X, eval_one, one_ne_zero, iff_false] at this
    exact this
  have hw : ∀ z, 2 / (Real.sqrt (2 * ((1 : ℕ) : ℝ)) * (hermP (realHerm tol) z 1).2) ^ 2
      = Real.sqrt Real.pi := by
    intro z
    have := (step_eq tol z 0).2.1
    rw [show lam 0 z = 1 by simp [lam, h, κ], mul_one] at this
    exact this
  have hN : ∀ z, ∃ q, hermNewton (realHerm tol) 1 100 z = .ok (0, q)
      ∧ 2 / q ^ 2 = Real.sqrt Real.pi := by
    intro z
    rw [hermNewton]
    simp only [hsq, htol]
    rw [if_neg (hne z), hstep, sub_self]
    split_ifs with h1 h2
    · exact absurd h2 (by norm_num)
    · exact ⟨_, rfl, hw z⟩
    · rw [hermNewton]
      simp only [hsq, htol]
      rw [if_neg (hne 0), hstep, sub_self, sub_self, abs_zero, if_pos ht, if_neg (by norm_num)]
      exact ⟨_, rfl, hw 0⟩
  obtain ⟨q, q1, q2⟩ := hN ((realHerm tol).sqrt (2 * ((1 : ℕ) : ℝ) + 1) - 185575 / 100000 * s6)
  simp only [hermgauss, hermLoop, hermStart, List.range_succ, List.range_zero, List.nil_append, q1,
    bind, Except.bind, pure, Except.pure, q2, Nat.reduceAdd, Nat.reduceDiv, List.map_cons,
    List.map_nil]
  simp [setAt]

/-- Non-vacuity of `C98_nodes`: a call that returns, for every positive tolerance. -/
example : ∃ x w : List ℝ, hermgauss (realHerm (1 / 10 ^ 14)) (3 / 4) 1 1 = .ok (x, w) :=
  ⟨_, _, C98_order_one _ _ _ (by norm_num)⟩

/-- Non-vacuity of `C98_normal` and `C98_std_rule`: the two roots `± 1/√2` of order two. -/
example (tol : ℝ) : StdRule (exactRule 1
    (fun i => if i = 0 then -Real.sqrt (1 / 2) else Real.sqrt (1 / 2)) tol) := by
  have hp : 0 < Real.sqrt (1 / 2) := Real.sqrt_pos.2 (by norm_num)
  have hs : Real.sqrt (1 / 2) ^ 2 = 1 / 2 := Real.sq_sqrt (by norm_num)
  refine C98_std_rule 1 le_rfl _ ?_ ?_ tol
  · intro i hi j hj hij
    generalize Real.sqrt (1 / 2) = a at hp hij
    interval_cases i <;> interval_cases j <;>
      simp only [one_ne_zero, if_true, if_false] at hij ⊢ <;> linarith
  · intro i hi
    have he : ∀ z : ℝ, (h (1 + 1)).eval z = z ^ 2 - 1 / 2 := by
      intro z
      simp [h]
      ring
    rw [he]
    interval_cases i <;> simp only [one_ne_zero, if_true, if_false, neg_sq, hs, sub_self]

end Dolo
