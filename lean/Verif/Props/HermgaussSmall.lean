import Mathlib.Analysis.SpecialFunctions.Pow.Real
import Mathlib.Tactic.IntervalCases
import Mathlib.Tactic.LinearCombination
import Verif.Props.Hermgauss

/-!
# C98: the iterations of `hermgauss` find the largest root; orders two and three in full
-/

set_option linter.unusedSectionVars false

namespace Dolo

open Polynomial Hermite

/-! ### Lemmas -/

/-- A step of the iterations. -/
private noncomputable def nStep (n : ℕ) (z : ℝ) : ℝ := z - (h (n + 1)).eval z / (derivative (h (n + 1))).eval z

/-- Iterations that reduce an error by a factor `q` return after enough of them. -/
private theorem newton_returns (tol : ℝ) (n : ℕ) (P : ℝ → Prop) (e : ℝ → ℝ) (q C : ℝ) (hq : 0 ≤ q) (hC : 0 ≤ C)
    (hP : ∀ z, P z → (derivative (h (n + 1))).eval z ≠ 0 ∧ P (nStep n z) ∧ e (nStep n z) ≤ q * e z ∧
      |nStep n z - z| ≤ C * e z) (k : ℕ) (z : ℝ) (hz : P z) (hk : C * (q ^ k * e z) < tol) :
    ∃ r y, hermNewton (realHerm tol) (n + 1) (k + 2) z = .ok r ∧ P y ∧ r.1 = nStep n y ∧ |nStep n y - y| < tol := by
  have hsq : ∀ a, (realHerm tol).sqrt a = Real.sqrt a := fun _ => rfl
  have htol : (realHerm tol).tol = tol := rfl
  have unfold1 : ∀ m z, P z → hermNewton (realHerm tol) (n + 1) (m + 2) z =
      if |nStep n z - z| < tol then .ok (nStep n z, Real.sqrt (2 * ((n + 1 : ℕ) : ℝ)) * (hermP (realHerm tol) z (n + 1)).2)
      else hermNewton (realHerm tol) (n + 1) (m + 1) (nStep n z) := by
    intro m z hz
    obtain ⟨s1, -, s3⟩ := step_eq tol z n
    rw [hermNewton]
    simp only [hsq, htol]
    rw [if_neg (fun h0 => (hP z hz).1 (s3.1 h0)), s1]
    rw [if_neg (Nat.succ_ne_zero m)]
    rfl
  induction k generalizing z with
  | zero =>
    rw [unfold1 0 z hz]
    have h4 := (hP z hz).2.2.2
    have : |nStep n z - z| < tol := by
      refine lt_of_le_of_lt h4 ?_
      simpa using hk
    rw [if_pos this]
    exact ⟨_, z, rfl, hz, rfl, this⟩
  | succ k ih =>
    rw [unfold1 (k + 1) z hz]
    split_ifs with hs
    · exact ⟨_, z, rfl, hz, rfl, hs⟩
    · refine ih (nStep n z) (hP z hz).2.1 (lt_of_le_of_lt ?_ hk)
      have h3 := (hP z hz).2.2.1
      have : q ^ k * e (nStep n z) ≤ q ^ (k + 1) * e z := by
        calc q ^ k * e (nStep n z) ≤ q ^ k * (q * e z) := mul_le_mul_of_nonneg_left h3 (pow_nonneg hq k)
          _ = q ^ (k + 1) * e z := by ring
      exact mul_le_mul_of_nonneg_left this hC

/-- To the right of the largest root, a step leads closer to it, and not beyond. -/
private theorem step_right (n : ℕ) (ρ : ℝ) (hρ : (h (n + 1)).eval ρ = 0)
    (hmax : ∀ r, (h (n + 1)).eval r = 0 → r ≤ ρ) (z : ℝ) (hz : ρ ≤ z) :
    (derivative (h (n + 1))).eval z ≠ 0 ∧ ρ ≤ nStep n z ∧ nStep n z ≤ z - (z - ρ) / (n + 1) := by
  obtain ⟨r, hr, h0⟩ := exists_roots (n + 1)
  have hroot : ∃ i < n + 1, r i = ρ := by
    rw [h_eq_prod (n + 1) r hr h0, eval_prod, Finset.prod_eq_zero_iff] at hρ
    obtain ⟨i, hi, hi0⟩ := hρ
    refine ⟨i, Finset.mem_range.1 hi, ?_⟩
    simp only [eval_sub, eval_X, eval_C] at hi0
    linarith
  obtain ⟨i0, hi0, hi0ρ⟩ := hroot
  rcases hz.eq_or_lt with rfl | hlt
  · have hd : (derivative (h (n + 1))).eval ρ ≠ 0 := by
      have := lam_pos n ρ hρ
      intro hd
      rw [derivative_h, eval_mul, eval_C] at hd
      have h2 : (h n).eval ρ = 0 := (mul_eq_zero.1 hd).resolve_left (by positivity)
      rw [lam, h2] at this
      simp at this
    refine ⟨hd, ?_, ?_⟩ <;> simp [nStep, hρ]
  · have hne : ∀ i < n + 1, z ≠ r i := by
      intro i hi he
      have := hmax (r i) (h0 i hi)
      linarith
    have hpos : ∀ i < n + 1, 0 < z - r i := by
      intro i hi
      have := hmax (r i) (h0 i hi)
      linarith
    have hl := logDeriv_h (n + 1) r hr h0 z hne
    set T := ∑ i ∈ Finset.range (n + 1), 1 / (z - r i) with hS
    have hzρ : 0 < z - ρ := by linarith
    have hlow : 1 / (z - ρ) ≤ T := by
      rw [hS, ← hi0ρ]
      refine Finset.single_le_sum (f := fun i => 1 / (z - r i)) ?_ (Finset.mem_range.2 hi0)
      intro i hi
      have := hpos i (Finset.mem_range.1 hi)
      positivity
    have hhigh : T ≤ (n + 1) / (z - ρ) := by
      have : T ≤ ∑ _i ∈ Finset.range (n + 1), 1 / (z - ρ) := by
        refine Finset.sum_le_sum fun i hi => ?_
        have := hmax (r i) (h0 i (Finset.mem_range.1 hi))
        exact one_div_le_one_div_of_le hzρ (by linarith)
      refine le_trans this (le_of_eq ?_)
      rw [Finset.sum_const, Finset.card_range, nsmul_eq_mul]
      push_cast; ring
    have hSpos : 0 < T := lt_of_lt_of_le (by positivity) hlow
    have hh : (h (n + 1)).eval z ≠ 0 := by
      rw [h_eq_prod (n + 1) r hr h0, eval_prod, Finset.prod_ne_zero_iff]
      intro i hi
      simp only [eval_sub, eval_X, eval_C]
      exact (hpos i (Finset.mem_range.1 hi)).ne'
    have hstep : nStep n z = z - 1 / T := by
      rw [nStep, hl, div_mul_cancel_left₀ hh, one_div]
    refine ⟨by rw [hl]; exact mul_ne_zero hh hSpos.ne', ?_, ?_⟩
    · rw [hstep]
      have := one_div_le_one_div_of_le (by positivity) hlow
      rw [one_div_one_div] at this
      linarith
    · rw [hstep]
      have := one_div_le_one_div_of_le hSpos hhigh
      rw [one_div_div] at this
      linarith

/-! ### The theorems -/

/-- **C98, the largest root.**  For every order, iterations that start to the right of the largest root `ρ` of the Hermite
polynomial return, if `(1 - 1 / n) ^ 98` times the distance is below the threshold; the node found is not to the left of
`ρ` and is within `(n - 1)` times the threshold of it (`n` is `n + 1` in the statement). -/
theorem C98_largest_root (tol : ℝ) (n : ℕ) (ρ : ℝ) (hρ : (h (n + 1)).eval ρ = 0)
    (hmax : ∀ r, (h (n + 1)).eval r = 0 → r ≤ ρ) (z : ℝ) (hz : ρ ≤ z)
    (hs : ((n : ℝ) / (n + 1)) ^ 98 * (z - ρ) < tol) :
    ∃ r, hermNewton (realHerm tol) (n + 1) 100 z = .ok r ∧ ρ ≤ r.1 ∧ r.1 - ρ ≤ n * tol := by
  have hn1 : (0 : ℝ) < (n : ℝ) + 1 := by positivity
  have hP : ∀ z, ρ ≤ z → (derivative (h (n + 1))).eval z ≠ 0 ∧ ρ ≤ nStep n z ∧
      nStep n z - ρ ≤ (n : ℝ) / (n + 1) * (z - ρ) ∧ |nStep n z - z| ≤ 1 * (z - ρ) := by
    intro z hz
    obtain ⟨a1, a2, a3⟩ := step_right n ρ hρ hmax z hz
    refine ⟨a1, a2, ?_, ?_⟩
    · have e : (n : ℝ) / (n + 1) * (z - ρ) = z - (z - ρ) / (n + 1) - ρ := by field_simp; ring
      rw [e]; linarith
    · have : 0 ≤ (z - ρ) / (n + 1) := div_nonneg (by linarith) hn1.le
      rw [abs_of_nonpos (by linarith)]
      linarith
  obtain ⟨r, y, h1, h2, h3, h4⟩ := newton_returns tol n (fun z => ρ ≤ z) (fun z => z - ρ) ((n : ℝ) / (n + 1)) 1
    (by positivity) zero_le_one hP 98 z hz (by rw [one_mul]; exact hs)
  refine ⟨r, h1, ?_, ?_⟩
  · rw [h3]; exact (hP y h2).2.1
  · obtain ⟨-, b2, b3⟩ := step_right n ρ hρ hmax y h2
    rw [h3]
    have h5 : (y - ρ) / (n + 1) < tol := by
      have := (abs_lt.1 h4).1
      linarith
    rw [div_lt_iff₀ hn1] at h5
    have h6 := (hP y h2).2.2.1
    have h7 : (n : ℝ) / (n + 1) * (y - ρ) ≤ n / (n + 1) * (tol * (n + 1)) :=
      mul_le_mul_of_nonneg_left h5.le (by positivity)
    have e : (n : ℝ) / (n + 1) * (tol * (n + 1)) = n * tol := by field_simp
    linarith

private theorem h2_eval (z : ℝ) : (h 2 : ℝ[X]).eval z = z ^ 2 - 1 / 2 := by
  simp [h]; ring

private theorem h3_eval (z : ℝ) : (h 3 : ℝ[X]).eval z = z ^ 3 - 3 / 2 * z := by
  simp [h]; ring

private theorem h3_deriv (z : ℝ) : (derivative (h 3 : ℝ[X])).eval z = 3 * z ^ 2 - 3 / 2 := by
  rw [derivative_h, eval_mul, h2_eval, eval_C]; push_cast; ring

/-- **C98, two nodes.**  With the starting value of the code and every threshold from `1e-25`, `hermgauss(2)` returns; its
nodes are `-z` and `z` with `z` between the root `√(1/2)` and `√(1/2)` plus the threshold. -/
theorem C98_order_two (tol c1 : ℝ) (ht : 1 / 10 ^ 25 ≤ tol) :
    ∃ z w, hermgauss (realHerm tol) ((5 : ℝ) ^ (-(1 / 6) : ℝ)) c1 2 = .ok ([-z, z], [w, w]) ∧
      Real.sqrt (1 / 2) ≤ z ∧ z ≤ Real.sqrt (1 / 2) + tol := by
  set s := (5 : ℝ) ^ (-(1 / 6) : ℝ) with hs
  have hs0 : 0 < s := Real.rpow_pos_of_pos (by norm_num) _
  have hs6 : s ^ 6 = 1 / 5 := by
    rw [hs, ← Real.rpow_natCast, ← Real.rpow_mul (by norm_num)]
    norm_num
  have hs8 : s ≤ 8 / 10 := by
    by_contra hc
    push Not at hc
    have := pow_lt_pow_left₀ hc (by norm_num) (by norm_num : (6 : ℕ) ≠ 0)
    rw [hs6] at this
    norm_num at this
  have h5a : (2236 : ℝ) / 1000 ≤ Real.sqrt 5 := Real.le_sqrt_of_sq_le (by norm_num)
  have h5b : Real.sqrt 5 ≤ 3 := Real.sqrt_le_iff.2 (by norm_num)
  have hra : Real.sqrt (1 / 2) ≤ 7072 / 10000 := Real.sqrt_le_iff.2 (by norm_num)
  have hr0 : 0 ≤ Real.sqrt (1 / 2) := Real.sqrt_nonneg _
  have hrs : Real.sqrt (1 / 2) ^ 2 = 1 / 2 := Real.sq_sqrt (by norm_num)
  have hstart : Real.sqrt (1 / 2) ≤ Real.sqrt 5 - 185575 / 100000 * s := by linarith
  obtain ⟨r, r1, r2, r3⟩ := C98_largest_root tol 1 (Real.sqrt (1 / 2))
    (by rw [h2_eval, hrs]; ring)
    (by
      intro r hr
      rw [h2_eval] at hr
      exact Real.le_sqrt_of_sq_le (by linarith))
    _ hstart (by
      refine lt_of_lt_of_le ?_ ht
      have : Real.sqrt 5 - 185575 / 100000 * s - Real.sqrt (1 / 2) ≤ 3 := by linarith
      calc ((1 : ℕ) / ((1 : ℕ) + 1) : ℝ) ^ 98 * (Real.sqrt 5 - 185575 / 100000 * s - Real.sqrt (1 / 2))
          ≤ ((1 : ℕ) / ((1 : ℕ) + 1) : ℝ) ^ 98 * 3 := mul_le_mul_of_nonneg_left this (by positivity)
        _ < 1 / 10 ^ 25 := by norm_num)
  refine ⟨r.1, 2 / r.2 ^ 2, ?_, r2, ?_⟩
  · have e5 : (realHerm tol).sqrt (2 * ((2 : ℕ) : ℝ) + 1) = Real.sqrt 5 := by
      show Real.sqrt _ = _
      norm_num
    simp only [hermgauss, hermLoop, hermStart, List.range_succ, List.range_zero, List.nil_append,
      bind, Except.bind, pure, Except.pure, Nat.reduceAdd, Nat.reduceDiv, e5]
    have r1' : hermNewton (realHerm tol) 2 100 (Real.sqrt 5 - 185575 / 100000 * s) = .ok r := r1
    rw [r1']
    simp [setAt]
  · push_cast at r3
    linarith

/-- **C98, integration with two nodes.**  Whatever the starting values, with a small enough threshold `hermgauss(2)`
integrates every polynomial of degree below four within `ε` whenever it returns: its two nodes are always apart. -/
theorem C98_integration_two (f : ℝ[X]) (hf : f.natDegree < 4) (ε : ℝ) (hε : 0 < ε) :
    ∃ δ > 0, ∀ tol s6 c1 : ℝ, ∀ x w : List ℝ, tol ≤ δ → hermgauss (realHerm tol) s6 c1 2 = .ok (x, w) →
      |((x.zip w).map fun p => p.2 * f.eval p.1).sum - ∫ u : ℝ, f.eval u * Real.exp (-u ^ 2)| < ε := by
  obtain ⟨δ, hδ, H⟩ := C98_integration_partial 1 f hf ε hε
  refine ⟨min δ (1 / 10), lt_min hδ (by norm_num), ?_⟩
  intro tol s6 c1 x w htol hr
  refine H tol s6 c1 x w (le_trans htol (min_le_left _ _)) hr ?_
  obtain ⟨-, -, hn⟩ := C98_nodes tol s6 c1 1 x w hr
  obtain ⟨-, -, h3, ρ, h4, h5⟩ := hn 0 (by norm_num)
  have h3 := h3 (by norm_num)
  have ht : tol ≤ 1 / 10 := le_trans htol (min_le_right _ _)
  have hρ : ρ ^ 2 = 1 / 2 := by
    have : (h 2).eval ρ = 0 := h4
    rw [h2_eval] at this
    linarith
  have hρa : 7 / 10 ≤ |ρ| := by
    have : |ρ| = Real.sqrt (1 / 2) := by rw [← Real.sqrt_sq_eq_abs, hρ]
    rw [this]
    exact Real.le_sqrt_of_sq_le (by norm_num)
  push_cast at h5
  have h6 : 4 / 10 ≤ |x.getD 0 0| := by
    have := abs_sub_abs_le_abs_sub ρ (x.getD 0 0)
    rw [abs_sub_comm] at this
    linarith
  have hxx : |x.getD 0 0 - x.getD 1 0| = 2 * |x.getD 0 0| := by
    have e : x.getD 1 0 = -x.getD 0 0 := h3
    rw [e, sub_neg_eq_add, ← two_mul, abs_mul, abs_two]
  push_cast
  intro i hi j hj hij
  have hi' : i = 0 ∨ i = 1 := by omega
  have hj' : j = 0 ∨ j = 1 := by omega
  rcases hi' with rfl | rfl <;> rcases hj' with rfl | rfl
  · exact absurd rfl hij
  · rw [hxx]; linarith
  · rw [abs_sub_comm, hxx]; linarith
  · exact absurd rfl hij

/-- **C98, three nodes.**  With the starting values of the code and every threshold between `1e-16` and `1e-3`,
`hermgauss(3)` returns; its nodes are `-z`, `m` and `z` with `z` between the root `√(3/2)` and `√(3/2)` plus twice the
threshold, and `m` within half the threshold of the root zero. -/
theorem C98_order_three (tol : ℝ) (ht : 1 / 10 ^ 16 ≤ tol) (ht' : tol ≤ 1 / 10 ^ 3) :
    ∃ z m w0 w1, hermgauss (realHerm tol) ((7 : ℝ) ^ (-(1 / 6) : ℝ)) ((3 : ℝ) ^ (426 / 1000 : ℝ)) 3
        = .ok ([-z, m, z], [w0, w1, w0]) ∧
      Real.sqrt (3 / 2) ≤ z ∧ z ≤ Real.sqrt (3 / 2) + 2 * tol ∧ |m| ≤ tol / 2 := by
  set s := (7 : ℝ) ^ (-(1 / 6) : ℝ) with hs
  set c := (3 : ℝ) ^ (426 / 1000 : ℝ) with hc
  have hs0 : 0 < s := Real.rpow_pos_of_pos (by norm_num) _
  have hs6 : s ^ 6 = 1 / 7 := by
    rw [hs, ← Real.rpow_natCast, ← Real.rpow_mul (by norm_num)]
    norm_num
  have hs8 : s ≤ 75 / 100 := by
    by_contra hc
    push Not at hc
    have := pow_lt_pow_left₀ hc (by norm_num) (by norm_num : (6 : ℕ) ≠ 0)
    rw [hs6] at this
    norm_num at this
  have hcb : c ≤ 174 / 100 := by
    have h1 : c ≤ (3 : ℝ) ^ (1 / 2 : ℝ) := Real.rpow_le_rpow_of_exponent_le (by norm_num) (by norm_num)
    rw [← Real.sqrt_eq_rpow] at h1
    exact le_trans h1 (Real.sqrt_le_iff.2 (by norm_num))
  have hca : 144 / 100 ≤ c := by
    have h1 : (3 : ℝ) ^ (1 / 3 : ℝ) ≤ c := Real.rpow_le_rpow_of_exponent_le (by norm_num) (by norm_num)
    refine le_trans ?_ h1
    have h2 : ((3 : ℝ) ^ (1 / 3 : ℝ)) ^ 3 = 3 := by
      rw [← Real.rpow_natCast, ← Real.rpow_mul (by norm_num)]
      norm_num
    by_contra hcon
    push Not at hcon
    have := pow_lt_pow_left₀ hcon (Real.rpow_nonneg (by norm_num) _) (by norm_num : (3 : ℕ) ≠ 0)
    rw [h2] at this
    norm_num at this
  have h7a : (26457 : ℝ) / 10000 ≤ Real.sqrt 7 := Real.le_sqrt_of_sq_le (by norm_num)
  have h7b : Real.sqrt 7 ≤ 3 := Real.sqrt_le_iff.2 (by norm_num)
  have hra : Real.sqrt (3 / 2) ≤ 12248 / 10000 := Real.sqrt_le_iff.2 (by norm_num)
  have hrb : 12247 / 10000 ≤ Real.sqrt (3 / 2) := Real.le_sqrt_of_sq_le (by norm_num)
  have hrs : Real.sqrt (3 / 2) ^ 2 = 3 / 2 := Real.sq_sqrt (by norm_num)
  have hstart : Real.sqrt (3 / 2) ≤ Real.sqrt 7 - 185575 / 100000 * s := by linarith
  obtain ⟨r, r1, r2, r3⟩ := C98_largest_root tol 2 (Real.sqrt (3 / 2))
    (by rw [h3_eval]; linear_combination Real.sqrt (3 / 2) * hrs)
    (by
      intro r hr
      rw [h3_eval] at hr
      have hf : r * (r ^ 2 - 3 / 2) = 0 := by linarith
      rcases mul_eq_zero.1 hf with h | h
      · rw [h]; positivity
      · exact Real.le_sqrt_of_sq_le (by linarith))
    _ hstart (by
      refine lt_of_lt_of_le ?_ ht
      have : Real.sqrt 7 - 185575 / 100000 * s - Real.sqrt (3 / 2) ≤ 2 := by linarith
      calc ((2 : ℕ) / ((2 : ℕ) + 1) : ℝ) ^ 98 * (Real.sqrt 7 - 185575 / 100000 * s - Real.sqrt (3 / 2))
          ≤ ((2 : ℕ) / ((2 : ℕ) + 1) : ℝ) ^ 98 * 2 := mul_le_mul_of_nonneg_left this (by positivity)
        _ < 1 / 10 ^ 16 := by norm_num)
  push_cast at r3
  have hz0 : 0 < r.1 := by linarith
  have hq1 : 114 / 100 * c / r.1 ≤ 16198 / 10000 := by
    rw [div_le_iff₀ hz0]
    nlinarith
  have hq2 : 1335 / 1000 ≤ 114 / 100 * c / r.1 := by
    rw [le_div_iff₀ hz0]
    nlinarith
  have hst2 : |r.1 - 114 / 100 * c / r.1| ≤ 2 / 5 := by
    rw [abs_le]
    constructor <;> linarith
  have hd : ∀ y : ℝ, |y| ≤ 2 / 5 → 3 * y ^ 2 - 3 / 2 ≤ -(102 / 100) := by
    intro y hy
    have : y ^ 2 ≤ (2 / 5) ^ 2 := by
      rw [← sq_abs]
      exact pow_le_pow_left₀ (abs_nonneg _) hy 2
    norm_num at this
    linarith
  have hst : ∀ y : ℝ, |y| ≤ 2 / 5 → |nStep 2 y| ≤ 1 / 3 * |y| := by
    intro y hy
    have hdy := hd y hy
    have e : nStep 2 y = (2 * y ^ 2 / (3 * y ^ 2 - 3 / 2)) * y := by
      have hne : 3 * y ^ 2 - 3 / 2 ≠ 0 := by linarith
      rw [nStep, h3_eval, h3_deriv, div_mul_eq_mul_div (2 * y ^ 2), eq_div_iff hne, sub_mul, div_mul_cancel₀ _ hne]
      ring
    rw [e, abs_mul]
    refine mul_le_mul_of_nonneg_right ?_ (abs_nonneg _)
    rw [abs_div, abs_of_neg (by linarith : 3 * y ^ 2 - 3 / 2 < 0), abs_of_nonneg (by positivity),
      div_le_iff₀ (by linarith)]
    have : y ^ 2 ≤ (2 / 5) ^ 2 := by
      rw [← sq_abs]
      exact pow_le_pow_left₀ (abs_nonneg _) hy 2
    norm_num at this
    linarith
  have hP : ∀ y : ℝ, |y| ≤ 2 / 5 → (derivative (h (2 + 1))).eval y ≠ 0 ∧ |nStep 2 y| ≤ 2 / 5 ∧
      |nStep 2 y| ≤ 1 / 3 * |y| ∧ |nStep 2 y - y| ≤ 2 * |y| := by
    intro y hy
    have hdy := hd y hy
    have hsy := hst y hy
    refine ⟨?_, ?_, hsy, ?_⟩
    · show (derivative (h 3)).eval y ≠ 0
      rw [h3_deriv]; linarith
    · linarith [abs_nonneg y]
    · have := abs_sub (nStep 2 y) y
      linarith [abs_nonneg y]
  obtain ⟨r', y, p1, p2, p3, p4⟩ := newton_returns tol 2 (fun z => |z| ≤ 2 / 5) (fun z => |z|) (1 / 3) 2
    (by norm_num) (by norm_num) hP 98 _ hst2 (by
      refine lt_of_lt_of_le ?_ ht
      calc 2 * ((1 / 3 : ℝ) ^ 98 * |r.1 - 114 / 100 * c / r.1|) ≤ 2 * ((1 / 3 : ℝ) ^ 98 * (2 / 5)) := by
            refine mul_le_mul_of_nonneg_left (mul_le_mul_of_nonneg_left hst2 (by positivity)) (by norm_num)
        _ < 1 / 10 ^ 16 := by norm_num)
  refine ⟨r.1, -r'.1, 2 / r.2 ^ 2, 2 / r'.2 ^ 2, ?_, r2, by linarith, ?_⟩
  · have e7 : (realHerm tol).sqrt (2 * ((3 : ℕ) : ℝ) + 1) = Real.sqrt 7 := by
      show Real.sqrt _ = _
      norm_num
    have r1' : hermNewton (realHerm tol) 3 100 (Real.sqrt 7 - 185575 / 100000 * s) = .ok r := r1
    have p1' : hermNewton (realHerm tol) 3 100 (r.1 - 114 / 100 * c / r.1) = .ok r' := p1
    simp only [hermgauss, hermLoop, hermStart, List.range_succ, List.range_zero, List.nil_append,
      bind, Except.bind, pure, Except.pure, Nat.reduceAdd, Nat.reduceDiv, List.map_cons,
      List.map_nil, e7, List.cons_append]
    simp only [r1', if_neg hz0.ne', p1']
    simp [setAt]
  · rw [abs_neg, p3]
    have h1 := hst y p2
    have h2 := abs_sub_abs_le_abs_sub y (nStep 2 y)
    rw [abs_sub_comm] at h2
    linarith

/-- With the threshold of the code: the calls of orders two and three return. -/
example : (∃ p, hermgauss (realHerm (1 / 10 ^ 14)) ((5 : ℝ) ^ (-(1 / 6) : ℝ)) ((2 : ℝ) ^ (426 / 1000 : ℝ)) 2 = .ok p) ∧
    ∃ p, hermgauss (realHerm (1 / 10 ^ 14)) ((7 : ℝ) ^ (-(1 / 6) : ℝ)) ((3 : ℝ) ^ (426 / 1000 : ℝ)) 3 = .ok p := by
  obtain ⟨z, w, h1, -⟩ := C98_order_two (1 / 10 ^ 14) ((2 : ℝ) ^ (426 / 1000 : ℝ)) (by norm_num)
  obtain ⟨z', m, w0, w1, h2, -⟩ := C98_order_three (1 / 10 ^ 14) (by norm_num) (by norm_num)
  exact ⟨⟨_, h1⟩, ⟨_, h2⟩⟩

end Dolo
