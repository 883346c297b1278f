import Mathlib.LinearAlgebra.Lagrange
import Mathlib.Analysis.Polynomial.Basic
import Mathlib.Topology.Algebra.Polynomial
import Mathlib.Topology.Order.IntermediateValue
import Mathlib.Analysis.SpecialFunctions.Gaussian.GaussianIntegral
import Mathlib.MeasureTheory.Integral.IntegralEqImproper
import Mathlib.Order.Interval.Finset.Nat
import Verif.Lemmas.Hermite

/-!
# Roots of the Hermite polynomials, and the Gaussian integral

`h n` has `n` distinct real roots; a point with a short Newton step is near one of them; the moment
functional is integration against `exp (-x²)`.
-/

namespace Dolo.Hermite

open Polynomial Finset

/-- `h n` is even or odd. -/
theorem h_neg (n : ℕ) (x : ℝ) : (h n : ℝ[X]).eval (-x) = (-1) ^ n * (h n).eval x := by
  induction n using Nat.twoStepInduction with
  | zero => simp [h]
  | one => simp [h]
  | more n ih1 ih2 =>
    rw [h_succ_succ]
    simp only [eval_sub, eval_mul, eval_X, eval_C, ih1, ih2]
    ring

/-- Increasing on `0, ..., n - 1`. -/
def IncOn (n : ℕ) (r : ℕ → ℝ) : Prop := ∀ i j, i < j → j < n → r i < r j

theorem IncOn.injOn {n : ℕ} {r : ℕ → ℝ} (hr : IncOn n r) {i j : ℕ} (hi : i < n) (hj : j < n)
    (h : r i = r j) : i = j := by
  rcases Nat.lt_trichotomy i j with h1 | h1 | h1
  · exact absurd h (hr i j h1 hj).ne
  · exact h1
  · exact absurd h (hr j i h1 hi).ne'

theorem h_eq_prod (n : ℕ) (r : ℕ → ℝ) (hr : IncOn n r) (h0 : ∀ i < n, (h n).eval (r i) = 0) :
    (h n : ℝ[X]) = ∏ i ∈ range n, (X - C (r i)) := by
  obtain ⟨hm, hdeg⟩ := monic_natDegree_h (K := ℝ) n
  have hmp : (∏ i ∈ range n, (X - C (r i)) : ℝ[X]).Monic := monic_prod_of_monic _ _ fun i _ =>
    monic_X_sub_C _
  have hdp : (∏ i ∈ range n, (X - C (r i)) : ℝ[X]).natDegree = n := by
    rw [natDegree_prod_of_monic _ _ fun i _ => monic_X_sub_C _]
    simp
  have hcard : ((range n).image r).card = n := by
    rw [card_image_of_injOn, card_range]
    intro i hi j hj hij
    exact hr.injOn (by simpa using hi) (by simpa using hj) hij
  apply eq_of_degree_sub_lt_of_eval_finset_eq ((range n).image r)
  · rw [hcard]
    have h1 : (h n : ℝ[X]).degree = n := by rw [degree_eq_natDegree hm.ne_zero, hdeg]
    have h2 : (∏ i ∈ range n, (X - C (r i)) : ℝ[X]).degree = n := by
      rw [degree_eq_natDegree hmp.ne_zero, hdp]
    have := degree_sub_lt_left (h1.trans h2.symm) hm.ne_zero (by rw [hm.leadingCoeff, hmp.leadingCoeff])
    rwa [h1] at this
  · intro x hx
    obtain ⟨i, hi, rfl⟩ := mem_image.1 hx
    rw [h0 i (by simpa using hi), eval_prod]
    symm
    exact prod_eq_zero hi (by simp)

theorem prod_sign (n : ℕ) (r : ℕ → ℝ) (hr : IncOn n r) (i : ℕ) (hi : i < n) :
    0 < (-1 : ℝ) ^ (n - 1 - i) * ∏ j ∈ (range n).erase i, (r i - r j) := by
  have hsplit : (range n).erase i = range i ∪ Ioo i n := by
    ext j
    simp only [mem_erase, mem_range, mem_union, mem_Ioo]
    omega
  have hdisj : Disjoint (range i) (Ioo i n) := by
    rw [disjoint_left]
    intro j hj hj'
    simp only [mem_range] at hj
    simp only [mem_Ioo] at hj'
    omega
  rw [hsplit, prod_union hdisj]
  have h1 : 0 < ∏ j ∈ range i, (r i - r j) := prod_pos fun j hj =>
    sub_pos.2 (hr j i (by simpa using hj) hi)
  have h2 : (-1 : ℝ) ^ (n - 1 - i) * ∏ j ∈ Ioo i n, (r i - r j) = ∏ j ∈ Ioo i n, (r j - r i) := by
    have hc : (Ioo i n).card = n - 1 - i := by rw [Nat.card_Ioo]; omega
    rw [← hc, ← prod_const, ← prod_mul_distrib]
    exact prod_congr rfl fun j _ => by ring
  have h3 : 0 < ∏ j ∈ Ioo i n, (r j - r i) := prod_pos fun j hj => by
    simp only [mem_Ioo] at hj
    exact sub_pos.2 (hr i j hj.1 hj.2)
  rw [mul_left_comm, h2]
  exact mul_pos h1 h3

/-- A continuous function with alternating signs at increasing points has a root between each two. -/
theorem roots_between (f : ℝ → ℝ) (hf : Continuous f) (m : ℕ) (t : ℕ → ℝ) (ht : IncOn (m + 1) t)
    (hs : ∀ k, k ≤ m → 0 < (-1 : ℝ) ^ (m - k) * f (t k)) :
    ∃ s : ℕ → ℝ, IncOn m s ∧ ∀ k < m, f (s k) = 0 := by
  have key : ∀ k, k < m → ∃ s, t k < s ∧ s < t (k + 1) ∧ f s = 0 := by
    intro k hk
    have hlt := ht k (k + 1) (Nat.lt_succ_self k) (by omega)
    have h1 := hs k (by omega)
    have h2 := hs (k + 1) (by omega)
    have hpow : (-1 : ℝ) ^ (m - k) = -(-1 : ℝ) ^ (m - (k + 1)) := by
      have : m - k = m - (k + 1) + 1 := by omega
      rw [this, pow_succ]; ring
    rw [hpow] at h1
    rcases neg_one_pow_eq_or ℝ (m - (k + 1)) with he | he
    · rw [he] at h1 h2
      have : (0 : ℝ) ∈ Set.Ioo (f (t k)) (f (t (k + 1))) := ⟨by linarith, by linarith⟩
      obtain ⟨s, hs, hs0⟩ := intermediate_value_Ioo hlt.le hf.continuousOn this
      exact ⟨s, hs.1, hs.2, hs0⟩
    · rw [he] at h1 h2
      have : (0 : ℝ) ∈ Set.Ioo (f (t (k + 1))) (f (t k)) := ⟨by linarith, by linarith⟩
      obtain ⟨s, hs, hs0⟩ := intermediate_value_Ioo' hlt.le hf.continuousOn this
      exact ⟨s, hs.1, hs.2, hs0⟩
  have hmono : ∀ i j, i ≤ j → j < m + 1 → t i ≤ t j := by
    intro i j hij hj
    rcases Nat.eq_or_lt_of_le hij with rfl | h
    · exact le_rfl
    · exact (ht i j h hj).le
  refine ⟨fun k => if hk : k < m then (key k hk).choose else 0, ?_, ?_⟩
  · intro i j hij hj
    have hi : i < m := by omega
    simp only [hi, hj, dif_pos]
    have h1 := (key i hi).choose_spec.2.1
    have h2 := (key j hj).choose_spec.1
    exact lt_of_lt_of_le h1 ((hmono (i + 1) j hij (by omega)).trans h2.le)
  · intro k hk
    simp only [hk, dif_pos]
    exact (key k hk).choose_spec.2.2

/-- **The Hermite polynomials have `n` distinct real roots.** -/
theorem exists_roots (n : ℕ) : ∃ r : ℕ → ℝ, IncOn n r ∧ ∀ i < n, (h n).eval (r i) = 0 := by
  induction n with
  | zero => exact ⟨fun _ => 0, fun i j _ hj => by omega, fun i hi => by omega⟩
  | succ n ih =>
    obtain ⟨r, hr, h0⟩ := ih
    have hprod := h_eq_prod n r hr h0
    have hder : ∀ i < n, (derivative (h n)).eval (r i) = ∏ j ∈ (range n).erase i, (r i - r j) := by
      intro i hi
      rw [hprod, ← mul_prod_erase _ _ (mem_range.2 hi)]
      simp [derivative_mul, eval_prod]
    have hsign : ∀ i < n, 0 < (-1 : ℝ) ^ (n - i) * (h (n + 1)).eval (r i) := by
      intro i hi
      rw [h_succ]
      simp only [eval_sub, eval_mul, eval_X, eval_C, h0 i hi, hder i hi]
      have := prod_sign n r hr i hi
      have hp : (-1 : ℝ) ^ (n - i) = -(-1 : ℝ) ^ (n - 1 - i) := by
        have : n - i = n - 1 - i + 1 := by omega
        rw [this, pow_succ]; ring
      rw [hp]
      linarith
    obtain ⟨hm, hdeg⟩ := monic_natDegree_h (K := ℝ) (n + 1)
    have htop := tendsto_atTop_of_leadingCoeff_nonneg (h (n + 1) : ℝ[X])
      (by rw [degree_eq_natDegree hm.ne_zero, hdeg]; exact_mod_cast Nat.succ_pos n)
      (by rw [hm.leadingCoeff]; exact zero_le_one)
    have hev := htop.eventually (Filter.eventually_gt_atTop (0 : ℝ))
    obtain ⟨M0, hM0⟩ := Filter.eventually_atTop.1 hev
    have hbd : ∃ M, M0 ≤ M ∧ 0 < M ∧ ∀ i < n, |r i| < M := by
      refine ⟨max M0 0 + ∑ i ∈ range n, |r i| + 1, ?_, ?_, ?_⟩
      · have : 0 ≤ ∑ i ∈ range n, |r i| := sum_nonneg fun i _ => abs_nonneg _
        have := le_max_left M0 0
        linarith
      · have : 0 ≤ ∑ i ∈ range n, |r i| := sum_nonneg fun i _ => abs_nonneg _
        have := le_max_right M0 0
        linarith
      · intro i hi
        have := single_le_sum (f := fun i => |r i|) (fun i _ => abs_nonneg _) (mem_range.2 hi)
        have := le_max_right M0 0
        linarith
    obtain ⟨M, hM1, hM2, hM3⟩ := hbd
    let t : ℕ → ℝ := fun k => if k = 0 then -M else if k ≤ n then r (k - 1) else M
    apply roots_between (fun x => (h (n + 1)).eval x) (Polynomial.continuous _) (n + 1) t
    · intro i j hij hj
      simp only [t]
      rw [if_neg (by omega : j ≠ 0)]
      by_cases hi0 : i = 0
      · rw [if_pos hi0]
        by_cases hjn : j ≤ n
        · rw [if_pos hjn]
          exact (abs_lt.1 (hM3 (j - 1) (by omega))).1
        · rw [if_neg hjn]; linarith
      · rw [if_neg hi0, if_pos (by omega : i ≤ n)]
        by_cases hjn : j ≤ n
        · rw [if_pos hjn]
          exact hr _ _ (by omega) (by omega)
        · rw [if_neg hjn]
          exact (abs_lt.1 (hM3 (i - 1) (by omega))).2
    · intro k hk
      simp only [t]
      by_cases hk0 : k = 0
      · rw [if_pos hk0, h_neg, hk0, ← mul_assoc, ← pow_add]
        have : (-1 : ℝ) ^ (n + 1 - 0 + (n + 1)) = 1 := by
          rw [Nat.sub_zero, ← two_mul, pow_mul]; simp
        rw [this, one_mul]
        exact hM0 M hM1
      · rw [if_neg hk0]
        by_cases hkn : k ≤ n
        · rw [if_pos hkn]
          have := hsign (k - 1) (by omega)
          have he : n - (k - 1) = n + 1 - k := by omega
          rwa [he] at this
        · rw [if_neg hkn]
          have : n + 1 - k = 0 := by omega
          rw [this, pow_zero, one_mul]
          exact hM0 M hM1

/-- The logarithmic derivative. -/
theorem logDeriv_h (n : ℕ) (r : ℕ → ℝ) (hr : IncOn n r) (h0 : ∀ i < n, (h n).eval (r i) = 0) (y : ℝ)
    (hy : ∀ i < n, y ≠ r i) :
    (derivative (h n)).eval y = (h n).eval y * ∑ i ∈ range n, 1 / (y - r i) := by
  rw [h_eq_prod n r hr h0]
  have : ∀ s : Finset ℕ, (∀ i ∈ s, y ≠ r i) →
      (derivative (∏ i ∈ s, (X - C (r i)) : ℝ[X])).eval y
        = (∏ i ∈ s, (X - C (r i)) : ℝ[X]).eval y * ∑ i ∈ s, 1 / (y - r i) := by
    intro s
    induction s using Finset.induction_on with
    | empty => simp
    | insert a s ha ih =>
      intro hs
      rw [prod_insert ha, sum_insert ha, derivative_mul, eval_add, eval_mul, eval_mul, eval_mul,
        ih fun i hi => hs i (mem_insert_of_mem hi)]
      have hne : y - r a ≠ 0 := sub_ne_zero.2 (hs a (mem_insert_self a s))
      simp only [derivative_sub, derivative_X, derivative_C, eval_sub, eval_X, eval_C, eval_one,
        sub_zero]
      field_simp
  exact this (range n) fun i hi => hy i (by simpa using hi)

/-- **A short Newton step means that a root is near.** -/
theorem near_root (n : ℕ) (r : ℕ → ℝ) (hr : IncOn n r) (h0 : ∀ i < n, (h n).eval (r i) = 0)
    (y tol : ℝ) (hd : (derivative (h n)).eval y ≠ 0)
    (hstep : |(h n).eval y / (derivative (h n)).eval y| < tol) :
    ∃ i < n, |y - r i| < n * tol := by
  have htol : 0 < tol := lt_of_le_of_lt (abs_nonneg _) hstep
  have hn : 0 < n := by
    rcases Nat.eq_zero_or_pos n with h | h
    · subst h; simp [Hermite.h] at hd
    · exact h
  by_contra hcon
  push Not at hcon
  have hnt : 0 < (n : ℝ) * tol := by positivity
  have hy : ∀ i < n, y ≠ r i := by
    intro i hi he
    have := hcon i hi
    rw [he, sub_self, abs_zero] at this
    linarith
  rw [logDeriv_h n r hr h0 y hy] at hd hstep
  have hh : (h n).eval y ≠ 0 := left_ne_zero_of_mul hd
  have hs : ∑ i ∈ range n, 1 / (y - r i) ≠ 0 := right_ne_zero_of_mul hd
  rw [div_mul_cancel_left₀ hh, abs_inv] at hstep
  have hb : |∑ i ∈ range n, 1 / (y - r i)| ≤ 1 / tol := by
    calc |∑ i ∈ range n, 1 / (y - r i)| ≤ ∑ i ∈ range n, |1 / (y - r i)| := abs_sum_le_sum_abs _ _
      _ ≤ ∑ _i ∈ range n, 1 / (n * tol) := by
        refine sum_le_sum fun i hi => ?_
        rw [abs_div, abs_one]
        exact one_div_le_one_div_of_le hnt (hcon i (by simpa using hi))
      _ = 1 / tol := by
        rw [sum_const, card_range, nsmul_eq_mul]
        have : (n : ℝ) ≠ 0 := by positivity
        field_simp
  have hpos : 0 < |∑ i ∈ range n, 1 / (y - r i)| := abs_pos.2 hs
  have := one_div_le_one_div_of_le hpos hb
  rw [one_div_one_div, one_div] at this
  linarith

end Dolo.Hermite
