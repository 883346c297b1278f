import Mathlib.Algebra.BigOperators.Intervals
import Mathlib.Algebra.Order.Field.Basic
import Mathlib.Data.Nat.Choose.Sum
import Mathlib.Tactic.Ring
import Mathlib.Tactic.Linarith
import Mathlib.Tactic.FieldSimp
import Mathlib.Tactic.LinearCombination
import Verif.Model.Rouwenhorst

/-! Helper lemmas: the rows of the Rouwenhorst matrix. -/

set_option linter.unusedSectionVars false

namespace Dolo

open Finset

variable {K : Type} [Field K]

/-- `x r_j + y r_{j-1}`: the distribution `r` after adding one more coin. -/
def coin (x y : K) (r : ℕ → K) : ℕ → K
  | 0 => x * r 0
  | j + 1 => x * r (j + 1) + y * r j

theorem coin_comm (x y u v : K) (r : ℕ → K) : coin x y (coin u v r) = coin u v (coin x y r) := by
  funext j
  match j with
  | 0 => simp [coin]; ring
  | 1 => simp [coin]; ring
  | j + 2 => simp [coin]; ring

theorem coin_ext (x y : K) (r s : ℕ → K) (h : ∀ j, r j = s j) : coin x y r = coin x y s := by
  rw [funext h]

/-- Row `i` of the matrix of size `n`. -/
theorem rouwMat_zero_right (p q : K) (n : ℕ) (hn : 2 ≤ n) (i j : ℕ) (hj : n ≤ j) :
    rouwMat p q n i j = 0 := by
  match n, hn with
  | 2, _ =>
    simp only [rouwMat, rouwBase]
    split <;> first | rfl | omega
  | n + 3, _ =>
    have h1 : ¬ j < n + 2 := by omega
    have h2 : ¬ j < n + 3 := by omega
    simp [rouwMat, rouwStep, h1, h2]

/-- The three kinds of rows of one step, in terms of `coin`. -/
theorem rouwStep_rows (p q : K) (n : ℕ) (hn : 2 ≤ n) (M : ℕ → ℕ → K)
    (hM : ∀ i j, n ≤ j → M i j = 0) (i : ℕ) (hi : i < n + 1) (j : ℕ) :
    rouwStep p q (n + 1) M i j =
      if i = 0 then coin p (1 - p) (M 0) j
      else if i = n then coin (1 - q) q (M (n - 1)) j
      else (coin p (1 - p) (M i) j + coin (1 - q) q (M (i - 1)) j) / 2 := by
  have key : ∀ k, ∀ x y : K,
      x * (if j < n then M k j else 0) + y * (if 1 ≤ j ∧ j < n + 1 then M k (j - 1) else 0)
        = coin x y (M k) j := by
    intro k x y
    cases j with
    | zero => simp [coin, show 0 < n by omega]
    | succ j =>
      by_cases h : j + 1 < n
      · have : j < n := by omega
        simp [coin, h, this]
      · rw [if_neg h, coin, hM k (j + 1) (by omega)]
        by_cases h2 : j < n
        · simp [h2]
        · simp [h2, hM k j (by omega)]
  simp only [rouwStep, Nat.add_sub_cancel]
  by_cases h0 : i = 0
  · subst h0
    have e : (0 : ℕ) < n := by omega
    simp only [e, true_and, show ¬ (1 ≤ 0) by omega, false_and, if_false, if_true]
    rw [← key 0 p (1 - p)]
    ring
  · by_cases hn' : i = n
    · subst hn'
      have e1 : ¬ i < i := by omega
      have e2 : 1 ≤ i := by omega
      have e3 : i < i + 1 := by omega
      simp only [e1, e2, e3, false_and, true_and, if_false, if_true, h0, and_false]
      rw [← key (i - 1) (1 - q) q]
      ring
    · have e1 : i < n := by omega
      have e2 : 1 ≤ i := by omega
      have e3 : i < n + 1 := by omega
      simp only [e1, e2, e3, true_and, if_true, if_false, h0, hn']
      rw [← key i p (1 - p), ← key (i - 1) (1 - q) q]
      ring

/-- Adding a `p`-coin to row `i+1` is adding a `q`-coin to row `i`. -/
theorem rouwMat_coin [CharZero K] (p q : K) : ∀ (n : ℕ), 2 ≤ n → ∀ i, i + 1 < n → ∀ j,
    coin p (1 - p) (rouwMat p q n (i + 1)) j = coin (1 - q) q (rouwMat p q n i) j
  | 0, h, _, _, _ => by omega
  | 1, h, _, _, _ => by omega
  | 2, _, i, hi, j => by
    have : i = 0 := by omega
    subst this
    match j with
    | 0 => simp [coin, rouwMat, rouwBase]; ring
    | 1 => simp [coin, rouwMat, rouwBase]; ring
    | 2 => simp [coin, rouwMat, rouwBase]; ring
    | j + 3 => simp [coin, rouwMat, rouwBase]
  | n + 3, _, i, hi, j => by
    have ih := rouwMat_coin p q (n + 2) (by omega)
    have hz : ∀ i j, n + 2 ≤ j → rouwMat p q (n + 2) i j = 0 :=
      fun i j hj => rouwMat_zero_right p q (n + 2) (by omega) i j hj
    -- row i is the p-coin of the smaller row i
    have hlow : ∀ k, k < n + 2 → ∀ j,
        rouwMat p q (n + 3) k j = coin p (1 - p) (rouwMat p q (n + 2) k) j := by
      intro k hk j
      rw [rouwMat, rouwStep_rows p q (n + 2) (by omega) _ hz k (by omega)]
      by_cases h0 : k = 0
      · simp [h0]
      · rw [if_neg h0, if_neg (by omega)]
        obtain ⟨m, rfl⟩ : ∃ m, k = m + 1 := ⟨k - 1, by omega⟩
        rw [Nat.add_sub_cancel, ← ih m (by omega) j]
        field_simp
        ring
    -- row i+1 is the q-coin of the smaller row i
    have hupp : ∀ k, k < n + 2 → ∀ j,
        rouwMat p q (n + 3) (k + 1) j = coin (1 - q) q (rouwMat p q (n + 2) k) j := by
      intro k hk j
      rw [rouwMat, rouwStep_rows p q (n + 2) (by omega) _ hz (k + 1) (by omega)]
      rw [if_neg (by omega)]
      by_cases h1 : k + 1 = n + 2
      · rw [if_pos h1]
        have : n + 2 - 1 = k := by omega
        rw [this]
      · rw [if_neg h1, Nat.add_sub_cancel, ih k (by omega) j]
        field_simp
        ring
    rw [coin_ext p (1 - p) _ _ (hupp i (by omega)), coin_ext (1 - q) q _ _ (hlow i (by omega)),
      coin_comm]

/-- Row `i < n` of the matrix of size `n+1`. -/
theorem rouwMat_succ_low [CharZero K] (p q : K) (n : ℕ) (hn : 2 ≤ n) (k : ℕ) (hk : k < n) (j : ℕ) :
    rouwMat p q (n + 1) k j = coin p (1 - p) (rouwMat p q n k) j := by
  obtain ⟨n, rfl⟩ : ∃ m, n = m + 2 := ⟨n - 2, by omega⟩
  have hz : ∀ i j, n + 2 ≤ j → rouwMat p q (n + 2) i j = 0 :=
    fun i j hj => rouwMat_zero_right p q (n + 2) (by omega) i j hj
  rw [rouwMat, rouwStep_rows p q (n + 2) (by omega) _ hz k (by omega)]
  by_cases h0 : k = 0
  · simp [h0]
  · rw [if_neg h0, if_neg (by omega)]
    obtain ⟨m, rfl⟩ : ∃ m, k = m + 1 := ⟨k - 1, by omega⟩
    rw [Nat.add_sub_cancel, ← rouwMat_coin p q (n + 2) (by omega) m (by omega) j]
    field_simp
    ring

/-- Row `i+1` of the matrix of size `n+1`. -/
theorem rouwMat_succ_upp [CharZero K] (p q : K) (n : ℕ) (hn : 2 ≤ n) (k : ℕ) (hk : k < n) (j : ℕ) :
    rouwMat p q (n + 1) (k + 1) j = coin (1 - q) q (rouwMat p q n k) j := by
  obtain ⟨n, rfl⟩ : ∃ m, n = m + 2 := ⟨n - 2, by omega⟩
  have hz : ∀ i j, n + 2 ≤ j → rouwMat p q (n + 2) i j = 0 :=
    fun i j hj => rouwMat_zero_right p q (n + 2) (by omega) i j hj
  rw [rouwMat, rouwStep_rows p q (n + 2) (by omega) _ hz (k + 1) (by omega), if_neg (by omega)]
  by_cases h1 : k + 1 = n + 2
  · rw [if_pos h1]
    have : n + 2 - 1 = k := by omega
    rw [this]
  · rw [if_neg h1, Nat.add_sub_cancel, rouwMat_coin p q (n + 2) (by omega) k (by omega) j]
    field_simp
    ring

/-- weighted sum after adding a coin -/
theorem sum_coin (x y : K) (r : ℕ → K) (n : ℕ) (hr : r n = 0) (g : ℕ → K) :
    ∑ j ∈ range (n + 1), coin x y r j * g j
      = x * ∑ j ∈ range n, r j * g j + y * ∑ j ∈ range n, r j * g (j + 1) := by
  rw [sum_range_succ' (fun j => coin x y r j * g j)]
  have h1 : ∑ j ∈ range n, r j * g j + r n * g n = ∑ j ∈ range n, r (j + 1) * g (j + 1) + r 0 * g 0 := by
    rw [← sum_range_succ, ← sum_range_succ' (fun j => r j * g j)]
  rw [hr, zero_mul, add_zero] at h1
  simp only [coin]
  rw [h1, mul_add, mul_sum, mul_sum]
  have : ∀ j ∈ range n, (x * r (j + 1) + y * r j) * g (j + 1)
      = x * (r (j + 1) * g (j + 1)) + y * (r j * g (j + 1)) := fun j _ => by ring
  rw [sum_congr rfl this, sum_add_distrib]
  ring

theorem coin_nonneg [LinearOrder K] [IsStrictOrderedRing K] (x y : K) (r : ℕ → K) (hx : 0 ≤ x)
    (hy : 0 ≤ y) (hr : ∀ j, 0 ≤ r j) (j : ℕ) : 0 ≤ coin x y r j := by
  cases j with
  | zero => exact mul_nonneg hx (hr 0)
  | succ j => exact add_nonneg (mul_nonneg hx (hr _)) (mul_nonneg hy (hr _))

/-- Induction over the rows of all Rouwenhorst matrices. -/
theorem rouw_row_induction [CharZero K] (p q : K) (P : ℕ → ℕ → (ℕ → K) → Prop)
    (h20 : P 2 0 (rouwMat p q 2 0)) (h21 : P 2 1 (rouwMat p q 2 1))
    (hlow : ∀ n i r, 2 ≤ n → i < n → (∀ j, n ≤ j → r j = 0) → P n i r →
      P (n + 1) i (coin p (1 - p) r))
    (hupp : ∀ n i r, 2 ≤ n → i < n → (∀ j, n ≤ j → r j = 0) → P n i r →
      P (n + 1) (i + 1) (coin (1 - q) q r)) :
    ∀ n, 2 ≤ n → ∀ i, i < n → P n i (rouwMat p q n i) := by
  intro n hn
  induction n, hn using Nat.le_induction with
  | base =>
    intro i hi
    match i, hi with
    | 0, _ => exact h20
    | 1, _ => exact h21
  | succ n hn ih =>
    intro i hi
    have hz := fun i j hj => rouwMat_zero_right p q n hn i j hj
    by_cases h : i < n
    · have : rouwMat p q (n + 1) i = coin p (1 - p) (rouwMat p q n i) :=
        funext fun j => rouwMat_succ_low p q n hn i h j
      rw [this]
      exact hlow n i _ hn h (hz i) (ih i h)
    · obtain ⟨k, rfl⟩ : ∃ k, i = k + 1 := ⟨i - 1, by omega⟩
      have hk : k < n := by omega
      have : rouwMat p q (n + 1) (k + 1) = coin (1 - q) q (rouwMat p q n k) :=
        funext fun j => rouwMat_succ_upp p q n hn k hk j
      rw [this]
      exact hupp n k _ hn hk (hz k) (ih k hk)

/-- Row sums, first and second moments of row `i` (as distributions of the column index). -/
theorem rouw_moments [CharZero K] (p q : K) (n : ℕ) (hn : 2 ≤ n) (i : ℕ) (hi : i < n) :
    (∑ j ∈ range n, rouwMat p q n i j * 1 = 1) ∧
    (∑ j ∈ range n, rouwMat p q n i j * (j : K)
      = ((n : K) - 1 - i) * (1 - p) + i * q) ∧
    (∑ j ∈ range n, rouwMat p q n i j * (j : K) ^ 2
      = (((n : K) - 1 - i) * (1 - p) + i * q) ^ 2
        + ((n : K) - 1 - i) * p * (1 - p) + i * q * (1 - q)) := by
  refine rouw_row_induction p q (fun n i r => (∑ j ∈ range n, r j * 1 = 1) ∧
    (∑ j ∈ range n, r j * (j : K) = ((n : K) - 1 - i) * (1 - p) + i * q) ∧
    (∑ j ∈ range n, r j * (j : K) ^ 2
      = (((n : K) - 1 - i) * (1 - p) + i * q) ^ 2
        + ((n : K) - 1 - i) * p * (1 - p) + i * q * (1 - q))) ?_ ?_ ?_ ?_ n hn i hi
  · simp [sum_range_succ, rouwMat, rouwBase]
    constructor <;> ring
  · norm_num [sum_range_succ, rouwMat, rouwBase]
    ring
  · rintro n i r hn hi hz ⟨h0, h1, h2⟩
    have hs2 : ∑ j ∈ range n, r j * ((j + 1 : ℕ) : K) ^ 2
        = ∑ j ∈ range n, r j * (j : K) ^ 2 + 2 * ∑ j ∈ range n, r j * (j : K)
          + ∑ j ∈ range n, r j * 1 := by
      rw [mul_sum, ← sum_add_distrib, ← sum_add_distrib]
      exact sum_congr rfl fun j _ => by push_cast; ring
    have hs1 : ∑ j ∈ range n, r j * ((j + 1 : ℕ) : K)
        = ∑ j ∈ range n, r j * (j : K) + ∑ j ∈ range n, r j * 1 := by
      rw [← sum_add_distrib]
      exact sum_congr rfl fun j _ => by push_cast; ring
    refine ⟨?_, ?_, ?_⟩
    · rw [sum_coin _ _ r n (hz n le_rfl) fun _ => 1, h0]; ring
    · rw [sum_coin _ _ r n (hz n le_rfl) fun j => (j : K), hs1, h1, h0]; push_cast; ring
    · rw [sum_coin _ _ r n (hz n le_rfl) fun j => (j : K) ^ 2, hs2, h2, h1, h0]; push_cast; ring
  · rintro n i r hn hi hz ⟨h0, h1, h2⟩
    have hs2 : ∑ j ∈ range n, r j * ((j + 1 : ℕ) : K) ^ 2
        = ∑ j ∈ range n, r j * (j : K) ^ 2 + 2 * ∑ j ∈ range n, r j * (j : K)
          + ∑ j ∈ range n, r j * 1 := by
      rw [mul_sum, ← sum_add_distrib, ← sum_add_distrib]
      exact sum_congr rfl fun j _ => by push_cast; ring
    have hs1 : ∑ j ∈ range n, r j * ((j + 1 : ℕ) : K)
        = ∑ j ∈ range n, r j * (j : K) + ∑ j ∈ range n, r j * 1 := by
      rw [← sum_add_distrib]
      exact sum_congr rfl fun j _ => by push_cast; ring
    refine ⟨?_, ?_, ?_⟩
    · rw [sum_coin _ _ r n (hz n le_rfl) fun _ => 1, h0]; ring
    · rw [sum_coin _ _ r n (hz n le_rfl) fun j => (j : K), hs1, h1, h0]; push_cast; ring
    · rw [sum_coin _ _ r n (hz n le_rfl) fun j => (j : K) ^ 2, hs2, h2, h1, h0]; push_cast; ring

theorem rouw_nonneg [LinearOrder K] [IsStrictOrderedRing K] (p q : K) (hp0 : 0 ≤ p) (hp1 : p ≤ 1)
    (hq0 : 0 ≤ q) (hq1 : q ≤ 1) (n : ℕ) (hn : 2 ≤ n) (i : ℕ) (hi : i < n) (j : ℕ) :
    0 ≤ rouwMat p q n i j := by
  refine rouw_row_induction p q (fun _ _ r => ∀ j, 0 ≤ r j) ?_ ?_ ?_ ?_ n hn i hi j
  · intro j
    match j with
    | 0 => simpa [rouwMat, rouwBase] using hp0
    | 1 => simpa [rouwMat, rouwBase] using hp1
    | j + 2 => simp [rouwMat, rouwBase]
  · intro j
    match j with
    | 0 => simpa [rouwMat, rouwBase] using hq1
    | 1 => simpa [rouwMat, rouwBase] using hq0
    | j + 2 => simp [rouwMat, rouwBase]
  · intro n i r _ _ _ h
    exact coin_nonneg _ _ _ hp0 (by linarith) h
  · intro n i r _ _ _ h
    exact coin_nonneg _ _ _ (by linarith) hq0 h

/-- The binomial weights are stationary when `q = p`. -/
theorem rouw_stationary [CharZero K] (p : K) : ∀ n, 2 ≤ n → ∀ j,
    ∑ i ∈ range n, ((n - 1).choose i : K) * rouwMat p p n i j = ((n - 1).choose j : K) := by
  intro n hn
  induction n, hn using Nat.le_induction with
  | base =>
    intro j
    match j with
    | 0 => simp [sum_range_succ, rouwMat, rouwBase]
    | 1 => simp [sum_range_succ, rouwMat, rouwBase]
    | j + 2 =>
      rw [Nat.choose_eq_zero_of_lt (by omega)]
      simp [rouwMat, rouwBase]
  | succ n hn ih =>
    intro j
    obtain ⟨m, rfl⟩ : ∃ m, n = m + 1 := ⟨n - 1, by omega⟩
    simp only [Nat.add_sub_cancel] at ih ⊢
    -- split the binomial coefficient by Pascal's rule
    have h1 : ∑ i ∈ range (m + 1 + 1), ((m + 1).choose i : K) * rouwMat p p (m + 1 + 1) i j
        = ∑ i ∈ range (m + 1), (m.choose i : K) *
            (coin p (1 - p) (rouwMat p p (m + 1) i) j + coin (1 - p) p (rouwMat p p (m + 1) i) j) := by
      rw [sum_range_succ' (fun i => ((m + 1).choose i : K) * rouwMat p p (m + 1 + 1) i j)]
      have e1 : ∀ i ∈ range (m + 1), ((m + 1).choose (i + 1) : K) * rouwMat p p (m + 1 + 1) (i + 1) j
          = (m.choose i : K) * coin (1 - p) p (rouwMat p p (m + 1) i) j
            + (m.choose (i + 1) : K) * rouwMat p p (m + 1 + 1) (i + 1) j := by
        intro i hi
        rw [Nat.choose_succ_succ, ← rouwMat_succ_upp p p (m + 1) hn i (by simpa using hi)]
        push_cast; ring
      rw [sum_congr rfl e1, sum_add_distrib]
      have e2 : ∑ i ∈ range (m + 1), (m.choose (i + 1) : K) * rouwMat p p (m + 1 + 1) (i + 1) j
          + ((m + 1).choose 0 : K) * rouwMat p p (m + 1 + 1) 0 j
          = ∑ i ∈ range (m + 1), (m.choose i : K) * coin p (1 - p) (rouwMat p p (m + 1) i) j := by
        have e3 : ((m + 1).choose 0 : K) = (m.choose 0 : K) := by simp
        rw [e3, ← sum_range_succ' (fun i => (m.choose i : K) * rouwMat p p (m + 1 + 1) i j),
          sum_range_succ]
        rw [Nat.choose_eq_zero_of_lt (by omega : m < m + 1)]
        simp only [Nat.cast_zero, zero_mul, add_zero]
        refine sum_congr rfl fun i hi => ?_
        rw [rouwMat_succ_low p p (m + 1) hn i (by simpa using hi)]
      rw [add_assoc, e2, ← sum_add_distrib]
      refine sum_congr rfl fun i _ => ?_
      ring
    rw [h1]
    cases j with
    | zero =>
      have : ∀ i ∈ range (m + 1), (m.choose i : K) *
          (coin p (1 - p) (rouwMat p p (m + 1) i) 0 + coin (1 - p) p (rouwMat p p (m + 1) i) 0)
          = (m.choose i : K) * rouwMat p p (m + 1) i 0 := by
        intro i _; simp only [coin]; ring
      rw [sum_congr rfl this, ih 0]
      simp
    | succ j =>
      have : ∀ i ∈ range (m + 1), (m.choose i : K) *
          (coin p (1 - p) (rouwMat p p (m + 1) i) (j + 1)
            + coin (1 - p) p (rouwMat p p (m + 1) i) (j + 1))
          = (m.choose i : K) * rouwMat p p (m + 1) i (j + 1)
            + (m.choose i : K) * rouwMat p p (m + 1) i j := by
        intro i _; simp only [coin]; ring
      rw [sum_congr rfl this, sum_add_distrib, ih (j + 1), ih j, Nat.choose_succ_succ]
      push_cast; ring

end Dolo
