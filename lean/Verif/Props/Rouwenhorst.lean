import Mathlib.Analysis.Real.Sqrt
import Mathlib.Algebra.BigOperators.Field
import Mathlib.Data.Nat.Choose.Sum
import Mathlib.Tactic.Positivity
import Verif.Lemmas.Rouwenhorst

/-!
# C12, C13, C14: Rouwenhorst and Tauchen chains
-/

set_option linter.unusedSectionVars false

namespace Dolo

open Finset

variable {K : Type} [Field K]

/-! ### helper lemmas -/

private theorem sum_map_range (n : ℕ) (f : ℕ → K) :
    ((List.range n).map f).sum = ∑ j ∈ range n, f j := by
  induction n with
  | zero => simp
  | succ n ih => rw [List.range_succ, List.map_append, List.sum_append, ih, sum_range_succ]; simp

private theorem zipWith_range (n : ℕ) (f g : ℕ → K) (h : K → K → K) :
    List.zipWith h ((List.range n).map f) ((List.range n).map g)
      = (List.range n).map fun j => h (f j) (g j) := by
  apply List.ext_getElem (by simp)
  intro i h1 h2
  simp

private theorem rouwenhorst_matrix (sqrt : K → K) (rho sigma : K) (N : ℕ) (hN : 2 ≤ N) :
    (rouwenhorst sqrt rho sigma N).2 = matRows N N (rouwMat ((rho + 1) / 2) ((rho + 1) / 2) N) := by
  unfold rouwenhorst
  rw [if_neg (by omega)]
  by_cases h2 : N = 2
  · subst h2; simp [rouwMat]
  · simp only [h2, if_false]
    have : Nat.max N 2 = N := Nat.max_eq_left hN
    rw [this]

private theorem rouwenhorst_nodes [CharZero K] (sqrt : K → K) (rho sigma : K) (N : ℕ) (hN : 2 ≤ N) :
    (rouwenhorst sqrt rho sigma N).1 = (List.range N).map fun j : ℕ =>
      sqrt (((N : K) - 1) / (1 - rho ^ 2)) * sigma * (2 * (j : K) / ((N : K) - 1) - 1) := by
  have hN1 : (N : K) - 1 ≠ 0 := by
    intro h
    have : (N : K) = 1 := sub_eq_zero.1 h
    have : N = 1 := by exact_mod_cast this
    omega
  have : (rouwenhorst sqrt rho sigma N).1
      = linspace (-(sqrt (((N : K) - 1) / (1 - rho ^ 2)) * sigma))
          (sqrt (((N : K) - 1) / (1 - rho ^ 2)) * sigma) N := by
    unfold rouwenhorst
    rw [if_neg (by omega)]
    by_cases h2 : N = 2 <;> simp [h2]
  rw [this, linspace]
  refine List.map_congr_left fun j _ => ?_
  rw [if_neg (by omega)]
  field_simp
  ring

theorem rouwenhorst_length_nodes (sqrt : K → K) (rho sigma : K) (N : ℕ) (hN : 1 ≤ N) :
    (rouwenhorst sqrt rho sigma N).1.length = N := by
  rcases Nat.lt_or_ge N 2 with h | h
  · have : N = 1 := by omega
    subst this
    simp [rouwenhorst]
  · unfold rouwenhorst
    rw [if_neg (by omega)]
    by_cases h2 : N = 2 <;> simp [h2, linspace]

theorem rouwenhorst_shape [CharZero K] (sqrt : K → K) (rho sigma : K) (N : ℕ) (hN : 1 ≤ N) :
    (rouwenhorst sqrt rho sigma N).2.length = N ∧
    ∀ row ∈ (rouwenhorst sqrt rho sigma N).2, row.length = N ∧ row.sum = 1 := by
  rcases Nat.lt_or_ge N 2 with h | h
  · have : N = 1 := by omega
    subst this
    simp [rouwenhorst]
  · rw [rouwenhorst_matrix sqrt rho sigma N h]
    refine ⟨by simp [matRows], ?_⟩
    intro row hrow
    obtain ⟨i, hi, rfl⟩ := List.mem_map.1 hrow
    refine ⟨by simp, ?_⟩
    rw [sum_map_range]
    simpa using (rouw_moments ((rho + 1) / 2) ((rho + 1) / 2) N h i (List.mem_range.1 hi)).1

/-! ### C12 -/

/-- **C12.**  For every `N ≥ 1` and `rho ∈ [-1, 1]`, `rouwenhorst` returns `N` nodes and an `N × N`
matrix with non-negative entries and unit row sums. -/
theorem C12_rouwenhorst_stochastic [LinearOrder K] [IsStrictOrderedRing K] (sqrt : K → K)
    (rho sigma : K) (N : ℕ) (hN : 1 ≤ N) (h1 : -1 ≤ rho) (h2 : rho ≤ 1) :
    (rouwenhorst sqrt rho sigma N).1.length = N ∧
    (rouwenhorst sqrt rho sigma N).2.length = N ∧
    ∀ row ∈ (rouwenhorst sqrt rho sigma N).2,
      row.length = N ∧ row.sum = 1 ∧ ∀ x ∈ row, 0 ≤ x := by
  rcases Nat.lt_or_ge N 2 with h | h
  · have : N = 1 := by omega
    subst this
    simp [rouwenhorst]
  · have hp0 : 0 ≤ (rho + 1) / 2 := by linarith
    have hp1 : (rho + 1) / 2 ≤ 1 := by linarith
    rw [rouwenhorst_matrix sqrt rho sigma N h, rouwenhorst_nodes sqrt rho sigma N h]
    refine ⟨by simp, by simp [matRows], ?_⟩
    intro row hrow
    obtain ⟨i, hi, rfl⟩ := List.mem_map.1 hrow
    have hi' := List.mem_range.1 hi
    refine ⟨by simp, ?_, ?_⟩
    · rw [sum_map_range]
      simpa using (rouw_moments ((rho + 1) / 2) ((rho + 1) / 2) N h i hi').1
    · intro x hx
      obtain ⟨j, -, rfl⟩ := List.mem_map.1 hx
      exact rouw_nonneg _ _ hp0 hp1 hp0 hp1 N h i hi' j

example : (rouwenhorst (fun x : ℚ => x) (1 / 2) 1 3).2
    = [[9 / 16, 3 / 8, 1 / 16], [3 / 16, 5 / 8, 3 / 16], [1 / 16, 3 / 8, 9 / 16]] := by
  rw [rouwenhorst_matrix _ _ _ _ (by norm_num)]
  norm_num [matRows, List.range, List.range.loop, rouwMat, rouwStep, rouwBase]

/-! ### C13 -/

/-- **C13, conditional moments.**  For every `N ≥ 2` and every state `i`: conditional on node `x_i`, the
next value has mean `rho * x_i` and variance `sigma^2`, exactly as the AR(1). -/
theorem C13_rouwenhorst_conditional [CharZero K] (sqrt : K → K) (rho sigma : K) (N : ℕ) (hN : 2 ≤ N)
    (hr : 1 - rho ^ 2 ≠ 0)
    (hsqrt : sqrt (((N : K) - 1) / (1 - rho ^ 2)) ^ 2 = ((N : K) - 1) / (1 - rho ^ 2))
    (i : ℕ) (row : List K) (x : K)
    (hrow : (rouwenhorst sqrt rho sigma N).2[i]? = some row)
    (hx : (rouwenhorst sqrt rho sigma N).1[i]? = some x) :
    (List.zipWith (fun p y => p * y) row (rouwenhorst sqrt rho sigma N).1).sum = rho * x ∧
    (List.zipWith (fun p y => p * (y - rho * x) ^ 2) row (rouwenhorst sqrt rho sigma N).1).sum
      = sigma ^ 2 := by
  have hN1 : (N : K) - 1 ≠ 0 := by
    intro h
    have : (N : K) = 1 := sub_eq_zero.1 h
    have : N = 1 := by exact_mod_cast this
    omega
  rw [rouwenhorst_matrix sqrt rho sigma N hN] at hrow
  rw [rouwenhorst_nodes sqrt rho sigma N hN] at hx ⊢
  set nu := sqrt (((N : K) - 1) / (1 - rho ^ 2)) * sigma with hnu
  have hi : i < N := by
    obtain ⟨h, -⟩ := List.getElem?_eq_some_iff.1 hrow
    simpa [matRows] using h
  simp only [matRows, List.getElem?_map, List.getElem?_range hi, Option.map_some,
    Option.some.injEq] at hrow hx
  subst hrow
  set p := (rho + 1) / 2 with hp
  obtain ⟨m0, m1, m2⟩ := rouw_moments p p N hN i hi
  simp only [mul_one] at m0
  rw [zipWith_range, zipWith_range, sum_map_range, sum_map_range]
  have hs1 : ∑ j ∈ range N, rouwMat p p N i j * (nu * (2 * (j : K) / ((N : K) - 1) - 1))
      = nu * (2 / ((N : K) - 1) * ∑ j ∈ range N, rouwMat p p N i j * (j : K)
          - ∑ j ∈ range N, rouwMat p p N i j) := by
    rw [mul_sum, ← sum_sub_distrib, mul_sum]
    exact sum_congr rfl fun j _ => by ring
  constructor
  · rw [hs1, m1, m0, ← hx, hp]
    field_simp
    ring
  · set c := 2 / ((N : K) - 1) with hc
    have e : ∀ j ∈ range N, rouwMat p p N i j
          * (nu * (2 * (j : K) / ((N : K) - 1) - 1) - rho * x) ^ 2
        = (nu * c) ^ 2 * (rouwMat p p N i j * (j : K) ^ 2)
          - 2 * (nu * c) * (nu + rho * x) * (rouwMat p p N i j * (j : K))
          + (nu + rho * x) ^ 2 * rouwMat p p N i j := by
      intro j _
      rw [hc]; ring
    rw [sum_congr rfl e, sum_add_distrib, sum_sub_distrib, ← mul_sum, ← mul_sum, ← mul_sum,
      m2, m1, m0, ← hx]
    have hnu2 : nu ^ 2 = ((N : K) - 1) / (1 - rho ^ 2) * sigma ^ 2 := by
      rw [hnu, mul_pow, hsqrt]
    have e2 : (nu * c) ^ 2 *
          ((((N : K) - 1 - i) * (1 - p) + i * p) ^ 2 + ((N : K) - 1 - i) * p * (1 - p)
            + i * p * (1 - p))
        - 2 * (nu * c) * (nu + rho * (nu * (2 * (i : K) / ((N : K) - 1) - 1)))
          * (((N : K) - 1 - i) * (1 - p) + i * p)
        + (nu + rho * (nu * (2 * (i : K) / ((N : K) - 1) - 1))) ^ 2 * 1
        = nu ^ 2 * (1 - rho ^ 2) / ((N : K) - 1) := by
      rw [hc, hp]
      field_simp
      ring
    rw [e2, hnu2]
    field_simp

/-- `pi` is a stationary distribution of the chain with the given transition rows. -/
def IsStationary (n : ℕ) (P : List (List K)) (pi : ℕ → K) : Prop :=
  (∑ i ∈ range n, pi i = 1) ∧
  ∀ j, j < n → ∑ i ∈ range n, pi i * ((P.getD i []).getD j 0) = pi j

/-- **C13, existence.**  The binomial distribution `C(N-1, i) / 2^(N-1)` is stationary. -/
theorem C13_rouwenhorst_binomial [CharZero K] (sqrt : K → K) (rho sigma : K) (N : ℕ) (hN : 2 ≤ N) :
    IsStationary N (rouwenhorst sqrt rho sigma N).2
      (fun i => ((N - 1).choose i : K) / 2 ^ (N - 1)) := by
  have h2 : (2 : K) ^ (N - 1) ≠ 0 := pow_ne_zero _ two_ne_zero
  refine ⟨?_, ?_⟩
  · rw [← sum_div, div_eq_one_iff_eq h2]
    have := Nat.sum_range_choose (N - 1)
    rw [Nat.sub_add_cancel (by omega : 1 ≤ N)] at this
    exact_mod_cast this
  · intro j hj
    rw [rouwenhorst_matrix sqrt rho sigma N hN]
    have := rouw_stationary ((rho + 1) / 2) N hN j
    simp only
    rw [← this, sum_div]
    refine sum_congr rfl fun i hi => ?_
    have hi' : i < N := by simpa using hi
    simp [matRows, hi', hj]
    ring

/-- **C13, unconditional moments.**  Under *any* stationary distribution of the chain the mean is zero,
the variance is `sigma^2 / (1 - rho^2)` and the first autocovariance is `rho` times the variance. -/
theorem C13_rouwenhorst_unconditional [CharZero K] (sqrt : K → K) (rho sigma : K) (N : ℕ)
    (hN : 2 ≤ N) (hr : 1 - rho ^ 2 ≠ 0)
    (hsqrt : sqrt (((N : K) - 1) / (1 - rho ^ 2)) ^ 2 = ((N : K) - 1) / (1 - rho ^ 2))
    (pi : ℕ → K) (hpi : IsStationary N (rouwenhorst sqrt rho sigma N).2 pi) :
    let x : ℕ → K := fun i => (rouwenhorst sqrt rho sigma N).1.getD i 0
    let P : ℕ → ℕ → K := fun i j => ((rouwenhorst sqrt rho sigma N).2.getD i []).getD j 0
    (∑ i ∈ range N, pi i * x i = 0) ∧
    (∑ i ∈ range N, pi i * x i ^ 2 = sigma ^ 2 / (1 - rho ^ 2)) ∧
    (∑ i ∈ range N, pi i * (x i * ∑ j ∈ range N, P i j * x j)
      = rho * (sigma ^ 2 / (1 - rho ^ 2))) := by
  intro x P
  have hP : ∀ i, i < N → (rouwenhorst sqrt rho sigma N).2[i]? = some ((List.range N).map (P i)) := by
    intro i hi
    simp only [P]
    rw [rouwenhorst_matrix sqrt rho sigma N hN]
    simp only [matRows, List.getElem?_map, List.getElem?_range hi, Option.map_some,
      Option.some.injEq]
    refine List.map_congr_left fun j hj => ?_
    have := List.mem_range.1 hj
    simp [hi, this]
  have hx : ∀ i, i < N → (rouwenhorst sqrt rho sigma N).1[i]? = some (x i) := by
    intro i hi
    simp only [x]
    rw [rouwenhorst_nodes sqrt rho sigma N hN]
    simp [hi]
  have hnodes : (rouwenhorst sqrt rho sigma N).1 = (List.range N).map x := by
    apply List.ext_getElem?
    intro i
    by_cases hi : i < N
    · rw [hx i hi]; simp [hi]
    · rw [List.getElem?_eq_none, List.getElem?_eq_none]
      · simp; omega
      · rw [rouwenhorst_nodes sqrt rho sigma N hN]; simp; omega
  have hcond : ∀ i, i < N → (∑ j ∈ range N, P i j * x j = rho * x i) ∧
      (∑ j ∈ range N, P i j * (x j - rho * x i) ^ 2 = sigma ^ 2) := by
    intro i hi
    have h := C13_rouwenhorst_conditional sqrt rho sigma N hN hr hsqrt i _ _ (hP i hi) (hx i hi)
    rw [hnodes, zipWith_range, zipWith_range, sum_map_range, sum_map_range] at h
    exact h
  have hrow : ∀ i, i < N → ∑ j ∈ range N, P i j = 1 := by
    intro i hi
    have h := (rouw_moments ((rho + 1) / 2) ((rho + 1) / 2) N hN i hi).1
    simp only [mul_one] at h
    rw [← h]
    refine sum_congr rfl fun j hj => ?_
    have hj' : j < N := by simpa using hj
    simp only [P]
    rw [rouwenhorst_matrix sqrt rho sigma N hN]
    simp [matRows, hi, hj']
  obtain ⟨hsum, hst⟩ := hpi
  have swap : ∀ g : ℕ → K, ∑ j ∈ range N, pi j * g j
      = ∑ i ∈ range N, pi i * ∑ j ∈ range N, P i j * g j := by
    intro g
    have : ∀ j ∈ range N, pi j * g j = ∑ i ∈ range N, pi i * P i j * g j := by
      intro j hj
      rw [← sum_mul, hst j (by simpa using hj)]
    rw [sum_congr rfl this, sum_comm]
    refine sum_congr rfl fun i _ => ?_
    rw [mul_sum]
    exact sum_congr rfl fun j _ => by ring
  have hmean : ∑ i ∈ range N, pi i * x i = 0 := by
    have h := swap x
    have h2 : ∑ i ∈ range N, pi i * ∑ j ∈ range N, P i j * x j
        = rho * ∑ i ∈ range N, pi i * x i := by
      rw [mul_sum]
      refine sum_congr rfl fun i hi => ?_
      rw [(hcond i (by simpa using hi)).1]; ring
    rw [h2] at h
    have h3 : (1 - rho) * ∑ i ∈ range N, pi i * x i = 0 := by linear_combination h
    rcases mul_eq_zero.1 h3 with h4 | h4
    · exfalso
      apply hr
      have : rho = 1 := by linear_combination -h4
      rw [this]; ring
    · exact h4
  have hvar : ∑ i ∈ range N, pi i * x i ^ 2 = sigma ^ 2 / (1 - rho ^ 2) := by
    have h := swap fun j => x j ^ 2
    have h2 : ∀ i ∈ range N, pi i * ∑ j ∈ range N, P i j * x j ^ 2
        = pi i * sigma ^ 2 + rho ^ 2 * (pi i * x i ^ 2) := by
      intro i hi
      have hi' : i < N := by simpa using hi
      obtain ⟨c1, c2⟩ := hcond i hi'
      have e : ∑ j ∈ range N, P i j * (x j - rho * x i) ^ 2
          = ∑ j ∈ range N, P i j * x j ^ 2 - 2 * rho * x i * ∑ j ∈ range N, P i j * x j
            + (rho * x i) ^ 2 * ∑ j ∈ range N, P i j := by
        rw [mul_sum, mul_sum, ← sum_sub_distrib, ← sum_add_distrib]
        exact sum_congr rfl fun j _ => by ring
      rw [e, c1, hrow i hi'] at c2
      linear_combination pi i * c2
    rw [sum_congr rfl h2, sum_add_distrib, ← sum_mul, ← mul_sum, hsum] at h
    rw [eq_div_iff hr]
    linear_combination h
  refine ⟨hmean, hvar, ?_⟩
  rw [← hvar, mul_sum]
  refine sum_congr rfl fun i hi => ?_
  rw [(hcond i (by simpa using hi)).1]; ring

/-- Over the reals with `|rho| < 1` all the hypotheses hold: a non-trivial case. -/
example : 1 - (1 / 2 : ℝ) ^ 2 ≠ 0 ∧
    Real.sqrt (((5 : ℕ) - 1 : ℝ) / (1 - (1 / 2) ^ 2)) ^ 2 = ((5 : ℕ) - 1 : ℝ) / (1 - (1 / 2) ^ 2) := by
  refine ⟨by norm_num, Real.sq_sqrt (by norm_num)⟩

/-! ### C14 -/

/-- **C14, row sums.**  Whatever the cumulative distribution function, the rows of Tauchen's matrix sum
to one. -/
theorem C14_tauchen_row_sums [CharZero K] (sqrt cdf : K → K) (N : ℕ) (hN : 2 ≤ N) (mu rho sigma m : K) :
    ∃ Z P, tauchen sqrt cdf N mu rho sigma m = .ok (Z, P) ∧ Z.length = N ∧ P.length = N ∧
      ∀ row ∈ P, row.length = N ∧ row.sum = 1 := by
  unfold tauchen
  rw [if_neg (by omega), if_neg (by omega)]
  refine ⟨_, _, rfl, by simp, by simp [matRows], ?_⟩
  intro row hrow
  obtain ⟨j, hj, rfl⟩ := List.mem_map.1 hrow
  refine ⟨by simp, ?_⟩
  rw [sum_map_range]
  set a := (1 - rho) * mu
  set zlast := m * sqrt (sigma ^ 2 / (1 - rho ^ 2))
  set zstep := (zlast - -1 * zlast) / ((N : K) - 1)
  set Z : ℕ → K := fun i => (-1 * zlast + zstep * (i : K)) + a / (1 - rho) with hZ
  set b : ℕ → K := fun k => cdf ((Z k - a - rho * Z j + zstep / 2) / sigma) with hb
  have hdown : ∀ k, cdf ((Z (k + 1) - a - rho * Z j - zstep / 2) / sigma) = b k := by
    intro k
    simp only [hb, hZ]
    congr 2
    push_cast
    linear_combination zstep * (add_halves (1 : K)).symm
  have hpart : ∀ n, n + 1 < N → ∑ k ∈ range (n + 1),
      (if k = 0 then cdf ((Z 0 - a - rho * Z j + zstep / 2) / sigma)
      else if k = N - 1 then 1 - cdf ((Z (N - 1) - a - rho * Z j - zstep / 2) / sigma)
      else cdf ((Z k - a - rho * Z j + zstep / 2) / sigma)
        - cdf ((Z k - a - rho * Z j - zstep / 2) / sigma)) = b n := by
    intro n
    induction n with
    | zero => intro _; simp [hb]
    | succ n ih =>
      intro hn
      rw [sum_range_succ, ih (by omega), if_neg (by omega), if_neg (by omega), hdown]
      ring
  obtain ⟨n, rfl⟩ : ∃ n, N = n + 2 := ⟨N - 2, by omega⟩
  rw [sum_range_succ, hpart n (by omega)]
  simp only
  rw [if_neg (by omega), if_pos (by omega)]
  have : n + 2 - 1 = n + 1 := by omega
  rw [this, hdown]
  ring

/-- **C14, non-negativity.**  With a monotone cdf valued in `[0,1]`, `sigma > 0` and non-negative
spread, the entries are non-negative. -/
theorem C14_tauchen_nonneg [LinearOrder K] [IsStrictOrderedRing K] (sqrt cdf : K → K) (N : ℕ)
    (hN : 2 ≤ N) (mu rho sigma m : K) (hmono : ∀ x y, x ≤ y → cdf x ≤ cdf y)
    (h01 : ∀ x, 0 ≤ cdf x ∧ cdf x ≤ 1) (hs : 0 < sigma) (hm : 0 ≤ m)
    (hsq : 0 ≤ sqrt (sigma ^ 2 / (1 - rho ^ 2))) :
    ∃ Z P, tauchen sqrt cdf N mu rho sigma m = .ok (Z, P) ∧ ∀ row ∈ P, ∀ x ∈ row, 0 ≤ x := by
  unfold tauchen
  rw [if_neg (by omega), if_neg (by omega)]
  refine ⟨_, _, rfl, ?_⟩
  intro row hrow x hx
  obtain ⟨j, hj, rfl⟩ := List.mem_map.1 hrow
  obtain ⟨k, hk, rfl⟩ := List.mem_map.1 hx
  have hN1 : (0 : K) < (N : K) - 1 := by
    have : (2 : K) ≤ N := by exact_mod_cast hN
    linarith
  have hstep : 0 ≤ (m * sqrt (sigma ^ 2 / (1 - rho ^ 2))
      - -1 * (m * sqrt (sigma ^ 2 / (1 - rho ^ 2)))) / ((N : K) - 1) := by
    apply div_nonneg _ hN1.le
    have := mul_nonneg hm hsq
    linarith
  simp only
  split
  · exact (h01 _).1
  · split
    · have := (h01 (((-1 * (m * sqrt (sigma ^ 2 / (1 - rho ^ 2)))
        + (m * sqrt (sigma ^ 2 / (1 - rho ^ 2)) - -1 * (m * sqrt (sigma ^ 2 / (1 - rho ^ 2))))
          / ((N : K) - 1) * ((N - 1 : ℕ) : K) + (1 - rho) * mu / (1 - rho)) - (1 - rho) * mu
        - rho * (-1 * (m * sqrt (sigma ^ 2 / (1 - rho ^ 2)))
        + (m * sqrt (sigma ^ 2 / (1 - rho ^ 2)) - -1 * (m * sqrt (sigma ^ 2 / (1 - rho ^ 2))))
          / ((N : K) - 1) * (j : K) + (1 - rho) * mu / (1 - rho))
        - (m * sqrt (sigma ^ 2 / (1 - rho ^ 2)) - -1 * (m * sqrt (sigma ^ 2 / (1 - rho ^ 2))))
          / ((N : K) - 1) / 2) / sigma)).2
      linarith
    · rw [sub_nonneg]
      apply hmono
      gcongr
      linarith

/-- **C14, symmetry.**  With a symmetric distribution the chain is symmetric about its mean: moving
from node `j` to node `k` is as likely as moving between the mirrored nodes.  (Two and more nodes,
`rho ≠ 1`; `N - 1 - i` is the mirror of `i`.) -/
theorem C14_tauchen_symmetric [CharZero K] (sqrt cdf : K → K) (N : ℕ) (hN : 2 ≤ N)
    (mu rho sigma m : K) (hr : 1 - rho ≠ 0) (hsym : ∀ x, cdf (-x) = 1 - cdf x) :
    ∃ Z P, tauchen sqrt cdf N mu rho sigma m = .ok (Z, P) ∧
      ∀ j k, j < N → k < N →
        (∃ z z', Z[k]? = some z ∧ Z[N - 1 - k]? = some z' ∧ z' - mu = -(z - mu)) ∧
        ∃ r r' p, P[j]? = some r ∧ P[N - 1 - j]? = some r' ∧ r[k]? = some p ∧
          r'[N - 1 - k]? = some p := by
  have hN1 : (N : K) - 1 ≠ 0 := by
    intro h
    have : (N : K) = 1 := sub_eq_zero.1 h
    have : N = 1 := by exact_mod_cast this
    omega
  unfold tauchen
  rw [if_neg (by omega), if_neg (by omega)]
  refine ⟨_, _, rfl, ?_⟩
  intro j k hj hk
  have hj' : N - 1 - j < N := by omega
  have hk' : N - 1 - k < N := by omega
  set a := (1 - rho) * mu with ha
  set zlast := m * sqrt (sigma ^ 2 / (1 - rho ^ 2))
  set zstep := (zlast - -1 * zlast) / ((N : K) - 1) with hzs
  set Z : ℕ → K := fun i => (-1 * zlast + zstep * (i : K)) + a / (1 - rho) with hZ
  have hmir : ∀ i, i < N → Z (N - 1 - i) - mu = -(Z i - mu) := by
    intro i hi
    simp only [hZ, ha, hzs]
    rw [Nat.cast_sub (by omega), Nat.cast_sub (by omega)]
    push_cast
    field_simp
    ring
  have harg : ∀ k j, k < N → j < N → Z (N - 1 - k) - a - rho * Z (N - 1 - j)
      = -(Z k - a - rho * Z j) := by
    intro k j hk hj
    have h1 := hmir k hk
    have h2 := hmir j hj
    rw [ha]
    linear_combination h1 - rho * h2
  refine ⟨⟨Z k, Z (N - 1 - k), by simp [hk], by simp [hk'], hmir k hk⟩, ?_⟩
  have hrowAt : ∀ (M : ℕ → ℕ → K) i, i < N →
      (matRows N N M)[i]? = some ((List.range N).map (M i)) := by
    intro M i hi
    simp [matRows, hi]
  have hcol : ∀ (f : ℕ → K) i, i < N → ((List.range N).map f)[i]? = some (f i) := by
    intro f i hi
    simp [hi]
  refine ⟨_, _, _, hrowAt _ j hj, hrowAt _ _ hj', hcol _ k hk, ?_⟩
  rw [hcol _ _ hk']
  simp only [Option.some.injEq]
  have hfirst : Z (N - 1) = Z (N - 1 - 0) := by simp
  have hz0 : ∀ x y : K, (-x) / y = -(x / y) := fun x y => by ring
  by_cases hk0 : k = 0
  · subst hk0
    have : ¬ N - 1 - 0 = 0 := by omega
    rw [if_neg this, if_pos (by omega), if_pos rfl, hfirst, harg 0 j (by omega) hj]
    have : -(Z 0 - a - rho * Z j) - zstep / 2 = -(Z 0 - a - rho * Z j + zstep / 2) := by ring
    rw [this, hz0, hsym]; ring
  · by_cases hkl : k = N - 1
    · subst hkl
      have h0 : N - 1 - (N - 1) = 0 := by omega
      have h00 : Z 0 = Z (N - 1 - (N - 1)) := by rw [h0]
      rw [h0, if_pos rfl, if_neg hk0, if_pos rfl, h00, harg (N - 1) j (by omega) hj]
      have : -(Z (N - 1) - a - rho * Z j) + zstep / 2 = -(Z (N - 1) - a - rho * Z j - zstep / 2) := by
        ring
      rw [this, hz0, hsym]
    · rw [if_neg (by omega), if_neg (by omega), if_neg hk0, if_neg hkl, harg k j hk hj]
      have e1 : -(Z k - a - rho * Z j) + zstep / 2 = -(Z k - a - rho * Z j - zstep / 2) := by ring
      have e2 : -(Z k - a - rho * Z j) - zstep / 2 = -(Z k - a - rho * Z j + zstep / 2) := by ring
      rw [e1, e2, hz0, hz0, hsym, hsym]
      ring

/-- A cdf meeting all the hypotheses used above (the uniform distribution on `[-1, 1]`). -/
example : (∀ x y : ℚ, x ≤ y → max 0 (min 1 ((x + 1) / 2)) ≤ max 0 (min 1 ((y + 1) / 2))) ∧
    (∀ x : ℚ, 0 ≤ max 0 (min 1 ((x + 1) / 2)) ∧ max 0 (min 1 ((x + 1) / 2)) ≤ 1) ∧
    (∀ x : ℚ, max 0 (min 1 ((-x + 1) / 2)) = 1 - max 0 (min 1 ((x + 1) / 2))) := by
  refine ⟨fun x y h => ?_, fun x => ⟨le_max_left _ _, max_le zero_le_one (min_le_left _ _)⟩,
    fun x => ?_⟩
  · gcongr
  · rcases le_total x (-1) with h | h
    · rw [min_eq_left (by linarith), min_eq_right (by linarith), max_eq_right (by linarith),
        max_eq_left (by linarith)]
      ring
    · rcases le_total 1 x with h' | h'
      · rw [min_eq_right (by linarith), min_eq_left (by linarith), max_eq_left (by linarith),
          max_eq_right (by linarith)]
        ring
      · rw [min_eq_right (by linarith), min_eq_right (by linarith), max_eq_right (by linarith),
          max_eq_right (by linarith)]
        ring

/-- Probability, under the conditional law `y = (1 - rho) mu + rho z + sigma ε` (`ε` with distribution
function `cdf`), of the cell of node `k` among the nodes `Z 0 < … < Z (N-1)`: cells are separated by the
midpoints between neighbouring nodes, the first and the last one are unbounded. -/
def cellProb (cdf : K → K) (N : ℕ) (mu rho sigma : K) (Z : ℕ → K) (z : K) (k : ℕ) : K :=
  (if k = N - 1 then 1 else cdf (((Z k + Z (k + 1)) / 2 - ((1 - rho) * mu + rho * z)) / sigma))
  - (if k = 0 then 0 else cdf (((Z (k - 1) + Z k) / 2 - ((1 - rho) * mu + rho * z)) / sigma))

/-- **C14, meaning of the matrix.**  The nodes are `N` equally spaced points from `mu - m s` to `mu + m s`,
`s` being the stationary standard deviation, and entry `(j, k)` is the probability of the cell of node `k`
conditionally on the current value being node `j`. -/
theorem C14_tauchen_cells [CharZero K] (sqrt cdf : K → K) (N : ℕ) (hN : 2 ≤ N) (mu rho sigma m : K)
    (hr : 1 - rho ≠ 0) :
    ∃ Z P, tauchen sqrt cdf N mu rho sigma m = .ok (Z, P) ∧
      (∀ i < N, Z[i]? = some (mu - m * sqrt (sigma ^ 2 / (1 - rho ^ 2))
        + (i : K) * (2 * m * sqrt (sigma ^ 2 / (1 - rho ^ 2)) / ((N : K) - 1)))) ∧
      ∀ j k, j < N → k < N → ∃ r, P[j]? = some r ∧
        r[k]? = some (cellProb cdf N mu rho sigma (fun i => Z.getD i 0) (Z.getD j 0) k) := by
  have hN1 : (N : K) - 1 ≠ 0 := by
    intro h
    have : (N : K) = 1 := sub_eq_zero.1 h
    have : N = 1 := by exact_mod_cast this
    omega
  unfold tauchen
  rw [if_neg (by omega), if_neg (by omega)]
  set s := sqrt (sigma ^ 2 / (1 - rho ^ 2))
  refine ⟨_, _, rfl, ?_, ?_⟩
  · intro i hi
    simp only [List.getElem?_map, List.getElem?_range hi, Option.map_some]
    congr 1
    field_simp
    ring
  · intro j k hj hk
    refine ⟨_, by simp only [matRows, List.getElem?_map, List.getElem?_range hj, Option.map_some]; rfl, ?_⟩
    simp only [List.getElem?_map, List.getElem?_range hk, Option.map_some]
    have hZ : ∀ i < N, ((List.range N).map fun (i : ℕ) =>
        -1 * (m * s) + (m * s - -1 * (m * s)) / ((N : K) - 1) * (i : K) + (1 - rho) * mu / (1 - rho)).getD i 0
        = -1 * (m * s) + (m * s - -1 * (m * s)) / ((N : K) - 1) * (i : K) + (1 - rho) * mu / (1 - rho) := by
      intro i hi
      simp only [List.getD_eq_getElem?_getD, List.getElem?_map, List.getElem?_range hi, Option.map_some,
        Option.getD_some]
    have two : (2 : K) ≠ 0 := two_ne_zero
    congr 1
    unfold cellProb
    simp only []
    by_cases h0 : k = 0
    · subst h0
      rw [if_pos rfl, if_neg (by omega), if_pos rfl, sub_zero, hZ 0 (by omega), hZ (0 + 1) (by omega), hZ j hj]
      congr 2
      push_cast
      ring
    · rw [if_neg h0, if_neg h0]
      by_cases h1 : k = N - 1
      · subst h1
        rw [if_pos rfl, if_pos rfl, hZ (N - 1) (by omega), hZ (N - 1 - 1) (by omega), hZ j hj]
        congr 3
        have : ((N - 1 : ℕ) : K) = ((N - 1 - 1 : ℕ) : K) + 1 := by
          have : N - 1 = (N - 1 - 1) + 1 := by omega
          exact_mod_cast congrArg (fun n : ℕ => (n : K)) this
        rw [this]
        ring
      · rw [if_neg h1, if_neg h1, hZ k hk, hZ (k + 1) (by omega), hZ (k - 1) (by omega), hZ j hj]
        have : (k : K) = ((k - 1 : ℕ) : K) + 1 := by
          have : k = (k - 1) + 1 := by omega
          exact_mod_cast congrArg (fun n : ℕ => (n : K)) this
        congr 3
        · push_cast; ring
        · rw [this]; ring

/-- Three nodes around the mean `5`. -/
example : ∃ Z P, tauchen (fun _ : ℚ => 1) (fun x => max 0 (min 1 ((x + 1) / 2))) 3 5 (1 / 2) 1 2
    = .ok (Z, P) ∧ Z[0]? = some 3 ∧ Z[1]? = some 5 ∧ Z[2]? = some 7 := by
  obtain ⟨Z, P, h, hZ, -⟩ := C14_tauchen_cells (fun _ : ℚ => 1) (fun x => max 0 (min 1 ((x + 1) / 2))) 3
    (by norm_num) 5 (1 / 2) 1 2 (by norm_num)
  refine ⟨Z, P, h, ?_, ?_, ?_⟩
  · rw [hZ 0 (by norm_num)]; norm_num
  · rw [hZ 1 (by norm_num)]; norm_num
  · rw [hZ 2 (by norm_num)]; norm_num

end Dolo
