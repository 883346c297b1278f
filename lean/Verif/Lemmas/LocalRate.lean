import Mathlib.Analysis.SpecialFunctions.Pow.Real
import Verif.Lemmas.SpectralRadius

/-!
# Geometric convergence near a fixed point
-/

set_option linter.unusedSectionVars false

namespace Dolo

open Filter Topology Matrix

attribute [local instance] Matrix.linftyOpNormedRing Matrix.linftyOpNormedAlgebra

variable {ι : Type} [Fintype ι] [DecidableEq ι]

/-- Near a fixed point where the derivative has a power of norm below one, deviations decay geometrically, in
proportion to the initial deviation. -/
theorem local_rate (T : (ι → ℝ) → ι → ℝ) (A : Matrix ι ι ℝ) (xs : ι → ℝ) (hfix : T xs = xs)
    (hT : HasFDerivAt T (mulVecCLM A) xs) {k : ℕ} (hk : 1 ≤ k) (hA : ‖A ^ k‖ < 1) :
    ∃ ε > 0, ∃ C > 0, ∃ r, 0 < r ∧ r < 1 ∧ ∀ x, dist x xs < ε → ∀ n,
      dist (T^[n] x) xs ≤ C * r ^ n * dist x xs := by
  have hTk : HasFDerivAt T^[k] (mulVecCLM (A ^ k)) xs := by
    have := hT.iterate hfix k
    rwa [mulVecCLM_pow] at this
  have hfixn : ∀ n, T^[n] xs = xs := fun n => Function.iterate_fixed hfix n
  obtain ⟨c, hc1, hc2⟩ : ∃ c, ‖A ^ k‖ < c ∧ c < 1 := exists_between hA
  have hc0 : 0 < c := (norm_nonneg _).trans_lt hc1
  have hev := hTk.isLittleO.bound (sub_pos.mpr hc1)
  rw [Metric.eventually_nhds_iff] at hev
  obtain ⟨δ, hδ, hball⟩ := hev
  have hcontr : ∀ y, dist y xs < δ → dist (T^[k] y) xs ≤ c * dist y xs := by
    intro y hy
    have h1 := hball hy
    rw [hfixn k] at h1
    rw [dist_eq_norm, dist_eq_norm]
    have h2 : ‖mulVecCLM (A ^ k) (y - xs)‖ ≤ ‖A ^ k‖ * ‖y - xs‖ := by
      rw [mulVecCLM_apply]; exact Matrix.linfty_opNorm_mulVec _ _
    calc ‖T^[k] y - xs‖ = ‖(T^[k] y - xs - mulVecCLM (A ^ k) (y - xs)) + mulVecCLM (A ^ k) (y - xs)‖ := by
          rw [sub_add_cancel]
      _ ≤ _ := norm_add_le _ _
      _ ≤ (c - ‖A ^ k‖) * ‖y - xs‖ + ‖A ^ k‖ * ‖y - xs‖ := add_le_add h1 h2
      _ = c * ‖y - xs‖ := by ring
  have hiter : ∀ q y, dist y xs < δ → dist ((T^[k])^[q] y) xs ≤ c ^ q * dist y xs := by
    intro q
    induction q with
    | zero => intro y _; simp
    | succ q ih =>
      intro y hy
      rw [Function.iterate_succ_apply]
      have h1 := hcontr y hy
      have h2 : dist (T^[k] y) xs < δ :=
        lt_of_le_of_lt h1 (lt_of_le_of_lt (mul_le_of_le_one_left dist_nonneg hc2.le) hy)
      refine (ih _ h2).trans ?_
      calc c ^ q * dist (T^[k] y) xs ≤ c ^ q * (c * dist y xs) :=
            mul_le_mul_of_nonneg_left h1 (pow_nonneg hc0.le q)
        _ = c ^ (q + 1) * dist y xs := by ring
  -- the first k iterates
  have hfirst : ∃ B > 0, ∀ᶠ x in 𝓝 xs, ∀ j ∈ Finset.range k, dist (T^[j] x) xs ≤ B * dist x xs := by
    have : ∀ j : ℕ, ∃ B > 0, ∀ᶠ x in 𝓝 xs, dist (T^[j] x) xs ≤ B * dist x xs := by
      intro j
      obtain ⟨B, hB, hb⟩ := (hT.iterate hfix j).isBigO_sub.exists_pos
      refine ⟨B, hB, ?_⟩
      filter_upwards [hb.bound] with x hx
      rw [hfixn j] at hx
      rwa [dist_eq_norm, dist_eq_norm]
    choose B hB hb using this
    refine ⟨1 + ∑ j ∈ Finset.range k, B j, ?_, ?_⟩
    · have : 0 ≤ ∑ j ∈ Finset.range k, B j := Finset.sum_nonneg fun j _ => (hB j).le
      linarith
    · rw [Finset.eventually_all]
      intro j hj
      filter_upwards [hb j] with x hx
      refine hx.trans (mul_le_mul_of_nonneg_right ?_ dist_nonneg)
      have := Finset.single_le_sum (f := B) (fun i _ => (hB i).le) hj
      linarith
  obtain ⟨B, hB, hfirst⟩ := hfirst
  rw [Metric.eventually_nhds_iff] at hfirst
  obtain ⟨η, hη, hfirst⟩ := hfirst
  set r : ℝ := c ^ (1 / (k : ℝ)) with hr
  have hk0 : (k : ℝ) ≠ 0 := by positivity
  have hrk : r ^ k = c := by
    rw [hr, ← Real.rpow_natCast, ← Real.rpow_mul hc0.le, one_div, inv_mul_cancel₀ hk0, Real.rpow_one]
  have hr0 : 0 < r := Real.rpow_pos_of_pos hc0 _
  have hr1 : r < 1 := Real.rpow_lt_one hc0.le hc2 (by positivity)
  refine ⟨min η (δ / B), lt_min hη (div_pos hδ hB), B / c, div_pos hB hc0, r, hr0, hr1, ?_⟩
  intro x hx n
  have hn : n = k * (n / k) + n % k := (Nat.div_add_mod n k).symm
  have hm : n % k < k := Nat.mod_lt _ (by omega)
  have h1 := hfirst (lt_of_lt_of_le hx (min_le_left _ _)) (n % k) (Finset.mem_range.mpr hm)
  have h1' : dist (T^[n % k] x) xs < δ := by
    refine lt_of_le_of_lt h1 ?_
    have := lt_of_lt_of_le hx (min_le_right _ _)
    rw [lt_div_iff₀ hB] at this
    linarith
  have h2 := hiter (n / k) _ h1'
  have h3 : T^[n] x = (T^[k])^[n / k] (T^[n % k] x) := by
    rw [← Function.iterate_mul, ← Function.iterate_add_apply, ← hn]
  rw [h3]
  have h4 : c ^ (n / k) * c ≤ r ^ n := by
    rw [← hrk, ← pow_mul, ← pow_add]
    exact pow_le_pow_of_le_one hr0.le hr1.le (by omega)
  have h5 : c ^ (n / k) ≤ r ^ n / c := by rwa [le_div_iff₀ hc0]
  calc dist ((T^[k])^[n / k] (T^[n % k] x)) xs ≤ c ^ (n / k) * dist (T^[n % k] x) xs := h2
    _ ≤ c ^ (n / k) * (B * dist x xs) := mul_le_mul_of_nonneg_left h1 (pow_nonneg hc0.le _)
    _ ≤ r ^ n / c * (B * dist x xs) :=
        mul_le_mul_of_nonneg_right h5 (mul_nonneg hB.le dist_nonneg)
    _ = B / c * r ^ n * dist x xs := by ring

end Dolo
