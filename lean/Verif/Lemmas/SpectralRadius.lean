import Mathlib.Analysis.Matrix.Normed
import Mathlib.Analysis.Normed.Algebra.GelfandFormula
import Mathlib.Analysis.Calculus.FDeriv.Comp
import Mathlib.Analysis.Calculus.FDeriv.Add
import Mathlib.Analysis.Calculus.FDeriv.Prod
import Mathlib.LinearAlgebra.Matrix.ToLinearEquiv
import Mathlib.Topology.Algebra.Module.FiniteDimension

/-!
# Local convergence of fixed-point iterations

A real matrix whose complex eigenvalues have modulus below one has a power of norm below one; a map with such
a derivative at a fixed point converges to it from nearby points.
-/

set_option linter.unusedSectionVars false

namespace Dolo

open Filter Topology Matrix

attribute [local instance] Matrix.linftyOpNormedRing Matrix.linftyOpNormedAlgebra

variable {ι : Type} [Fintype ι] [DecidableEq ι]

/-- `z` is an eigenvalue of the real matrix `A`. -/
def IsEigenvalue (A : Matrix ι ι ℝ) (z : ℂ) : Prop :=
  ∃ v : ι → ℂ, v ≠ 0 ∧ A.map Complex.ofReal *ᵥ v = z • v

theorem mem_spectrum_isEigenvalue (A : Matrix ι ι ℝ) {z : ℂ}
    (h : z ∈ spectrum ℂ (A.map Complex.ofReal)) : IsEigenvalue A z := by
  rw [spectrum.mem_iff, Matrix.isUnit_iff_isUnit_det, isUnit_iff_ne_zero, not_not] at h
  obtain ⟨v, hv, hz⟩ := Matrix.exists_mulVec_eq_zero_iff.mpr h
  refine ⟨v, hv, ?_⟩
  rw [Matrix.sub_mulVec, sub_eq_zero, Algebra.algebraMap_eq_smul_one, Matrix.smul_mulVec,
    Matrix.one_mulVec] at hz
  exact hz.symm

theorem norm_map_ofReal (A : Matrix ι ι ℝ) : ‖A.map Complex.ofReal‖ = ‖A‖ := by
  rw [Matrix.linfty_opNorm_def, Matrix.linfty_opNorm_def]
  congr 2
  funext i
  apply Finset.sum_congr rfl
  intro j _
  ext
  simp

theorem map_ofReal_pow (A : Matrix ι ι ℝ) (k : ℕ) :
    (A ^ k).map Complex.ofReal = A.map Complex.ofReal ^ k :=
  map_pow (Complex.ofRealHom.mapMatrix (m := ι)) A k

theorem exists_pow_norm_lt_one [Nonempty ι] (A : Matrix ι ι ℝ) (h : ∀ z, IsEigenvalue A z → ‖z‖ < 1) :
    ∃ k, 1 ≤ k ∧ ‖A ^ k‖ < 1 := by
  set B := A.map Complex.ofReal with hB
  have hr : spectralRadius ℂ B < 1 := by
    obtain ⟨z, hz, hzr⟩ := spectrum.exists_nnnorm_eq_spectralRadius B
    rw [← hzr]
    have := h z (mem_spectrum_isEigenvalue A hz)
    exact_mod_cast this
  have ht := spectrum.pow_nnnorm_pow_one_div_tendsto_nhds_spectralRadius B
  have hev := (ht.eventually (gt_mem_nhds hr)).and (eventually_ge_atTop 1)
  obtain ⟨k, hk, hk1⟩ := hev.exists
  refine ⟨k, hk1, ?_⟩
  have hkpos : (0 : ℝ) < 1 / (k : ℝ) := by positivity
  have h1 : (‖B ^ k‖₊ : ENNReal) < 1 := by
    by_contra hc
    have := ENNReal.rpow_le_rpow (not_lt.mp hc) hkpos.le
    rw [ENNReal.one_rpow] at this
    exact absurd hk (not_lt.mpr this)
  have h2 : ‖B ^ k‖ < 1 := by exact_mod_cast h1
  rw [hB, ← map_ofReal_pow, norm_map_ofReal] at h2
  exact h2

/-- The linear map of a matrix. -/
noncomputable def mulVecCLM (A : Matrix ι ι ℝ) : (ι → ℝ) →L[ℝ] (ι → ℝ) :=
  LinearMap.toContinuousLinearMap (Matrix.mulVecLin A)

@[simp] theorem mulVecCLM_apply (A : Matrix ι ι ℝ) (v : ι → ℝ) : mulVecCLM A v = A *ᵥ v := rfl

theorem mulVecCLM_pow (A : Matrix ι ι ℝ) (k : ℕ) : mulVecCLM A ^ k = mulVecCLM (A ^ k) := by
  induction k with
  | zero => ext v : 1; simp
  | succ k ih =>
    rw [pow_succ, ih, pow_succ]
    ext v : 1
    simp [Matrix.mulVec_mulVec]

/-- A map with derivative `L` at a fixed point, where a power of `L` shrinks distances, converges to the fixed
point from nearby points. -/
theorem local_convergence (T : (ι → ℝ) → ι → ℝ) (A : Matrix ι ι ℝ) (xs : ι → ℝ) (hfix : T xs = xs)
    (hT : HasFDerivAt T (mulVecCLM A) xs) {k : ℕ} (hk : 1 ≤ k) (hA : ‖A ^ k‖ < 1) {ρ : ℝ} (hρ : 0 < ρ) :
    ∃ ε > 0, ∀ x, dist x xs < ε → (∀ n, dist (T^[n] x) xs < ρ) ∧
      Tendsto (fun n => T^[n] x) atTop (𝓝 xs) := by
  have hTk : HasFDerivAt T^[k] (mulVecCLM (A ^ k)) xs := by
    have := hT.iterate hfix k
    rwa [mulVecCLM_pow] at this
  have hfixn : ∀ n, T^[n] xs = xs := fun n => Function.iterate_fixed hfix n
  -- contraction of the k-th iterate
  obtain ⟨c, hc1, hc2⟩ : ∃ c, ‖A ^ k‖ < c ∧ c < 1 := exists_between hA
  have hc0 : 0 ≤ c := (norm_nonneg _).trans hc1.le
  have hlo := hTk.isLittleO
  have hev := hlo.bound (sub_pos.mpr hc1)
  rw [Metric.eventually_nhds_iff] at hev
  obtain ⟨δ', hδ', hball'⟩ := hev
  obtain ⟨δ, hδ, hδρ, hball⟩ : ∃ δ > 0, δ ≤ ρ ∧ ∀ ⦃y : ι → ℝ⦄, dist y xs < δ →
      ‖T^[k] y - T^[k] xs - (mulVecCLM (A ^ k)) (y - xs)‖ ≤ (c - ‖A ^ k‖) * ‖y - xs‖ :=
    ⟨min δ' ρ, lt_min hδ' hρ, min_le_right _ _, fun y hy => hball' (lt_of_lt_of_le hy (min_le_left _ _))⟩
  have hcontr : ∀ y, dist y xs < δ → dist (T^[k] y) xs ≤ c * dist y xs := by
    intro y hy
    have h1 := hball hy
    rw [hfixn k] at h1
    rw [dist_eq_norm, dist_eq_norm]
    have h2 : ‖mulVecCLM (A ^ k) (y - xs)‖ ≤ ‖A ^ k‖ * ‖y - xs‖ := by
      rw [mulVecCLM_apply]; exact Matrix.linfty_opNorm_mulVec _ _
    calc ‖T^[k] y - xs‖ = ‖(T^[k] y - xs - mulVecCLM (A ^ k) (y - xs)) + mulVecCLM (A ^ k) (y - xs)‖ := by
          rw [sub_add_cancel]
      _ ≤ _ := norm_add_le _ _
      _ ≤ (c - ‖A ^ k‖) * ‖y - xs‖ + ‖A ^ k‖ * ‖y - xs‖ := add_le_add h1 h2
      _ = c * ‖y - xs‖ := by ring
  have hiter : ∀ q y, dist y xs < δ → dist ((T^[k])^[q] y) xs ≤ c ^ q * dist y xs := by
    intro q
    induction q with
    | zero => intro y _; simp
    | succ q ih =>
      intro y hy
      rw [Function.iterate_succ_apply]
      have h1 := hcontr y hy
      have h2 : dist (T^[k] y) xs < δ := by
        refine lt_of_le_of_lt h1 (lt_of_le_of_lt ?_ hy)
        exact mul_le_of_le_one_left dist_nonneg hc2.le
      refine (ih _ h2).trans ?_
      calc c ^ q * dist (T^[k] y) xs ≤ c ^ q * (c * dist y xs) :=
            mul_le_mul_of_nonneg_left h1 (pow_nonneg hc0 q)
        _ = c ^ (q + 1) * dist y xs := by ring
  -- the first k iterates stay within the ball
  have hnear : ∀ᶠ x in 𝓝 xs, ∀ j ∈ Finset.range k, dist (T^[j] x) xs < δ := by
    rw [Finset.eventually_all]
    intro j _
    have hcont : ContinuousAt T^[j] xs := (hT.iterate hfix j).continuousAt
    have := hcont.eventually (Metric.ball_mem_nhds (T^[j] xs) hδ)
    rw [hfixn j] at this
    exact this
  rw [Metric.eventually_nhds_iff] at hnear
  obtain ⟨ε, hε, hnear⟩ := hnear
  refine ⟨ε, hε, fun x hx => ?_⟩
  have hj := hnear hx
  have hbound' : ∀ n, ∃ d < δ, 0 ≤ d ∧ dist (T^[n] x) xs ≤ c ^ (n / k) * d := by
    intro n
    have hn : n = k * (n / k) + n % k := (Nat.div_add_mod n k).symm
    have hm : n % k < k := Nat.mod_lt _ (by omega)
    have h1 := hj (n % k) (Finset.mem_range.mpr hm)
    have h2 := hiter (n / k) _ h1
    have h3 : T^[n] x = (T^[k])^[n / k] (T^[n % k] x) := by
      rw [← Function.iterate_mul, ← Function.iterate_add_apply, ← hn]
    rw [h3]
    exact ⟨_, h1, dist_nonneg, h2⟩
  refine ⟨fun n => ?_, ?_⟩
  · obtain ⟨d, hd, hd0, h⟩ := hbound' n
    refine lt_of_le_of_lt h (lt_of_le_of_lt ?_ (lt_of_lt_of_le hd hδρ))
    exact mul_le_of_le_one_left hd0 (pow_le_one₀ hc0 hc2.le)
  rw [tendsto_iff_dist_tendsto_zero]
  have hbound : ∀ n, dist (T^[n] x) xs ≤ c ^ (n / k) * δ := by
    intro n
    obtain ⟨d, hd, -, h⟩ := hbound' n
    exact h.trans (mul_le_mul_of_nonneg_left hd.le (pow_nonneg hc0 _))
  refine squeeze_zero (fun _ => dist_nonneg) hbound ?_
  have hpow : Tendsto (fun n : ℕ => c ^ n) atTop (𝓝 0) := tendsto_pow_atTop_nhds_zero_of_lt_one hc0 hc2
  have hdiv : Tendsto (fun n : ℕ => n / k) atTop atTop := by
    refine tendsto_atTop.mpr fun b => ?_
    filter_upwards [eventually_ge_atTop (b * k)] with n hn
    exact (Nat.le_div_iff_mul_le (by omega)).mpr hn
  have := (hpow.comp hdiv).mul_const δ
  rw [zero_mul] at this
  exact this

/-- Implicit differentiation: if `F (T y) y = 0` near `xs`, `T` is continuous there and the derivative of `F`
in its first argument is invertible (its inverse maps the derivative in the second argument to `-A`), then
`A` is the derivative of `T`. -/
theorem implicit_derivative (F : (ι → ℝ) → (ι → ℝ) → ι → ℝ) (T : (ι → ℝ) → ι → ℝ) (xs : ι → ℝ)
    (D E Di A : Matrix ι ι ℝ) (hfix : T xs = xs) (hcont : ContinuousAt T xs)
    (hzero : ∀ᶠ y in 𝓝 xs, F (T y) y = 0)
    (hF : HasFDerivAt (fun p : (ι → ℝ) × (ι → ℝ) => F p.1 p.2)
      ((mulVecCLM D).comp (.fst ℝ _ _) + (mulVecCLM E).comp (.snd ℝ _ _)) (xs, xs))
    (hDi : Di * D = 1) (hA : D * A = -E) : HasFDerivAt T (mulVecCLM A) xs := by
  have hA' : A = -(Di * E) := by
    have := congrArg (fun M => Di * M) hA
    simp only [← mul_assoc, hDi, one_mul, mul_neg] at this
    exact this
  have h0 : F xs xs = 0 := by
    have := hzero.self_of_nhds
    rwa [hfix] at this
  have hpair : Tendsto (fun y => (T y, y)) (𝓝 xs) (𝓝 (xs, xs)) := by
    have := hcont.tendsto
    rw [hfix] at this
    exact this.prodMk_nhds tendsto_id
  have hlo := hF.isLittleO.comp_tendsto hpair
  -- the error of the linearisation, multiplied by Di
  set e : (ι → ℝ) → ι → ℝ := fun y => T y - xs - A *ᵥ (y - xs) with he
  have key : ∀ᶠ y in 𝓝 xs, e y = -(Di *ᵥ (F (T y) y - F xs xs -
      (D *ᵥ (T y - xs) + E *ᵥ (y - xs)))) := by
    filter_upwards [hzero] with y hy
    rw [hy, h0, sub_zero, zero_sub, Matrix.mulVec_neg, neg_neg, Matrix.mulVec_add, Matrix.mulVec_mulVec,
      Matrix.mulVec_mulVec, hDi, Matrix.one_mulVec]
    simp only [he]
    rw [hA', Matrix.neg_mulVec, sub_neg_eq_add]
  have hsmall : e =o[𝓝 xs] fun y => ((T y, y) : (ι → ℝ) × (ι → ℝ)) - (xs, xs) := by
    have h1 : e =O[𝓝 xs] fun y => F (T y) y - F xs xs - (D *ᵥ (T y - xs) + E *ᵥ (y - xs)) := by
      refine Asymptotics.IsBigO.of_bound ‖Di‖ ?_
      filter_upwards [key] with y hy
      rw [hy, norm_neg]
      exact Matrix.linfty_opNorm_mulVec _ _
    exact h1.trans_isLittleO hlo
  -- T y - xs is of the order of y - xs
  have hO : (fun y => ((T y, y) : (ι → ℝ) × (ι → ℝ)) - (xs, xs)) =O[𝓝 xs] fun y => y - xs := by
    have hb := hsmall.bound (show (0 : ℝ) < 1 / 2 by norm_num)
    refine Asymptotics.IsBigO.of_bound (2 * ‖A‖ + 1 + 1) ?_
    filter_upwards [hb] with y hy
    have hp : ‖((T y, y) : (ι → ℝ) × (ι → ℝ)) - (xs, xs)‖ = max ‖T y - xs‖ ‖y - xs‖ := rfl
    rw [hp] at hy ⊢
    have h1 : ‖T y - xs‖ ≤ ‖e y‖ + ‖A‖ * ‖y - xs‖ := by
      have h2 : T y - xs = e y + A *ᵥ (y - xs) := by simp only [he]; abel
      calc ‖T y - xs‖ = ‖e y + A *ᵥ (y - xs)‖ := by rw [← h2]
        _ ≤ _ := norm_add_le _ _
        _ ≤ _ := by gcongr; exact Matrix.linfty_opNorm_mulVec _ _
    have h3 : max ‖T y - xs‖ ‖y - xs‖ ≤ ‖T y - xs‖ + ‖y - xs‖ :=
      max_le (le_add_of_nonneg_right (norm_nonneg _)) (le_add_of_nonneg_left (norm_nonneg _))
    have hA0 := norm_nonneg A
    have hy0 := norm_nonneg (y - xs)
    nlinarith
  have := hsmall.trans_isBigO hO
  rw [hasFDerivAt_iff_isLittleO]
  refine this.congr_left fun y => ?_
  simp only [he, hfix, mulVecCLM_apply]

/-- Near a fixed point where one is not an eigenvalue of the derivative, the distance to the fixed point is
bounded by a multiple of the distance between a point and its image. -/
theorem residual_bound (T : (ι → ℝ) → ι → ℝ) (A : Matrix ι ι ℝ) (xs : ι → ℝ) (hfix : T xs = xs)
    (hT : HasFDerivAt T (mulVecCLM A) xs) (h1 : ¬ IsEigenvalue A 1) :
    ∃ C > 0, ∃ ε > 0, ∀ x, dist x xs < ε → dist x xs ≤ C * dist (T x) x := by
  have hu : IsUnit (1 - A).det := by
    rw [isUnit_iff_ne_zero]
    intro hd
    obtain ⟨v, hv, hz⟩ := Matrix.exists_mulVec_eq_zero_iff.mpr hd
    apply h1
    rw [Matrix.sub_mulVec, Matrix.one_mulVec, sub_eq_zero] at hz
    refine ⟨fun i => (v i : ℂ), ?_, ?_⟩
    · intro h
      apply hv
      funext i
      have := congrFun h i
      simpa using this
    · funext i
      have := congrFun hz i
      simp only [Matrix.mulVec, dotProduct, Matrix.map_apply, one_smul] at this ⊢
      rw [this]
      push_cast
      rfl
  set B := (1 - A)⁻¹ with hB
  have hBA : B * (1 - A) = 1 := Matrix.nonsing_inv_mul _ hu
  have hη : (0 : ℝ) < 1 / (2 * (‖B‖ + 1)) := by positivity
  have hev := hT.isLittleO.bound hη
  rw [Metric.eventually_nhds_iff] at hev
  obtain ⟨ε, hε, hball⟩ := hev
  refine ⟨2 * (‖B‖ + 1), by positivity, ε, hε, fun x hx => ?_⟩
  have hr := hball hx
  rw [hfix, mulVecCLM_apply] at hr
  have hx1 : x - xs = B *ᵥ ((x - T x) + (T x - xs - A *ᵥ (x - xs))) := by
    have h2 : (x - T x) + (T x - xs - A *ᵥ (x - xs)) = (1 - A) *ᵥ (x - xs) := by
      rw [Matrix.sub_mulVec, Matrix.one_mulVec]; abel
    rw [h2, Matrix.mulVec_mulVec, hBA, Matrix.one_mulVec]
  have hn : ‖x - xs‖ ≤ ‖B‖ * (‖x - T x‖ + 1 / (2 * (‖B‖ + 1)) * ‖x - xs‖) := by
    calc ‖x - xs‖ = ‖B *ᵥ ((x - T x) + (T x - xs - A *ᵥ (x - xs)))‖ := by rw [← hx1]
      _ ≤ _ := Matrix.linfty_opNorm_mulVec _ _
      _ ≤ _ := by gcongr; exact (norm_add_le _ _).trans (by gcongr)
  rw [dist_eq_norm, dist_comm, dist_eq_norm]
  have hB0 := norm_nonneg B
  have hd0 := norm_nonneg (x - T x)
  have hx0 := norm_nonneg (x - xs)
  have h3 : ‖B‖ * (1 / (2 * (‖B‖ + 1)) * ‖x - xs‖) ≤ ‖x - xs‖ / 2 := by
    have : ‖B‖ * (1 / (2 * (‖B‖ + 1))) ≤ 1 / 2 := by
      rw [mul_one_div, div_le_div_iff₀ (by positivity) (by norm_num)]
      linarith
    nlinarith
  nlinarith

end Dolo
