import Mathlib.Analysis.Calculus.ContDiff.Basic
import Mathlib.Analysis.Calculus.ContDiff.RCLike
import Verif.Lemmas.NewtonConv
import Verif.Lemmas.ItiSmooth
import Verif.Model.ItiPass
import Verif.Props.ItiOperator

/-!
# Facts about a pass of improved time iteration

Auxiliary facts for `Verif.Props.ItiConv`.
-/

set_option linter.unusedSectionVars false

namespace Dolo

open Filter Topology

section general
variable {E : Type} [NormedAddCommGroup E] [NormedSpace ℝ E]

/-- The solution of a linear system depends continuously on its data. -/
theorem quotient_continuous (B J L : E → E →L[ℝ] E) (xs : E) (hB : ContinuousAt B xs) (hJ : ContinuousAt J xs)
    (Bi : E →L[ℝ] E) (hBi : ∀ v, Bi (B xs v) = v) (h : ∀ᶠ x in 𝓝 xs, B x * L x = -J x) : ContinuousAt L xs := by
  obtain ⟨c, hc, ε, hε, hlow⟩ := lower_near B xs hB Bi hBi
  have hxs : B xs * L xs = -J xs := h.self_of_nhds
  have h1 : ContinuousAt (fun x => -J x - B x * L xs) xs := hJ.neg.sub (hB.mul continuousAt_const)
  have h2 : Tendsto (fun x => c * ‖-J x - B x * L xs‖) (𝓝 xs) (𝓝 0) := by
    have : ContinuousAt (fun x => c * ‖-J x - B x * L xs‖) xs := continuousAt_const.mul h1.norm
    have h3 := this.tendsto
    simp only [hxs, sub_self, norm_zero, mul_zero] at h3
    exact h3
  unfold ContinuousAt
  rw [tendsto_iff_norm_sub_tendsto_zero]
  refine squeeze_zero' (Eventually.of_forall fun _ => norm_nonneg _) ?_ h2
  have hball : ∀ᶠ x in 𝓝 xs, ‖x - xs‖ < ε := by
    have := Metric.ball_mem_nhds xs hε
    filter_upwards [this] with x hx
    rwa [Metric.mem_ball, dist_eq_norm] at hx
  filter_upwards [h, hball] with x hx hb
  refine ContinuousLinearMap.opNorm_le_bound _ (by positivity) fun w => ?_
  have e : B x ((L x - L xs) w) = (-J x - B x * L xs) w := by
    rw [← hx]
    simp [map_sub]
  have := hlow x hb ((L x - L xs) w)
  rw [e] at this
  refine this.trans ?_
  rw [mul_assoc]
  exact mul_le_mul_of_nonneg_left (ContinuousLinearMap.le_opNorm _ _) hc.le

/-- The loop of improved time iteration, when the directions computed reduce the error near the solution. -/
theorem search_run (G : E → E) (A : E →L[ℝ] E) (xs : E) (h0 : G xs = 0) (hd : HasFDerivAt G A xs)
    (Ai : E →L[ℝ] E) (hAi : ∀ v, Ai (A v) = v) {ι : Type} (tot : ι → E → E) {p : E → ℝ} {cl cu κ ε : ℝ}
    (hp : AdaptedNorm p cl cu) (hκ0 : 0 ≤ κ) (hκ : κ < 1) (hε : 0 < ε)
    (hstep : ∀ i x, ‖x - xs‖ < ε → p (x - xs - tot i x) ≤ κ * p (x - xs)) (b : ℕ) :
    ∃ δ > 0, ∃ C > 0, ∃ ρ, 0 ≤ ρ ∧ ρ < 1 ∧ ∀ x0, dist x0 xs < δ → ∀ i tol, 0 < tol → ∀ n0 : ℕ, C * ρ ^ n0 < tol →
      ∀ maxit, n0 < maxit → ∃ r,
        improvedTimeIteration (fun v => ‖G v‖) (fun v c => v - (1 / 2 : ℝ) ^ c • tot i v) (b + 1) tol maxit x0 = .ok r ∧
        r.converged = true ∧ r.it ≤ n0 ∧ r.err_0 < tol ∧ r.err_0 = ‖G r.x‖ ∧ dist r.x xs ≤ C * r.err_0 := by
  obtain ⟨C, hC, ε1, hε1, heq⟩ := residual_equiv G A xs h0 hd Ai hAi
  set ε' := min ε ε1 with hε'
  have hε'0 : 0 < ε' := lt_min hε hε1
  obtain ⟨ρ, hρ0, hρ1, δ, hδ, hpath⟩ := search_contracts hp (fun x d => ∃ i, d = tot i x) xs hκ0 hκ hε'0
    (fun x d hx hd => by
      obtain ⟨i, rfl⟩ := hd
      exact hstep i x (hx.trans_le (min_le_left _ _))) b
  have hcl := hp.cl_pos
  have hcu := hp.cu_pos
  refine ⟨δ, hδ, C * (cu / cl * δ) + C, by positivity, ρ, hρ0, hρ1, fun x0 hx0 i tol htol n0 hn0 maxit hmax => ?_⟩
  obtain ⟨r, path, n, h1, h2, h3, h4, h5, h6, h7⟩ := C29_improved_time_iteration (fun v => ‖G v‖)
    (fun v c => v - (1 / 2 : ℝ) ^ c • tot i v) b tol maxit (by omega) x0
  rw [dist_eq_norm] at hx0
  have hp0 : ‖path 0 - xs‖ < δ := by rw [h2]; exact hx0
  have hall := hpath path n hp0 (fun t ht => by
    obtain ⟨c, hc, e, -⟩ := (h5 t ht).2
    exact ⟨c, hc, _, ⟨i, rfl⟩, e⟩)
  have hn : n ≤ n0 := by
    by_contra hcon
    have hlt : n0 < n := by omega
    obtain ⟨a1, a2⟩ := hall n0 (by omega)
    have a3 := (h5 n0 hlt).1
    have a4 := (heq _ (a1.trans_le (min_le_right _ _))).2
    have a5 : ‖path n0 - xs‖ ≤ cu / cl * δ * ρ ^ n0 := by
      have : cu * ρ ^ n0 * ‖path 0 - xs‖ ≤ cu * ρ ^ n0 * δ :=
        mul_le_mul_of_nonneg_left hp0.le (mul_nonneg hcu.le (pow_nonneg hρ0 _))
      have e : cu / cl * δ * ρ ^ n0 = (cu * ρ ^ n0 * δ) / cl := by ring
      rw [e, le_div_iff₀ hcl]
      linarith
    have a6 : C * ‖path n0 - xs‖ ≤ C * (cu / cl * δ * ρ ^ n0) := mul_le_mul_of_nonneg_left a5 hC.le
    have a7 : 0 ≤ C * ρ ^ n0 := mul_nonneg hC.le (pow_nonneg hρ0 _)
    have a8 : (C * (cu / cl * δ) + C) * ρ ^ n0 = C * (cu / cl * δ * ρ ^ n0) + C * ρ ^ n0 := by ring
    linarith
  have hconv : r.converged = true := by
    by_contra hcon
    have := (h7 (by simpa using hcon)).1
    omega
  obtain ⟨b1, b2, b3⟩ := h6 hconv
  refine ⟨r, h1, hconv, by omega, by rw [b2]; exact b1, b2, ?_⟩
  have c1 := (hall n le_rfl).1
  rw [h3] at c1
  have c2 := (heq _ (c1.trans_le (min_le_right _ _))).1
  rw [dist_eq_norm, b2]
  refine c2.trans (mul_le_mul_of_nonneg_right ?_ (norm_nonneg _))
  have : 0 ≤ C * (cu / cl * δ) := by positivity
  linarith

end general

section spectral

attribute [local instance] Matrix.linftyOpNormedRing Matrix.linftyOpNormedAlgebra

theorem exists_pow_clm_lt_one {ι : Type} [Fintype ι] [DecidableEq ι] [Nonempty ι] (A : Matrix ι ι ℝ)
    (h : ∀ z, IsEigenvalue A z → ‖z‖ < 1) : ∃ k, 1 ≤ k ∧ ‖mulVecCLM A ^ k‖ < 1 := by
  obtain ⟨k, hk, hpow⟩ := exists_pow_norm_lt_one A h
  refine ⟨k, hk, lt_of_le_of_lt ?_ hpow⟩
  rw [mulVecCLM_pow]
  exact ContinuousLinearMap.opNorm_le_bound _ (norm_nonneg _) fun w => Matrix.linfty_opNorm_mulVec _ _

end spectral

end Dolo
