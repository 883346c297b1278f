import Mathlib.Analysis.Calculus.FDeriv.Basic
import Mathlib.Analysis.Calculus.FDeriv.Add
import Mathlib.Analysis.Calculus.FDeriv.Linear
import Mathlib.Analysis.Normed.Operator.NormedSpace
import Mathlib.Algebra.Order.Ring.GeomSum
import Mathlib.Tactic.Linarith
import Mathlib.Tactic.Positivity
import Mathlib.Tactic.Module

/-!
# Local convergence of (damped, inexact) Newton iterations

Auxiliary facts for `Verif.Props.ItiConv`.
-/

namespace Dolo

open Filter Topology

variable {E : Type} [NormedAddCommGroup E] [NormedSpace ℝ E]

/-- A norm equivalent to the given one. -/
structure AdaptedNorm (p : E → ℝ) (cl cu : ℝ) : Prop where
  cl_pos : 0 < cl
  cu_pos : 0 < cu
  add : ∀ x y, p (x + y) ≤ p x + p y
  smul : ∀ (c : ℝ) x, p (c • x) = |c| * p x
  lower : ∀ x, cl * ‖x‖ ≤ p x
  upper : ∀ x, p x ≤ cu * ‖x‖

theorem AdaptedNorm.nonneg {p : E → ℝ} {cl cu : ℝ} (h : AdaptedNorm p cl cu) (x : E) : 0 ≤ p x :=
  (mul_nonneg h.cl_pos.le (norm_nonneg x)).trans (h.lower x)

theorem AdaptedNorm.sub {p : E → ℝ} {cl cu : ℝ} (h : AdaptedNorm p cl cu) (x y : E) : p (x - y) ≤ p x + p y := by
  have := h.add x ((-1 : ℝ) • y)
  rw [h.smul] at this
  simpa [sub_eq_add_neg] using this

theorem AdaptedNorm.sum {p : E → ℝ} {cl cu : ℝ} (h : AdaptedNorm p cl cu) (f : ℕ → E) (n : ℕ) :
    p (∑ t ∈ Finset.range n, f t) ≤ ∑ t ∈ Finset.range n, p (f t) := by
  induction n with
  | zero =>
    have := h.upper 0
    simpa using this
  | succ n ih =>
    rw [Finset.sum_range_succ, Finset.sum_range_succ]
    exact (h.add _ _).trans (by linarith)

theorem adapted_self : AdaptedNorm (fun x : E => ‖x‖) 1 1 :=
  ⟨one_pos, one_pos, norm_add_le, fun c x => norm_smul c x, fun x => by simp, fun x => by simp⟩

/-- If a power of `A` shrinks vectors, `A` shrinks them in an adapted norm. -/
theorem exists_adapted (A : E →L[ℝ] E) {k : ℕ} (hk : 1 ≤ k) (hA : ‖A ^ k‖ < 1) :
    ∃ (p : E → ℝ) (cl cu q : ℝ), AdaptedNorm p cl cu ∧ 0 < q ∧ q < 1 ∧ ∀ v, p (A v) ≤ q * p v := by
  obtain ⟨q, hq0, hq1, hq⟩ : ∃ q : ℝ, 0 < q ∧ q < 1 ∧ ‖A ^ k‖ ≤ q ^ k := by
    have hc : Tendsto (fun q : ℝ => q ^ k) (𝓝[<] 1) (𝓝 (1 ^ k)) :=
      ((continuous_pow k).tendsto 1).mono_left nhdsWithin_le_nhds
    rw [one_pow] at hc
    have h1 := hc.eventually (lt_mem_nhds hA)
    have h2 : ∀ᶠ q : ℝ in 𝓝[<] 1, 0 < q := nhdsWithin_le_nhds (lt_mem_nhds one_pos)
    have h3 : ∀ᶠ q : ℝ in 𝓝[<] 1, q < 1 := self_mem_nhdsWithin
    obtain ⟨q, a, b, c⟩ := (h1.and (h2.and h3)).exists
    exact ⟨q, b, c, a.le⟩
  refine ⟨fun x => ∑ i ∈ Finset.range k, (q⁻¹) ^ i * ‖(A ^ i) x‖, 1,
    ∑ i ∈ Finset.range k, (q⁻¹) ^ i * ‖A ^ i‖ + 1, q, ⟨one_pos, ?_, ?_, ?_, ?_, ?_⟩, hq0, hq1, ?_⟩
  · have : 0 ≤ ∑ i ∈ Finset.range k, (q⁻¹) ^ i * ‖A ^ i‖ := Finset.sum_nonneg fun i _ => by positivity
    linarith
  · intro x y
    rw [← Finset.sum_add_distrib]
    refine Finset.sum_le_sum fun i _ => ?_
    rw [map_add, ← mul_add]
    exact mul_le_mul_of_nonneg_left (norm_add_le _ _) (by positivity)
  · intro c x
    rw [Finset.mul_sum]
    refine Finset.sum_congr rfl fun i _ => ?_
    rw [map_smul, norm_smul, Real.norm_eq_abs]
    ring
  · intro x
    rw [one_mul]
    have h0 : 0 ∈ Finset.range k := Finset.mem_range.2 (by omega)
    have := Finset.single_le_sum (f := fun i => (q⁻¹) ^ i * ‖(A ^ i) x‖) (fun i _ => by positivity) h0
    simpa using this
  · intro x
    have : ∑ i ∈ Finset.range k, (q⁻¹) ^ i * ‖(A ^ i) x‖ ≤ (∑ i ∈ Finset.range k, (q⁻¹) ^ i * ‖A ^ i‖) * ‖x‖ := by
      rw [Finset.sum_mul]
      refine Finset.sum_le_sum fun i _ => ?_
      rw [mul_assoc]
      exact mul_le_mul_of_nonneg_left ((A ^ i).le_opNorm x) (by positivity)
    nlinarith [norm_nonneg x]
  · intro v
    have h1 : ∀ i, (q⁻¹) ^ i * ‖(A ^ i) (A v)‖ = q * ((q⁻¹) ^ (i + 1) * ‖(A ^ (i + 1)) v‖) := by
      intro i
      rw [pow_succ A i]
      change _ = q * ((q⁻¹) ^ (i + 1) * ‖(A ^ i) (A v)‖)
      rw [pow_succ]
      field_simp
    simp only [h1]
    rw [← Finset.mul_sum]
    refine mul_le_mul_of_nonneg_left ?_ hq0.le
    have h2 := Finset.sum_range_succ' (fun i => (q⁻¹) ^ i * ‖(A ^ i) v‖) k
    rw [Finset.sum_range_succ] at h2
    have h3 : (q⁻¹) ^ k * ‖(A ^ k) v‖ ≤ ‖v‖ := by
      have h4 : ‖(A ^ k) v‖ ≤ q ^ k * ‖v‖ :=
        ((A ^ k).le_opNorm v).trans (mul_le_mul_of_nonneg_right hq (norm_nonneg v))
      calc (q⁻¹) ^ k * ‖(A ^ k) v‖ ≤ (q⁻¹) ^ k * (q ^ k * ‖v‖) :=
            mul_le_mul_of_nonneg_left h4 (by positivity)
        _ = ‖v‖ := by
          rw [← mul_assoc, ← mul_pow, inv_mul_cancel₀ hq0.ne', one_pow, one_mul]
    simp only [pow_zero, one_mul] at h2
    have h5 : ‖(1 : E →L[ℝ] E) v‖ = ‖v‖ := rfl
    rw [h5] at h2
    linarith

/-- The linearisation at the current point: `G x` is the derivative there applied to the error, up to a small term. -/
theorem lin_error (G : E → E) (A : E → E →L[ℝ] E) (xs : E) (h0 : G xs = 0) (hd : HasFDerivAt G (A xs) xs)
    (hc : ContinuousAt A xs) {η : ℝ} (hη : 0 < η) :
    ∃ ε > 0, ∀ x, ‖x - xs‖ < ε → ‖G x - A x (x - xs)‖ ≤ η * ‖x - xs‖ := by
  have h1 := hd.isLittleO.bound (half_pos hη)
  have h2 : ∀ᶠ x in 𝓝 xs, ‖A x - A xs‖ < η / 2 := by
    have := Metric.tendsto_nhds.1 hc (η / 2) (half_pos hη)
    simpa [dist_eq_norm] using this
  obtain ⟨ε, hε, hball⟩ := Metric.eventually_nhds_iff.1 (h1.and h2)
  refine ⟨ε, hε, fun x hx => ?_⟩
  obtain ⟨a, b⟩ := hball (y := x) (by rwa [dist_eq_norm])
  rw [h0, sub_zero] at a
  have e : G x - A x (x - xs) = (G x - A xs (x - xs)) - (A x - A xs) (x - xs) := by
    simp only [_root_.sub_apply]
    abel
  rw [e]
  have c : ‖(A x - A xs) (x - xs)‖ ≤ η / 2 * ‖x - xs‖ :=
    ((A x - A xs).le_opNorm _).trans (mul_le_mul_of_nonneg_right b.le (norm_nonneg _))
  calc _ ≤ _ := norm_sub_le _ _
    _ ≤ η / 2 * ‖x - xs‖ + η / 2 * ‖x - xs‖ := add_le_add a c
    _ = η * ‖x - xs‖ := by ring

/-- Operators near an invertible one bound vectors by their images. -/
theorem lower_near (B : E → E →L[ℝ] E) (xs : E) (hc : ContinuousAt B xs) (Bi : E →L[ℝ] E)
    (hBi : ∀ v, Bi (B xs v) = v) :
    ∃ c > 0, ∃ ε > 0, ∀ x, ‖x - xs‖ < ε → ∀ v, ‖v‖ ≤ c * ‖B x v‖ := by
  have hpos : 0 < 1 / (2 * (‖Bi‖ + 1)) := by positivity
  have h2 : ∀ᶠ x in 𝓝 xs, ‖B x - B xs‖ < 1 / (2 * (‖Bi‖ + 1)) := by
    have := Metric.tendsto_nhds.1 hc _ hpos
    simpa [dist_eq_norm] using this
  obtain ⟨ε, hε, hball⟩ := Metric.eventually_nhds_iff.1 h2
  refine ⟨2 * (‖Bi‖ + 1), by positivity, ε, hε, fun x hx v => ?_⟩
  have hb := hball (y := x) (by rwa [dist_eq_norm])
  have e : v = Bi (B x v) - Bi ((B x - B xs) v) := by
    rw [← map_sub]
    simp only [_root_.sub_apply, sub_sub_cancel, hBi]
  have h3 : ‖Bi ((B x - B xs) v)‖ ≤ 1 / 2 * ‖v‖ := by
    have a := Bi.le_opNorm ((B x - B xs) v)
    have b := (B x - B xs).le_opNorm v
    have hb' : ‖Bi‖ * ‖B x - B xs‖ ≤ 1 / 2 := by
      have : ‖B x - B xs‖ * (2 * (‖Bi‖ + 1)) < 1 := by
        rw [lt_div_iff₀ (by positivity)] at hb
        exact hb
      nlinarith [norm_nonneg Bi, norm_nonneg (B x - B xs)]
    calc _ ≤ _ := a
      _ ≤ ‖Bi‖ * (‖B x - B xs‖ * ‖v‖) := mul_le_mul_of_nonneg_left b (norm_nonneg _)
      _ = (‖Bi‖ * ‖B x - B xs‖) * ‖v‖ := by ring
      _ ≤ 1 / 2 * ‖v‖ := mul_le_mul_of_nonneg_right hb' (norm_nonneg _)
  have h4 : ‖Bi (B x v)‖ ≤ (‖Bi‖ + 1) * ‖B x v‖ :=
    (Bi.le_opNorm _).trans (mul_le_mul_of_nonneg_right (by linarith) (norm_nonneg _))
  have h5 : ‖v‖ ≤ ‖Bi (B x v)‖ + ‖Bi ((B x - B xs) v)‖ := by
    conv_lhs => rw [e]
    exact norm_sub_le _ _
  linarith

/-- The error after a Newton step, whose linear system is solved up to a small term, is small compared with the error
before. -/
theorem newton_inexact (G : E → E) (A : E → E →L[ℝ] E) (xs : E) (h0 : G xs = 0) (hd : HasFDerivAt G (A xs) xs)
    (hc : ContinuousAt A xs) (Ai : E →L[ℝ] E) (hAi : ∀ v, Ai (A xs v) = v) {κ : ℝ} (hκ : 0 < κ) :
    ∃ η > 0, ∃ ε > 0, ∀ x tot, ‖x - xs‖ < ε → ‖A x tot - G x‖ ≤ η * ‖x - xs‖ → ‖x - xs - tot‖ ≤ κ * ‖x - xs‖ := by
  obtain ⟨c, hc0, ε1, hε1, h1⟩ := lower_near A xs hc Ai hAi
  have hη : 0 < κ / (2 * c) := by positivity
  obtain ⟨ε2, hε2, h2⟩ := lin_error G A xs h0 hd hc hη
  refine ⟨κ / (2 * c), hη, min ε1 ε2, lt_min hε1 hε2, fun x tot hx ht => ?_⟩
  have a := h1 x (hx.trans_le (min_le_left _ _)) (x - xs - tot)
  have b := h2 x (hx.trans_le (min_le_right _ _))
  have e : A x (x - xs - tot) = -(A x tot - G x) - (G x - A x (x - xs)) := by
    rw [map_sub]
    abel
  have h3 : ‖A x (x - xs - tot)‖ ≤ κ / (2 * c) * ‖x - xs‖ + κ / (2 * c) * ‖x - xs‖ := by
    rw [e]
    refine (norm_sub_le _ _).trans ?_
    rw [norm_neg]
    exact add_le_add ht b
  calc _ ≤ _ := a
    _ ≤ c * (κ / (2 * c) * ‖x - xs‖ + κ / (2 * c) * ‖x - xs‖) := mul_le_mul_of_nonneg_left h3 hc0.le
    _ = κ * ‖x - xs‖ := by field_simp; ring

/-- The error after a step computed by partial sums of the Neumann series. -/
theorem newton_neumann (G : E → E) (B L : E → E →L[ℝ] E) (xs : E) (h0 : G xs = 0)
    (hd : HasFDerivAt G (B xs * (1 - L xs)) xs) (hB : ContinuousAt B xs) (hL : ContinuousAt L xs)
    (Bi : E →L[ℝ] E) (hBi : ∀ v, Bi (B xs v) = v) {p : E → ℝ} {cl cu q : ℝ} (hp : AdaptedNorm p cl cu)
    (hq0 : 0 < q) (hq1 : q < 1) (hq : ∀ v, p (L xs v) ≤ q * p v) :
    ∃ κ, 0 ≤ κ ∧ κ < 1 ∧ ∃ ε > 0, ∀ x d m, ‖x - xs‖ < ε → B x d = G x →
      p (x - xs - ∑ t ∈ Finset.range (m + 1), (L x ^ t) d) ≤ κ * p (x - xs) := by
  obtain ⟨q', hqq, hq'1⟩ := exists_between hq1
  have hq'0 : 0 < q' := hq0.trans hqq
  -- the operator still shrinks near the solution
  obtain ⟨ε1, hε1, hshr⟩ : ∃ ε > 0, ∀ x, ‖x - xs‖ < ε → ∀ v, p (L x v) ≤ q' * p v := by
    have hpos : 0 < (q' - q) * cl / cu := div_pos (mul_pos (sub_pos.2 hqq) hp.cl_pos) hp.cu_pos
    have h2 : ∀ᶠ x in 𝓝 xs, ‖L x - L xs‖ < (q' - q) * cl / cu := by
      have := Metric.tendsto_nhds.1 hL _ hpos
      simpa [dist_eq_norm] using this
    obtain ⟨ε, hε, hball⟩ := Metric.eventually_nhds_iff.1 h2
    refine ⟨ε, hε, fun x hx v => ?_⟩
    have hb := hball (y := x) (by rwa [dist_eq_norm])
    have e : L x v = L xs v + (L x - L xs) v := by simp
    rw [e]
    refine (hp.add _ _).trans ?_
    have h3 : p ((L x - L xs) v) ≤ (q' - q) * p v := by
      calc p ((L x - L xs) v) ≤ cu * ‖(L x - L xs) v‖ := hp.upper _
        _ ≤ cu * ((q' - q) * cl / cu * ‖v‖) := by
          refine mul_le_mul_of_nonneg_left ?_ hp.cu_pos.le
          exact ((L x - L xs).le_opNorm v).trans (mul_le_mul_of_nonneg_right hb.le (norm_nonneg _))
        _ = (q' - q) * (cl * ‖v‖) := by
          have := hp.cu_pos.ne'
          field_simp
        _ ≤ (q' - q) * p v := mul_le_mul_of_nonneg_left (hp.lower v) (by linarith)
    have := hq v
    nlinarith
  obtain ⟨c, hc0, ε2, hε2, hlow⟩ := lower_near B xs hB Bi hBi
  set η := (1 - q') * (1 - q') / 2 * cl / (cu * c) with hη
  have hη0 : 0 < η := by
    have := hp.cl_pos
    have := hp.cu_pos
    have : 0 < 1 - q' := by linarith
    positivity
  obtain ⟨ε3, hε3, hlin⟩ := lin_error G (fun x => B x * (1 - L x)) xs h0 hd
    (hB.mul (continuousAt_const.sub hL)) hη0
  refine ⟨(1 + q') / 2, by linarith, by linarith, min ε1 (min ε2 ε3), lt_min hε1 (lt_min hε2 hε3),
    fun x d m hx hBd => ?_⟩
  have hs := hshr x (hx.trans_le (min_le_left _ _))
  have hl := hlow x (hx.trans_le ((min_le_right _ _).trans (min_le_left _ _)))
  have hn := hlin x (hx.trans_le ((min_le_right _ _).trans (min_le_right _ _)))
  set e := x - xs with he
  set r := d - (1 - L x) e with hr
  have hr1 : ‖r‖ ≤ c * (η * ‖e‖) := by
    refine (hl r).trans (mul_le_mul_of_nonneg_left ?_ hc0.le)
    rw [hr, map_sub, hBd]
    exact hn
  have hpow : ∀ t v, p ((L x ^ t) v) ≤ q' ^ t * p v := by
    intro t
    induction t with
    | zero => intro v; simp
    | succ t ih =>
      intro v
      have h1 : (L x ^ (t + 1)) v = L x ((L x ^ t) v) := by rw [pow_succ']; rfl
      rw [h1]
      refine (hs _).trans ?_
      have := mul_le_mul_of_nonneg_left (ih v) hq'0.le
      rw [pow_succ']
      linarith
  have hsum : ∑ t ∈ Finset.range (m + 1), (L x ^ t) d
      = e - (L x ^ (m + 1)) e + ∑ t ∈ Finset.range (m + 1), (L x ^ t) r := by
    have h1 : d = (1 - L x) e + r := by rw [hr]; abel
    have h2 : ∑ t ∈ Finset.range (m + 1), (L x ^ t) ((1 - L x) e) = e - (L x ^ (m + 1)) e := by
      have h3 := geom_sum_mul_neg (L x) (m + 1)
      have h4 := congrArg (fun T : E →L[ℝ] E => T e) h3
      simp only [mul_apply_eq_comp, _root_.sum_apply] at h4
      rw [h4]
      rfl
    conv_lhs => rw [h1]
    simp only [map_add]
    rw [Finset.sum_add_distrib, h2]
  have hgeo : ∑ t ∈ Finset.range (m + 1), q' ^ t ≤ 1 / (1 - q') := by
    rw [le_div_iff₀ (by linarith), geom_sum_mul_neg]
    have := pow_nonneg hq'0.le (m + 1)
    linarith
  have h5 : p (∑ t ∈ Finset.range (m + 1), (L x ^ t) r) ≤ (1 - q') / 2 * p e := by
    calc p (∑ t ∈ Finset.range (m + 1), (L x ^ t) r) ≤ ∑ t ∈ Finset.range (m + 1), p ((L x ^ t) r) := hp.sum _ _
      _ ≤ ∑ t ∈ Finset.range (m + 1), q' ^ t * p r := Finset.sum_le_sum fun t _ => hpow t r
      _ = (∑ t ∈ Finset.range (m + 1), q' ^ t) * p r := by rw [Finset.sum_mul]
      _ ≤ 1 / (1 - q') * p r := mul_le_mul_of_nonneg_right hgeo (hp.nonneg r)
      _ ≤ 1 / (1 - q') * (cu * (c * (η * ‖e‖))) := by
        refine mul_le_mul_of_nonneg_left ((hp.upper r).trans (mul_le_mul_of_nonneg_left hr1 hp.cu_pos.le)) ?_
        have : 0 < 1 - q' := by linarith
        positivity
      _ = (1 - q') / 2 * (cl * ‖e‖) := by
        have h6 := hp.cu_pos.ne'
        have h7 : (1 - q') ≠ 0 := by linarith
        rw [hη]
        field_simp
      _ ≤ (1 - q') / 2 * p e := mul_le_mul_of_nonneg_left (hp.lower e) (by linarith)
  have h6 : p ((L x ^ (m + 1)) e) ≤ q' * p e := by
    refine (hpow _ _).trans (mul_le_mul_of_nonneg_right ?_ (hp.nonneg e))
    calc q' ^ (m + 1) ≤ q' ^ 1 := pow_le_pow_of_le_one hq'0.le hq'1.le (by omega)
      _ = q' := pow_one _
  rw [hsum]
  have h7 : e - (e - (L x ^ (m + 1)) e + ∑ t ∈ Finset.range (m + 1), (L x ^ t) r)
      = (L x ^ (m + 1)) e - ∑ t ∈ Finset.range (m + 1), (L x ^ t) r := by abel
  rw [h7]
  have := hp.sub ((L x ^ (m + 1)) e) (∑ t ∈ Finset.range (m + 1), (L x ^ t) r)
  linarith

/-- Near a regular solution the size of the residual and the error are comparable. -/
theorem residual_equiv (G : E → E) (A : E →L[ℝ] E) (xs : E) (h0 : G xs = 0) (hd : HasFDerivAt G A xs)
    (Ai : E →L[ℝ] E) (hAi : ∀ v, Ai (A v) = v) :
    ∃ C > 0, ∃ ε > 0, ∀ x, ‖x - xs‖ < ε → ‖x - xs‖ ≤ C * ‖G x‖ ∧ ‖G x‖ ≤ C * ‖x - xs‖ := by
  obtain ⟨c, hc0, ε1, hε1, h1⟩ := lower_near (fun _ => A) xs continuousAt_const Ai hAi
  obtain ⟨ε2, hε2, h2⟩ := lin_error G (fun _ => A) xs h0 hd continuousAt_const
    (η := 1 / (2 * c)) (by positivity)
  refine ⟨2 * c + ‖A‖ + 1 / (2 * c), by positivity, min ε1 ε2, lt_min hε1 hε2, fun x hx => ?_⟩
  have a := h1 x (hx.trans_le (min_le_left _ _)) (x - xs)
  have b := h2 x (hx.trans_le (min_le_right _ _))
  have hA := A.le_opNorm (x - xs)
  have t1 : ‖A (x - xs)‖ ≤ ‖G x‖ + ‖G x - A (x - xs)‖ := by
    have := norm_sub_le (G x) (G x - A (x - xs))
    simpa using this
  have t2 : ‖G x‖ ≤ ‖A (x - xs)‖ + ‖G x - A (x - xs)‖ := by
    have := norm_add_le (A (x - xs)) (G x - A (x - xs))
    simpa using this
  have hG := norm_nonneg (G x)
  have hx0 := norm_nonneg (x - xs)
  have hA0 := norm_nonneg A
  have hinv : 0 < 1 / (2 * c) := by positivity
  constructor
  · have h3 : c * (1 / (2 * c) * ‖x - xs‖) = ‖x - xs‖ / 2 := by field_simp
    have h4 : ‖x - xs‖ ≤ 2 * c * ‖G x‖ := by nlinarith
    nlinarith [mul_nonneg hA0 hG, mul_nonneg hinv.le hG]
  · nlinarith [mul_nonneg hc0.le hx0]

/-- Steps of a line search with at most `b` halvings along directions that reduce the error. -/
theorem search_contracts {p : E → ℝ} {cl cu : ℝ} (hp : AdaptedNorm p cl cu) (Dir : E → E → Prop) (xs : E) {κ ε : ℝ}
    (hκ0 : 0 ≤ κ) (hκ : κ < 1) (hε : 0 < ε)
    (hstep : ∀ x d, ‖x - xs‖ < ε → Dir x d → p (x - xs - d) ≤ κ * p (x - xs)) (b : ℕ) :
    ∃ ρ, 0 ≤ ρ ∧ ρ < 1 ∧ ∃ δ > 0, ∀ (path : ℕ → E) (n : ℕ), ‖path 0 - xs‖ < δ →
      (∀ t < n, ∃ c ≤ b, ∃ d, Dir (path t) d ∧ path (t + 1) = path t - (1 / 2 : ℝ) ^ c • d) →
      ∀ t ≤ n, ‖path t - xs‖ < ε ∧ cl * ‖path t - xs‖ ≤ cu * ρ ^ t * ‖path 0 - xs‖ := by
  set ρ := 1 - (1 / 2 : ℝ) ^ b * (1 - κ) with hρ
  have hb0 : (0 : ℝ) < (1 / 2) ^ b := by positivity
  have hb1 : ((1 : ℝ) / 2) ^ b ≤ 1 := pow_le_one₀ (by norm_num) (by norm_num)
  have hρ0 : 0 ≤ ρ := by rw [hρ]; nlinarith
  have hρ1 : ρ < 1 := by rw [hρ]; nlinarith
  refine ⟨ρ, hρ0, hρ1, cl * ε / cu, div_pos (mul_pos hp.cl_pos hε) hp.cu_pos, fun path n h0 hs => ?_⟩
  have hcl := hp.cl_pos
  have hcu := hp.cu_pos
  have h0' : p (path 0 - xs) < cl * ε := by
    refine (hp.upper _).trans_lt ?_
    rw [lt_div_iff₀ hcu] at h0
    linarith
  have key : ∀ t ≤ n, p (path t - xs) ≤ ρ ^ t * p (path 0 - xs) := by
    intro t
    induction t with
    | zero => intro _; simp
    | succ t ih =>
      intro ht
      have h1 := ih (by omega)
      have hlt : p (path t - xs) < cl * ε := by
        refine h1.trans_lt (lt_of_le_of_lt ?_ h0')
        exact mul_le_of_le_one_left (hp.nonneg _) (pow_le_one₀ hρ0 hρ1.le)
      have hε' : ‖path t - xs‖ < ε := by
        have := hp.lower (path t - xs)
        exact lt_of_mul_lt_mul_left (this.trans_lt hlt) hcl.le
      obtain ⟨c, hc, d, hdir, e⟩ := hs t (by omega)
      set σ := (1 / 2 : ℝ) ^ c with hσ
      have hσ0 : 0 < σ := by positivity
      have hσ1 : σ ≤ 1 := pow_le_one₀ (by norm_num) (by norm_num)
      have hσb : (1 / 2 : ℝ) ^ b ≤ σ := pow_le_pow_of_le_one (by norm_num) (by norm_num) hc
      have e2 : path (t + 1) - xs = (1 - σ) • (path t - xs) + σ • (path t - xs - d) := by
        rw [e]
        module
      have h2 := hstep _ d hε' hdir
      have h3 : p (path (t + 1) - xs) ≤ (1 - σ) * p (path t - xs) + σ * p (path t - xs - d) := by
        rw [e2]
        refine (hp.add _ _).trans ?_
        rw [hp.smul, hp.smul, abs_of_nonneg (by linarith : (0 : ℝ) ≤ 1 - σ), abs_of_pos hσ0]
      have hp0 := hp.nonneg (path t - xs)
      have h4 : p (path (t + 1) - xs) ≤ ρ * p (path t - xs) := by
        have h5 : σ * p (path t - xs - d) ≤ σ * (κ * p (path t - xs)) :=
          mul_le_mul_of_nonneg_left h2 hσ0.le
        have h6 : (1 / 2 : ℝ) ^ b * ((1 - κ) * p (path t - xs)) ≤ σ * ((1 - κ) * p (path t - xs)) :=
          mul_le_mul_of_nonneg_right hσb (mul_nonneg (by linarith) hp0)
        rw [hρ]
        linarith
      refine h4.trans ?_
      rw [pow_succ']
      have := mul_le_mul_of_nonneg_left h1 hρ0
      linarith
  intro t ht
  have h1 := key t ht
  have h2 := hp.lower (path t - xs)
  have hlt : p (path t - xs) < cl * ε := by
    refine h1.trans_lt (lt_of_le_of_lt ?_ h0')
    exact mul_le_of_le_one_left (hp.nonneg _) (pow_le_one₀ hρ0 hρ1.le)
  refine ⟨lt_of_mul_lt_mul_left (h2.trans_lt hlt) hcl.le, ?_⟩
  have h3 := mul_le_mul_of_nonneg_left (hp.upper (path 0 - xs)) (pow_nonneg hρ0 t)
  linarith

end Dolo
