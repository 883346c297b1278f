import Mathlib.Analysis.SpecialFunctions.Sqrt
import Mathlib.Analysis.Calculus.FDeriv.Mul
import Mathlib.Analysis.Calculus.FDeriv.Pow
import Mathlib.Tactic.Positivity
import Verif.Model.NewtonSerial

/-!
# The smoothing of `ncpsolve` near a solution with strict complementarity
-/

set_option linter.unusedSectionVars false

namespace Dolo

open Filter Topology

/-- A solution of the complementarity problem `lb ≤ x ≤ ub ⟂ f` that is strictly complementary: the residual is zero
strictly between the bounds, positive at the lower bound and negative at the upper one. -/
def StrictMCP (lb ub : Option ℝ) (x f : ℝ) : Prop :=
  (f = 0 ∧ (∀ l ∈ lb, l < x) ∧ ∀ u ∈ ub, x < u) ∨ (0 < f ∧ lb = some x ∧ ∀ u ∈ ub, x < u) ∨
    (f < 0 ∧ ub = some x ∧ ∀ l ∈ lb, l < x)

section

variable {Z : Type} [NormedAddCommGroup Z] [NormedSpace ℝ Z]

private theorem sq_pos2 {a d : ℝ} (h : a ≠ 0 ∨ d ≠ 0) : 0 < a ^ 2 + d ^ 2 := by
  rcases h with h | h <;> positivity

private theorem norm_fderiv {a d : Z → ℝ} {a' d' : Z →L[ℝ] ℝ} {z : Z} (ha : HasFDerivAt a a' z)
    (hd : HasFDerivAt d d' z) (h : a z ≠ 0 ∨ d z ≠ 0) :
    HasFDerivAt (fun z => √(a z ^ 2 + d z ^ 2))
      ((a z / √(a z ^ 2 + d z ^ 2)) • a' + (d z / √(a z ^ 2 + d z ^ 2)) • d') z := by
  have hpos := sq_pos2 h
  have hs := Real.sqrt_pos.2 hpos
  have h1 := ((ha.pow 2).add (hd.pow 2)).sqrt hpos.ne'
  refine h1.congr_fderiv ?_
  ext v
  simp
  field_simp

/-- No kink at the lower bound. -/
def NoKinkLow (lb : Option ℝ) (x fx : ℝ) : Prop := ∀ l ∈ lb, fx ≠ 0 ∨ l - x ≠ 0

theorem ncpPval_fderiv {fx x : Z → ℝ} {fx' x' : Z →L[ℝ] ℝ} {z : Z} (hf : HasFDerivAt fx fx' z)
    (hx : HasFDerivAt x x' z) (a : Option ℝ) (h : NoKinkLow (ncpLower a) (x z) (fx z)) :
    HasFDerivAt (fun z => ncpPval (x z) (fx z) a)
      ((ncpDp (x z) (fx z) a).1 • fx' - (ncpDp (x z) (fx z) a).2 • x') z := by
  unfold ncpPval ncpDp
  cases hl : ncpLower a with
  | none => simpa using hf
  | some l =>
    have h1 := norm_fderiv hf (hx.const_sub l) (h l hl)
    refine ((hf.add h1).add (hx.const_sub l)).congr_fderiv ?_
    ext v
    simp
    ring

theorem ncpFxnew_fderiv {pv x : Z → ℝ} {pv' x' : Z →L[ℝ] ℝ} {z : Z} (hp : HasFDerivAt pv pv' z)
    (hx : HasFDerivAt x x' z) (b : Option ℝ) (h : NoKinkLow (ncpUpper b) (x z) (pv z)) :
    HasFDerivAt (fun z => ncpFxnew (x z) (pv z) b)
      ((ncpDm (x z) (pv z) b).1 • pv' - (ncpDm (x z) (pv z) b).2 • x') z := by
  unfold ncpFxnew ncpDm
  cases hl : ncpUpper b with
  | none => simpa using hp
  | some u =>
    have h1 := norm_fderiv hp (hx.const_sub u) (h u hl)
    refine ((hp.sub h1).add (hx.const_sub u)).congr_fderiv ?_
    ext v
    simp
    ring

private theorem div_norm_continuousAt {W : Type} [TopologicalSpace W] {c a d : W → ℝ} {w : W}
    (hc : ContinuousAt c w) (ha : ContinuousAt a w) (hd : ContinuousAt d w) (h : a w ≠ 0 ∨ d w ≠ 0) :
    ContinuousAt (fun w => c w / √(a w ^ 2 + d w ^ 2)) w :=
  hc.div (((ha.pow 2).add (hd.pow 2)).sqrt) (Real.sqrt_pos.2 (sq_pos2 h)).ne'

theorem ncpDp_continuousAt {W : Type} [TopologicalSpace W] {fx x : W → ℝ} {w : W} (hf : ContinuousAt fx w)
    (hx : ContinuousAt x w) (a : Option ℝ) (h : NoKinkLow (ncpLower a) (x w) (fx w)) :
    ContinuousAt (fun w => (ncpDp (x w) (fx w) a).1) w ∧ ContinuousAt (fun w => (ncpDp (x w) (fx w) a).2) w := by
  unfold ncpDp
  cases hl : ncpLower a with
  | none => exact ⟨continuousAt_const, continuousAt_const⟩
  | some l =>
    have hd : ContinuousAt (fun w => l - x w) w := continuousAt_const.sub hx
    exact ⟨continuousAt_const.add (div_norm_continuousAt hf hf hd (h l hl)),
      continuousAt_const.add (div_norm_continuousAt hd hf hd (h l hl))⟩

theorem ncpDm_continuousAt {W : Type} [TopologicalSpace W] {pv x : W → ℝ} {w : W} (hf : ContinuousAt pv w)
    (hx : ContinuousAt x w) (b : Option ℝ) (h : NoKinkLow (ncpUpper b) (x w) (pv w)) :
    ContinuousAt (fun w => (ncpDm (x w) (pv w) b).1) w ∧ ContinuousAt (fun w => (ncpDm (x w) (pv w) b).2) w := by
  unfold ncpDm
  cases hl : ncpUpper b with
  | none => exact ⟨continuousAt_const, continuousAt_const⟩
  | some u =>
    have hd : ContinuousAt (fun w => u - x w) w := continuousAt_const.sub hx
    exact ⟨continuousAt_const.sub (div_norm_continuousAt hf hf hd (h u hl)),
      continuousAt_const.sub (div_norm_continuousAt hd hf hd (h u hl))⟩

theorem ncpPval_continuousAt {W : Type} [TopologicalSpace W] {fx x : W → ℝ} {w : W} (hf : ContinuousAt fx w)
    (hx : ContinuousAt x w) (a : Option ℝ) : ContinuousAt (fun w => ncpPval (x w) (fx w) a) w := by
  unfold ncpPval
  cases hl : ncpLower a with
  | none => exact hf
  | some l =>
    have hd : ContinuousAt (fun w => l - x w) w := continuousAt_const.sub hx
    exact (hf.add (((hf.pow 2).add (hd.pow 2)).sqrt)).add hd

/-- The factor of the Jacobian, `ff` in the code. -/
noncomputable def ncpFf (a b : Option ℝ) (x r : ℝ) : ℝ :=
  (ncpDm x (ncpPval x (-r) a) b).1 * (ncpDp x (-r) a).1

/-- The diagonal term, `xx` in the code. -/
noncomputable def ncpXx (a b : Option ℝ) (x r : ℝ) : ℝ :=
  (ncpDm x (ncpPval x (-r) a) b).1 * (ncpDp x (-r) a).2 + (ncpDm x (ncpPval x (-r) a) b).2

private theorem abs_div_self_neg {d : ℝ} (h : d < 0) : d / √(0 ^ 2 + d ^ 2) = -1 := by
  have : √((0 : ℝ) ^ 2 + d ^ 2) = -d := by
    rw [show (0 : ℝ) ^ 2 + d ^ 2 = (-d) ^ 2 by ring, Real.sqrt_sq (by linarith)]
  rw [this, div_neg, div_self h.ne]

private theorem sqrt_zero_right (f : ℝ) : √(f ^ 2 + 0 ^ 2) = |f| := by
  rw [show f ^ 2 + 0 ^ 2 = f ^ 2 by ring, Real.sqrt_sq_eq_abs]

private theorem sqrt_zero_left (d : ℝ) : √((0 : ℝ) ^ 2 + d ^ 2) = |d| := by
  rw [show (0 : ℝ) ^ 2 + d ^ 2 = d ^ 2 by ring, Real.sqrt_sq_eq_abs]

/-- At a strictly complementary solution the smoothed residual vanishes, there is no kink, and the row of the smoothed
Jacobian is the row of the Jacobian where no bound binds and a unit row where one does (up to the sign). -/
theorem strict_values (a b : Option ℝ) (x r : ℝ) (h : StrictMCP (ncpLower a) (ncpUpper b) x r) :
    NoKinkLow (ncpLower a) x (-r) ∧ NoKinkLow (ncpUpper b) x (ncpPval x (-r) a) ∧
    ncpFxnew x (ncpPval x (-r) a) b = 0 ∧
    ncpFf a b x r = (if r = 0 then 1 else 0) ∧ ncpXx a b x r = (if r = 0 then 0 else 1) := by
  rcases h with ⟨rfl, hl, hu⟩ | ⟨hr, hl, hu⟩ | ⟨hr, hu, hl⟩
  · -- interior
    have hp : ncpPval x (-0) a = 0 := by
      unfold ncpPval
      cases e : ncpLower a with
      | none => simp
      | some l =>
        have := hl l e
        simp only [neg_zero, sqrt_zero_left, abs_of_neg (sub_neg.2 this)]
        ring
    have hdp : ncpDp x (-0) a = (1, 0) := by
      unfold ncpDp
      cases e : ncpLower a with
      | none => rfl
      | some l =>
        have := sub_neg.2 (hl l e)
        simp only [neg_zero, zero_div, add_zero, abs_div_self_neg this]
        simp
    have hdm : ncpDm x 0 b = (1, 0) := by
      unfold ncpDm
      cases e : ncpUpper b with
      | none => rfl
      | some u =>
        have := sub_pos.2 (hu u e)
        simp only [zero_div, sub_zero, sqrt_zero_left, abs_of_pos this, div_self this.ne', sub_self]
    refine ⟨fun l e => .inr (sub_neg.2 (hl l e)).ne, fun u e => .inr (sub_pos.2 (hu u e)).ne', ?_, ?_, ?_⟩
    · rw [hp]
      unfold ncpFxnew
      cases e : ncpUpper b with
      | none => rfl
      | some u =>
        have := sub_pos.2 (hu u e)
        simp only [sqrt_zero_left, abs_of_pos this]
        ring
    · rw [ncpFf, hp, hdp, hdm]; simp
    · rw [ncpXx, hp, hdp, hdm]; simp
  · -- lower bound
    have hp : ncpPval x (-r) a = 0 := by
      unfold ncpPval
      rw [hl]
      simp only [sub_self, sqrt_zero_right, abs_neg, abs_of_pos hr]
      ring
    have hdp : ncpDp x (-r) a = (0, 1) := by
      unfold ncpDp
      rw [hl]
      simp only [sub_self, sqrt_zero_right, abs_neg, abs_of_pos hr, neg_div, div_self hr.ne', zero_div]
      simp
    have hdm : ncpDm x 0 b = (1, 0) := by
      unfold ncpDm
      cases e : ncpUpper b with
      | none => rfl
      | some u =>
        have := sub_pos.2 (hu u e)
        simp only [zero_div, sub_zero, sqrt_zero_left, abs_of_pos this, div_self this.ne', sub_self]
    refine ⟨fun l e => .inl (by simpa using hr.ne'), fun u e => .inr (sub_pos.2 (hu u e)).ne', ?_, ?_, ?_⟩
    · rw [hp]
      unfold ncpFxnew
      cases e : ncpUpper b with
      | none => rfl
      | some u =>
        have := sub_pos.2 (hu u e)
        simp only [sqrt_zero_left, abs_of_pos this]
        ring
    · rw [ncpFf, hp, hdp, hdm, if_neg hr.ne']; simp
    · rw [ncpXx, hp, hdp, hdm, if_neg hr.ne']; simp
  · -- upper bound
    have hp : 0 < ncpPval x (-r) a := by
      unfold ncpPval
      cases e : ncpLower a with
      | none => simpa using hr
      | some l =>
        have h1 : |l - x| ≤ √((-r) ^ 2 + (l - x) ^ 2) := by
          rw [← Real.sqrt_sq_eq_abs]
          exact Real.sqrt_le_sqrt (by nlinarith [sq_nonneg r])
        have h2 := neg_abs_le (l - x)
        simp only
        linarith
    have hdm : ncpDm x (ncpPval x (-r) a) b = (0, 1) := by
      unfold ncpDm
      rw [hu]
      simp only [sub_self, sqrt_zero_right, abs_of_pos hp, div_self hp.ne', zero_div]
      simp
    refine ⟨fun l e => .inl (by simpa using hr.ne), fun u e => .inl hp.ne', ?_, ?_, ?_⟩
    · unfold ncpFxnew
      rw [hu]
      simp only [sub_self, sqrt_zero_right, abs_of_pos hp]
      ring
    · rw [ncpFf, hdm, if_neg hr.ne]; simp
    · rw [ncpXx, hdm, if_neg hr.ne]; simp

/-- Derivative of the smoothed residual at a strictly complementary solution. -/
theorem strict_fderiv {r x : Z → ℝ} {r' x' : Z →L[ℝ] ℝ} {z : Z} (hr : HasFDerivAt r r' z)
    (hx : HasFDerivAt x x' z) (a b : Option ℝ) (h : StrictMCP (ncpLower a) (ncpUpper b) (x z) (r z)) :
    HasFDerivAt (fun z => ncpFxnew (x z) (ncpPval (x z) (-r z) a) b) (if r z = 0 then -r' else -x') z := by
  obtain ⟨k1, k2, -, e1, e2⟩ := strict_values a b (x z) (r z) h
  have h1 := ncpPval_fderiv hr.neg hx a k1
  have h2 := ncpFxnew_fderiv h1 hx b k2
  refine h2.congr_fderiv ?_
  ext v
  have e : ((ncpDm (x z) (ncpPval (x z) (-r z) a) b).1 •
      ((ncpDp (x z) (-r z) a).1 • -r' - (ncpDp (x z) (-r z) a).2 • x') -
      (ncpDm (x z) (ncpPval (x z) (-r z) a) b).2 • x') v
      = -(ncpFf a b (x z) (r z) * r' v) - ncpXx a b (x z) (r z) * x' v := by
    simp [ncpFf, ncpXx]
    ring
  refine e.trans ?_
  rw [e1, e2]
  split_ifs <;> simp

/-- The two coefficients of the smoothed Jacobian are continuous there. -/
theorem strict_continuousAt {W : Type} [TopologicalSpace W] {r x : W → ℝ} {w : W} (hr : ContinuousAt r w)
    (hx : ContinuousAt x w) (a b : Option ℝ) (h : StrictMCP (ncpLower a) (ncpUpper b) (x w) (r w)) :
    ContinuousAt (fun w => ncpFf a b (x w) (r w)) w ∧ ContinuousAt (fun w => ncpXx a b (x w) (r w)) w := by
  obtain ⟨k1, k2, -, -, -⟩ := strict_values a b (x w) (r w) h
  obtain ⟨p1, p2⟩ := ncpDp_continuousAt hr.neg hx a k1
  obtain ⟨m1, m2⟩ := ncpDm_continuousAt (ncpPval_continuousAt hr.neg hx a) hx b k2
  exact ⟨m1.mul p1, (m1.mul p2).add m2⟩

end

end Dolo
