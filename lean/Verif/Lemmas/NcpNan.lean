import Mathlib.Tactic.NormNum
import Mathlib.Tactic.Linarith
import Mathlib.Tactic.Ring
import Verif.Lemmas.NanLoops
import Verif.Model.NcpNan

/-!
# Lemmas on the smoothing of complementarity conditions with `nan`
-/

namespace Dolo

theorem XF.nan_add (a : XF) : XF.add .nan a = .nan := by cases a <;> rfl
theorem XF.add_nan (a : XF) : XF.add a .nan = .nan := by cases a <;> rfl
theorem XF.nan_sub (a : XF) : XF.sub .nan a = .nan := by cases a <;> rfl
theorem XF.sub_nan_right (a : XF) : XF.sub a .nan = .nan := by cases a <;> rfl
theorem XF.nan_mul (a : XF) : XF.mul .nan a = .nan := by cases a <;> rfl
theorem XF.mul_nan (a : XF) : XF.mul a .nan = .nan := by cases a <;> rfl
theorem XF.neg_eq_nan {a : XF} : a.neg = .nan ↔ a = .nan := by cases a <;> simp [XF.neg]

theorem hypot_fin (a b : ℝ) : hypotF (.fin a) (.fin b) = .fin (√(a ^ 2 + b ^ 2)) := by
  have h : ¬ (a * a + b * b < 0) := not_lt.2 (add_nonneg (mul_self_nonneg a) (mul_self_nonneg b))
  unfold hypotF
  simp only [XF.mul, XF.add, XF.sqrt, if_neg h]
  rw [sq, sq]

theorem hypot_nan_left (b : XF) : hypotF .nan b = .nan := by
  unfold hypotF
  rw [XF.nan_mul, XF.nan_add]
  rfl

theorem hypot_nan_right (a : XF) : hypotF a .nan = .nan := by
  unfold hypotF
  rw [XF.nan_mul, XF.add_nan]
  rfl

theorem sqrt_sum_eq_zero (a b : ℝ) : √(a ^ 2 + b ^ 2) = 0 ↔ a = 0 ∧ b = 0 := by
  rw [Real.sqrt_eq_zero (by positivity)]
  constructor
  · intro h
    have ha : a ^ 2 = 0 := by nlinarith [sq_nonneg a, sq_nonneg b]
    have hb : b ^ 2 = 0 := by nlinarith [sq_nonneg a, sq_nonneg b]
    exact ⟨by simpa using ha, by simpa using hb⟩
  · rintro ⟨rfl, rfl⟩
    norm_num

/-- A quotient `a / sqrt(a ** 2 + b ** 2)` is `nan` when both are zero, and a number otherwise. -/
theorem div_hypot_left (a b : ℝ) : XF.div (.fin a) (.fin (√(a ^ 2 + b ^ 2))) =
    open Classical in if a = 0 ∧ b = 0 then .nan else .fin (a / √(a ^ 2 + b ^ 2)) := by
  classical
  by_cases h : a = 0 ∧ b = 0
  · rw [if_pos h]
    obtain ⟨rfl, rfl⟩ := h
    simp [XF.div, XF.infSign]
  · rw [if_neg h]
    simp only [XF.div, if_neg (mt (sqrt_sum_eq_zero a b).1 h)]

theorem div_hypot_right (a b : ℝ) : XF.div (.fin b) (.fin (√(a ^ 2 + b ^ 2))) =
    open Classical in if a = 0 ∧ b = 0 then .nan else .fin (b / √(a ^ 2 + b ^ 2)) := by
  classical
  by_cases h : a = 0 ∧ b = 0
  · rw [if_pos h]
    obtain ⟨rfl, rfl⟩ := h
    simp [XF.div, XF.infSign]
  · rw [if_neg h]
    simp only [XF.div, if_neg (mt (sqrt_sum_eq_zero a b).1 h)]

/-- A lower bound as a float. -/
def lowerXF : Option ℝ → XF
  | none => .ninf
  | some l => .fin l

/-- An upper bound as a float. -/
def upperXF : Option ℝ → XF
  | none => .pinf
  | some u => .fin u

theorem lower_mask (a : Option ℝ) : (lowerXF a).le (.fin (-(10 ^ 20))) ↔ ncpLower a = none := by
  cases a with
  | none => simp [lowerXF, XF.le, XF.lt, XF.gt, ncpLower]
  | some l =>
    simp only [lowerXF, XF.le, XF.lt, XF.gt, ncpLower, Option.filter_eq_none_iff, Option.some.injEq,
      XF.fin.injEq, ne_eq, reduceCtorEq, not_false_eq_true, and_true, Option.mem_def]
    rw [← le_iff_lt_or_eq]
    simp

theorem upper_mask (b : Option ℝ) : XF.le (.fin (10 ^ 20)) (upperXF b) ↔ ncpUpper b = none := by
  cases b with
  | none => simp [upperXF, XF.le, XF.lt, XF.gt, ncpUpper]
  | some l =>
    simp only [upperXF, XF.le, XF.lt, XF.gt, ncpUpper, Option.filter_eq_none_iff, Option.some.injEq,
      XF.fin.injEq, ne_eq, reduceCtorEq, not_false_eq_true, and_true, Option.mem_def]
    rw [← le_iff_lt_or_eq]
    simp

theorem ncpLower_some {a : Option ℝ} {l : ℝ} (h : ncpLower a = some l) : a = some l := by
  cases a with
  | none => cases h
  | some k =>
    unfold ncpLower at h
    rw [Option.filter_eq_some_iff] at h
    exact h.1

theorem ncpUpper_some {a : Option ℝ} {l : ℝ} (h : ncpUpper a = some l) : a = some l := by
  cases a with
  | none => cases h
  | some k =>
    unfold ncpUpper at h
    rw [Option.filter_eq_some_iff] at h
    exact h.1

open Classical in
/-- The lower step of `smooth` at numbers: the value is a number, the two derivatives are numbers unless the bound is
reached and the function is zero. -/
theorem smooth_lower (x fx : ℝ) (a : Option ℝ) :
    (if (lowerXF a).le (.fin (-(10 ^ 20))) then .fin fx
      else (XF.add (.fin fx) (hypotF (.fin fx) ((lowerXF a).sub (.fin x)))).add ((lowerXF a).sub (.fin x)))
      = .fin (ncpPval x fx a) ∧
    (if (lowerXF a).le (.fin (-(10 ^ 20))) then .fin 1
      else XF.add (.fin 1) (XF.div (.fin fx) (hypotF (.fin fx) ((lowerXF a).sub (.fin x)))))
      = (if fx = 0 ∧ ncpLower a = some x then .nan else .fin (ncpDp x fx a).1) ∧
    (if (lowerXF a).le (.fin (-(10 ^ 20))) then .fin 0
      else XF.add (.fin 1) (((lowerXF a).sub (.fin x)).div (hypotF (.fin fx) ((lowerXF a).sub (.fin x)))))
      = (if fx = 0 ∧ ncpLower a = some x then .nan else .fin (ncpDp x fx a).2) := by
  cases h : ncpLower a with
  | none =>
    simp only [if_pos ((lower_mask a).2 h), reduceCtorEq, and_false, if_false, ncpPval, ncpDp, h, and_self]
  | some l =>
    have hm : ¬ (lowerXF a).le (.fin (-(10 ^ 20))) := fun hc => by rw [(lower_mask a).1 hc] at h; cases h
    have ha := ncpLower_some h
    have hl : (lowerXF a).sub (.fin x) = .fin (l - x) := by rw [ha]; rfl
    have hc : (fx = 0 ∧ l - x = 0) ↔ (fx = 0 ∧ some l = some x) := by rw [Option.some.injEq, sub_eq_zero]
    simp only [if_neg hm, hl, hypot_fin, div_hypot_left, div_hypot_right, ncpPval, ncpDp, h, hc]
    refine ⟨by simp [XF.add], ?_, ?_⟩ <;> split_ifs <;> simp [XF.add]

open Classical in
theorem smooth_upper (x p : ℝ) (b : Option ℝ) :
    (if XF.le (.fin (10 ^ 20)) (upperXF b) then .fin p
      else (XF.sub (.fin p) (hypotF (.fin p) ((upperXF b).sub (.fin x)))).add ((upperXF b).sub (.fin x)))
      = .fin (ncpFxnew x p b) ∧
    (if XF.le (.fin (10 ^ 20)) (upperXF b) then .fin 1
      else XF.sub (.fin 1) (XF.div (.fin p) (hypotF (.fin p) ((upperXF b).sub (.fin x)))))
      = (if p = 0 ∧ ncpUpper b = some x then .nan else .fin (ncpDm x p b).1) ∧
    (if XF.le (.fin (10 ^ 20)) (upperXF b) then .fin 0
      else XF.sub (.fin 1) (((upperXF b).sub (.fin x)).div (hypotF (.fin p) ((upperXF b).sub (.fin x)))))
      = (if p = 0 ∧ ncpUpper b = some x then .nan else .fin (ncpDm x p b).2) := by
  cases h : ncpUpper b with
  | none =>
    simp only [if_pos ((upper_mask b).2 h), reduceCtorEq, and_false, if_false, ncpFxnew, ncpDm, h, and_self]
  | some l =>
    have hm : ¬ XF.le (.fin (10 ^ 20)) (upperXF b) := fun hc => by rw [(upper_mask b).1 hc] at h; cases h
    have ha := ncpUpper_some h
    have hl : (upperXF b).sub (.fin x) = .fin (l - x) := by rw [ha]; rfl
    have hc : (p = 0 ∧ l - x = 0) ↔ (p = 0 ∧ some l = some x) := by rw [Option.some.injEq, sub_eq_zero]
    simp only [if_neg hm, hl, hypot_fin, div_hypot_left, div_hypot_right, ncpFxnew, ncpDm, h, hc]
    refine ⟨by simp [XF.add, XF.sub], ?_, ?_⟩ <;> split_ifs <;> simp [XF.sub]

/-- The complementarity conditions at which `0 / 0` is computed, in terms of `fx` and `pval`. -/
def ZeroOverZero (x fx : ℝ) (a b : Option ℝ) : Prop :=
  (fx = 0 ∧ ncpLower a = some x) ∨ (ncpPval x fx a = 0 ∧ ncpUpper b = some x)

open Classical in
/-- `smooth` at numbers. -/
theorem smoothF_fin (x fx : ℝ) (a b : Option ℝ) :
    smoothF (.fin x) (lowerXF a) (upperXF b) (.fin fx) =
      ⟨.fin (ncpFxnew x (ncpPval x fx a) b),
       if ZeroOverZero x fx a b then .nan else .fin ((ncpDm x (ncpPval x fx a) b).1 * (ncpDp x fx a).1),
       if ZeroOverZero x fx a b then .nan
        else .fin ((ncpDm x (ncpPval x fx a) b).1 * (ncpDp x fx a).2 + (ncpDm x (ncpPval x fx a) b).2)⟩ := by
  obtain ⟨h1, h2, h3⟩ := smooth_lower x fx a
  obtain ⟨h4, h5, h6⟩ := smooth_upper x (ncpPval x fx a) b
  unfold smoothF
  simp only [h1, h2, h3, h4, h5, h6, ZeroOverZero, SmoothEntry.mk.injEq, true_and]
  by_cases c1 : fx = 0 ∧ ncpLower a = some x <;> by_cases c2 : ncpPval x fx a = 0 ∧ ncpUpper b = some x <;>
    simp only [c1, c2, if_true, if_false, or_true, true_or, or_false, XF.mul, XF.add, and_self, reduceCtorEq] <;> simp_all [XF.mul, XF.add]

/-- `smooth` keeps `nan` in the values of the function. -/
theorem smoothF_nan_value (x a b : XF) : (smoothF x a b .nan).fxnew = .nan := by
  classical
  unfold smoothF
  simp only [hypot_nan_left, XF.nan_add, ite_self, XF.nan_sub]

/-- At an unknown `nan` the smoothed value is `nan` as soon as one of the bounds is finite. -/
theorem smoothF_nan_point (a b : Option ℝ) (fx : XF) (h : ncpLower a ≠ none ∨ ncpUpper b ≠ none) :
    (smoothF .nan (lowerXF a) (upperXF b) fx).fxnew = .nan := by
  classical
  unfold smoothF
  simp only [XF.sub_nan_right, hypot_nan_right, XF.add_nan, ite_self]
  by_cases h1 : ncpLower a = none
  · have h2 : ncpUpper b ≠ none := h.resolve_left (fun c => c h1)
    rw [if_neg (fun c => h2 ((upper_mask b).1 c))]
  · have hp : (if (lowerXF a).le (.fin (-(10 ^ 20))) then fx else XF.nan) = .nan :=
      if_neg (fun c => h1 ((lower_mask a).1 c))
    rw [hp, ite_self]

end Dolo
