import Mathlib.Analysis.SpecialFunctions.Sqrt
import Mathlib.Analysis.Calculus.Deriv.Basic
import Mathlib.Analysis.Calculus.Deriv.Mul
import Mathlib.Analysis.Calculus.Deriv.Add
import Mathlib.Analysis.Calculus.Deriv.Pow
import Mathlib.Tactic.NormNum
import Mathlib.Tactic.IntervalCases
import Mathlib.Tactic.Linarith
import Mathlib.Tactic.FieldSimp
import Mathlib.Tactic.Positivity
import Verif.Model.Complementarity

/-!
# C19-C23, C70: complementarity residuals
-/

set_option linter.unusedSectionVars false

namespace Dolo

/-! ### Specification -/

/-- `x` solves the one-dimensional mixed complementarity problem `f ⟂ lb ≤ x ≤ ub` (an absent bound is
`none`): `x` is within the bounds, `f` may only be positive at the lower bound and negative at the upper
one. -/
def SolvesMCP (lb ub : Option ℝ) (x f : ℝ) : Prop :=
  (∀ l ∈ lb, l ≤ x) ∧ (∀ u ∈ ub, x ≤ u) ∧ (0 < f → lb = some x) ∧ (f < 0 → ub = some x)

/-- The bounds are consistent. -/
def BoundsOK (lb ub : Option ℝ) : Prop := ∀ l ∈ lb, ∀ u ∈ ub, l ≤ u

/-! ### C19 -/

private theorem phiFB_pos (a b : ℝ) : 0 < phiFB a b ↔ 0 < a ∧ 0 < b := by
  unfold phiFB
  constructor
  · intro h
    have hs := Real.sqrt_nonneg (a ^ 2 + b ^ 2)
    have hab : 0 < a + b := by linarith
    have h2 : √(a ^ 2 + b ^ 2) < a + b := by linarith
    rw [Real.sqrt_lt' hab] at h2
    have hp : 0 < a * b := by nlinarith
    rcases pos_and_pos_or_neg_and_neg_of_mul_pos hp with h3 | h3
    · exact h3
    · exfalso; linarith [h3.1, h3.2]
  · rintro ⟨ha, hb⟩
    have : √(a ^ 2 + b ^ 2) < a + b := by
      rw [Real.sqrt_lt' (by linarith)]
      nlinarith [mul_pos ha hb]
    linarith

/-- **C19.**  The Fischer-Burmeister residual vanishes exactly at complementary pairs. -/
theorem C19_fischer_burmeister (a b : ℝ) : phiFB a b = 0 ↔ 0 ≤ a ∧ 0 ≤ b ∧ a * b = 0 := by
  unfold phiFB
  constructor
  · intro h
    have hs := Real.sqrt_nonneg (a ^ 2 + b ^ 2)
    have h2 : √(a ^ 2 + b ^ 2) = a + b := by linarith
    have h3 := Real.sq_sqrt (by positivity : 0 ≤ a ^ 2 + b ^ 2)
    rw [h2] at h3 hs
    have hp : a * b = 0 := by nlinarith
    rcases mul_eq_zero.1 hp with h0 | h0
    · subst h0; simp at hs; exact ⟨le_refl _, hs, by ring⟩
    · subst h0; simp at hs; exact ⟨hs, le_refl _, by ring⟩
  · rintro ⟨ha, hb, hab⟩
    have : a ^ 2 + b ^ 2 = (a + b) ^ 2 := by nlinarith
    rw [this, Real.sqrt_sq (by linarith)]
    ring

/-- **C19, sign.**  The residual is positive exactly when both arguments are. -/
theorem C19_fischer_burmeister_sign (a b : ℝ) : 0 < phiFB a b ↔ 0 < a ∧ 0 < b := phiFB_pos a b

/-- The residual of `smooth_nodiff` is the same one, whenever the slack is not beyond the threshold. -/
theorem C19_smooth_nodiff (r d : ℝ) (hd : d ≤ 100000) :
    itiH r (some d) = 0 ↔ 0 ≤ r ∧ 0 ≤ d ∧ r * d = 0 := by
  have : itiH r (some d) = phiFB r d := by
    unfold itiH dinf phiFB
    rw [if_neg (by simpa using hd)]
  rw [this, C19_fischer_burmeister]

example : phiFB 0 3 = 0 ∧ phiFB 1 (-1) ≠ 0 :=
  ⟨(C19_fischer_burmeister 0 3).2 (by norm_num), fun h => by
    have := (C19_fischer_burmeister 1 (-1)).1 h
    norm_num at this⟩

/-! ### The two steps of a two-sided residual -/

/-- Lower step. -/
private theorem lower_step (lb : Option ℝ) (x f P : ℝ)
    (h : (P = f ∧ ∀ l ∈ lb, l < x) ∨ ∃ l, lb = some l ∧ P = phiFB f (x - l)) :
    (P = 0 ↔ (∀ l ∈ lb, l ≤ x) ∧ 0 ≤ f ∧ (0 < f → lb = some x)) ∧
    (0 < P ↔ 0 < f ∧ ∀ l ∈ lb, l < x) := by
  rcases h with ⟨rfl, h⟩ | ⟨l, rfl, rfl⟩
  · refine ⟨⟨?_, ?_⟩, ?_⟩
    · rintro rfl
      exact ⟨fun l hl => (h l hl).le, le_refl _, fun h0 => absurd h0 (lt_irrefl _)⟩
    · rintro ⟨-, h1, h2⟩
      rcases h1.lt_or_eq with h3 | h3
      · exact absurd (h x (h2 h3)) (lt_irrefl _)
      · exact h3.symm
    · constructor
      · intro h0; exact ⟨h0, h⟩
      · intro h0; exact h0.1
  · rw [C19_fischer_burmeister, phiFB_pos]
    simp only [Option.mem_def, Option.some.injEq, forall_eq', sub_nonneg, sub_pos]
    refine ⟨⟨?_, ?_⟩, by simp⟩
    · rintro ⟨h1, h2, h3⟩
      refine ⟨h2, h1, fun h4 => ?_⟩
      rcases mul_eq_zero.1 h3 with h5 | h5
      · linarith
      · linarith
    · rintro ⟨h1, h2, h3⟩
      refine ⟨h2, h1, ?_⟩
      rcases h2.lt_or_eq with h4 | h4
      · rw [h3 h4]; ring
      · rw [← h4]; ring

/-- Upper step. -/
private theorem upper_step (ub : Option ℝ) (x P1 P : ℝ)
    (h : (P = -P1 ∧ ∀ u ∈ ub, x < u) ∨ ∃ u, ub = some u ∧ P = phiFB (-P1) (u - x)) :
    P = 0 ↔ (∀ u ∈ ub, x ≤ u) ∧ P1 ≤ 0 ∧ (P1 < 0 → ub = some x) := by
  rcases h with ⟨rfl, h⟩ | ⟨u, rfl, rfl⟩
  · constructor
    · intro h0
      have : P1 = 0 := by linarith
      subst this
      exact ⟨fun u hu => (h u hu).le, le_refl _, fun h0 => absurd h0 (lt_irrefl _)⟩
    · rintro ⟨-, h1, h2⟩
      rcases h1.lt_or_eq with h3 | h3
      · exact absurd (h x (h2 h3)) (lt_irrefl _)
      · rw [h3]; ring
  · rw [C19_fischer_burmeister]
    simp only [Option.mem_def, Option.some.injEq, forall_eq', sub_nonneg]
    constructor
    · rintro ⟨h1, h2, h3⟩
      refine ⟨h2, by linarith, fun h4 => ?_⟩
      rcases mul_eq_zero.1 h3 with h5 | h5
      · linarith
      · linarith
    · rintro ⟨h1, h2, h3⟩
      refine ⟨by linarith, h1, ?_⟩
      rcases h2.lt_or_eq with h4 | h4
      · rw [h3 h4]; ring
      · rw [h4]; ring

private theorem two_sided (lb ub : Option ℝ) (hb : BoundsOK lb ub) (x f P1 P : ℝ)
    (h1 : (P1 = f ∧ ∀ l ∈ lb, l < x) ∨ ∃ l, lb = some l ∧ P1 = phiFB f (x - l))
    (h2 : (P = -P1 ∧ ∀ u ∈ ub, x < u) ∨ ∃ u, ub = some u ∧ P = phiFB (-P1) (u - x)) :
    P = 0 ↔ SolvesMCP lb ub x f := by
  obtain ⟨l0, lpos⟩ := lower_step lb x f P1 h1
  rw [upper_step ub x P1 P h2]
  unfold SolvesMCP
  constructor
  · rintro ⟨hu, hP, hPu⟩
    rcases hP.lt_or_eq with hneg | h0
    · have hux := hPu hneg
      refine ⟨fun l hl => hb l hl x hux, hu, ?_, fun _ => hux⟩
      intro hf
      have : ¬ (0 < P1) := by linarith
      rw [lpos] at this
      push Not at this
      obtain ⟨l, hl, hlx⟩ := this hf
      have : l = x := le_antisymm (hb l hl x hux) hlx
      rw [← this]; exact hl
    · obtain ⟨a1, a2, a3⟩ := l0.1 h0
      exact ⟨a1, hu, a3, fun h => absurd h (not_lt.2 a2)⟩
  · rintro ⟨hl, hu, hpos, hneg⟩
    refine ⟨hu, ?_, ?_⟩
    · by_contra hP
      push Not at hP
      obtain ⟨hf, hlt⟩ := lpos.1 hP
      exact absurd (hlt x (hpos hf)) (lt_irrefl _)
    · intro hP
      by_cases hf : f < 0
      · exact hneg hf
      · exfalso
        have := l0.2 ⟨hl, not_lt.1 hf, hpos⟩
        linarith

/-! ### C20 -/

/-- **C20, `fb.py`.**  For finite bounds `a ≤ b` the two-sided residual vanishes exactly at the solutions of
the complementarity problem. -/
theorem C20_smooth_FB (f x a b : ℝ) (hab : a ≤ b) :
    smoothFB f x a b = 0 ↔ SolvesMCP (some a) (some b) x f := by
  apply two_sided (some a) (some b) _ x f (phiFB f (x - a))
  · exact .inr ⟨a, rfl, rfl⟩
  · exact .inr ⟨b, rfl, rfl⟩
  · intro l hl u hu
    simp only [Option.mem_def, Option.some.injEq] at hl hu
    subst hl hu
    exact hab

/-- **C20, improved time iteration.**  For all bounds, finite or not: the transformed residual of equation
`i` vanishes exactly when the control `i` solves the complementarity problem - the treatment of slacks above
`100000` as infinite does not change the set of zeros. -/
theorem C20_improved_time_iteration {n : ℕ} (r : ItiRes n) (x : Fin n → ℝ) (lb ub : Fin n → Option ℝ)
    (i : Fin n) (hb : BoundsOK (lb i) (ub i)) :
    (itiComplement r x lb ub).res i = 0 ↔ SolvesMCP (lb i) (ub i) (x i) (r.res i) := by
  simp only [itiComplement, itiNeg, itiSmooth]
  rw [neg_eq_zero]
  apply two_sided (lb i) (ub i) hb (x i) (r.res i) (itiH (r.res i) ((lb i).map fun l => x i - l))
  · cases hl : lb i with
    | none => left; exact ⟨by simp [itiH, dinf], by simp⟩
    | some l =>
      by_cases h : x i - l > 100000
      · left
        refine ⟨by simp [itiH, dinf, h], ?_⟩
        intro l' hl'
        simp only [Option.mem_def, Option.some.injEq] at hl'
        subst hl'
        linarith
      · right
        exact ⟨l, rfl, by simp [itiH, dinf, h, phiFB]⟩
  · cases hu : ub i with
    | none => left; exact ⟨by simp [itiH, dinf], by simp⟩
    | some u =>
      by_cases h : u - x i > 100000
      · left
        refine ⟨by simp [itiH, dinf, h], ?_⟩
        intro u' hu'
        simp only [Option.mem_def, Option.some.injEq] at hu'
        subst hu'
        linarith
      · right
        exact ⟨u, rfl, by simp [itiH, dinf, h, phiFB]⟩

/-- At the lower bound with a positive residual; strictly inside with a zero one; not inside with a non-zero
one. -/
example : smoothFB 2 0 0 1 = 0 ∧ smoothFB 0 (1 / 2) 0 1 = 0 ∧ smoothFB 2 (1 / 2) 0 1 ≠ 0 := by
  refine ⟨?_, ?_, ?_⟩
  · rw [C20_smooth_FB _ _ _ _ (by norm_num)]; simp [SolvesMCP]
  · rw [C20_smooth_FB _ _ _ _ (by norm_num)]; norm_num [SolvesMCP]
  · rw [ne_eq, C20_smooth_FB _ _ _ _ (by norm_num)]; norm_num [SolvesMCP]

/-! ### C21: derivatives -/

private theorem sq_ne {a b : ℝ} (h : a ≠ 0 ∨ b ≠ 0) : a ^ 2 + b ^ 2 ≠ 0 := by
  rcases h with h | h
  · have : 0 < a ^ 2 := by positivity
    positivity
  · have : 0 < b ^ 2 := by positivity
    positivity

private theorem sqrt_pos' {a b : ℝ} (h : a ≠ 0 ∨ b ≠ 0) : 0 < √(a ^ 2 + b ^ 2) := by
  apply Real.sqrt_pos.2
  exact lt_of_le_of_ne (by positivity) (sq_ne h).symm

private theorem derivCongr {f g : ℝ → ℝ} {f' g' t : ℝ} (h : HasDerivAt f f' t) (hf : ∀ s, g s = f s)
    (hd : g' = f') : HasDerivAt g g' t := by
  have : g = f := funext hf
  rw [this, hd]; exact h

private theorem dneg {f : ℝ → ℝ} {f' t : ℝ} (h : HasDerivAt f f' t) :
    HasDerivAt (fun s => -f s) (-f') t := h.neg
private theorem dadd {f g : ℝ → ℝ} {f' g' t : ℝ} (h : HasDerivAt f f' t) (k : HasDerivAt g g' t) :
    HasDerivAt (fun s => f s + g s) (f' + g') t := h.add k
private theorem dsub {f g : ℝ → ℝ} {f' g' t : ℝ} (h : HasDerivAt f f' t) (k : HasDerivAt g g' t) :
    HasDerivAt (fun s => f s - g s) (f' - g') t := h.sub k
private theorem dcmul (c : ℝ) {f : ℝ → ℝ} {f' t : ℝ} (h : HasDerivAt f f' t) :
    HasDerivAt (fun s => c * f s) (c * f') t := h.const_mul c
private theorem did (t : ℝ) : HasDerivAt (fun s : ℝ => s) 1 t := hasDerivAt_id t

/-- Chain rule for the norm of two functions. -/
private theorem hasDerivAt_norm (r d : ℝ → ℝ) (r' d' t : ℝ) (hr : HasDerivAt r r' t)
    (hd : HasDerivAt d d' t) (h : r t ≠ 0 ∨ d t ≠ 0) :
    HasDerivAt (fun s => √((r s) ^ 2 + (d s) ^ 2))
      (r t / √((r t) ^ 2 + (d t) ^ 2) * r' + d t / √((r t) ^ 2 + (d t) ^ 2) * d') t := by
  have h1 : HasDerivAt (fun s => (r s) ^ 2 + (d s) ^ 2) (2 * r t * r' + 2 * d t * d') t := by
    have := (hr.pow 2).add (hd.pow 2)
    refine derivCongr this (fun s => rfl) (by simp)
  have h2 := h1.sqrt (sq_ne h)
  refine derivCongr h2 (fun s => rfl) ?_
  have := (sqrt_pos' h).ne'
  field_simp

/-- Chain rule for the Fischer-Burmeister function. -/
private theorem hasDerivAt_phi (r d : ℝ → ℝ) (r' d' t : ℝ) (hr : HasDerivAt r r' t)
    (hd : HasDerivAt d d' t) (h : r t ≠ 0 ∨ d t ≠ 0) :
    HasDerivAt (fun s => phiFB (r s) (d s))
      ((1 - r t / √((r t) ^ 2 + (d t) ^ 2)) * r' + (1 - d t / √((r t) ^ 2 + (d t) ^ 2)) * d') t := by
  have := dsub (dadd hr hd) (hasDerivAt_norm r d r' d' t hr hd h)
  refine derivCongr this (fun s => rfl) ?_
  ring

/-- **C21, `PhiFB_`.**  Away from the kink, the two numbers returned next to the value are its partial
derivatives: along any pair of differentiable functions they give the chain rule. -/
theorem C21_phiFB (r d : ℝ → ℝ) (r' d' t : ℝ) (hr : HasDerivAt r r' t) (hd : HasDerivAt d d' t)
    (h : r t ≠ 0 ∨ d t ≠ 0) :
    (phiFB' (r t) (d t)).1 = phiFB (r t) (d t) ∧
    HasDerivAt (fun s => phiFB (r s) (d s))
      ((phiFB' (r t) (d t)).2.1 * r' + (phiFB' (r t) (d t)).2.2 * d') t := by
  have hne := (sqrt_pos' h).ne'
  have e : phiFB' (r t) (d t) = (phiFB (r t) (d t), 1 - r t / √((r t) ^ 2 + (d t) ^ 2),
      1 - d t / √((r t) ^ 2 + (d t) ^ 2)) := by
    simp only [phiFB']
    rw [if_pos hne]
    rfl
  rw [e]
  exact ⟨rfl, hasDerivAt_phi r d r' d' t hr hd h⟩

/-- **C21, `smooth_FB_`.**  For a differentiable function `F` with derivative `df` at `x`, the pair returned
is the two-sided residual and its derivative, away from the two kinks. -/
theorem C21_smooth_FB (F : ℝ → ℝ) (x a b df : ℝ) (hF : HasDerivAt F df x)
    (h1 : F x ≠ 0 ∨ x - a ≠ 0) (h2 : phiFB (F x) (x - a) ≠ 0 ∨ b - x ≠ 0) :
    (smoothFB' (F x) x a b df).1 = smoothFB (F x) x a b ∧
    HasDerivAt (fun y => smoothFB (F y) y a b) (smoothFB' (F x) x a b df).2 x := by
  have hx : HasDerivAt (fun y : ℝ => y - a) 1 x := (hasDerivAt_id x).sub_const a
  have hbx : HasDerivAt (fun y : ℝ => b - y) (-1) x := by
    simpa using (hasDerivAt_id x).const_sub b
  obtain ⟨v1, d1⟩ := C21_phiFB F (fun y => y - a) df 1 x hF hx h1
  obtain ⟨v2, d2⟩ := C21_phiFB (fun y => -phiFB (F y) (y - a)) (fun y => b - y) _ (-1) x (dneg d1) hbx (by
    rcases h2 with h2 | h2
    · left; exact neg_ne_zero.2 h2
    · right; exact h2)
  constructor
  · simp only [smoothFB', smoothFB]
    rw [v1, v2]
  · simp only [smoothFB', smoothFB]
    rw [v1]
    refine derivCongr d2 (fun s => rfl) ?_
    ring

/-- One smoothing step of the improved time iteration along differentiable residuals and slacks. -/
private theorem hasDerivAt_itiH (r d : ℝ → ℝ) (r' d' t : ℝ) (hr : HasDerivAt r r' t)
    (hd : HasDerivAt d d' t) (h : r t ≠ 0 ∨ d t ≠ 0) (hthr : d t ≠ 100000) :
    HasDerivAt (fun s => itiH (r s) (some (d s)))
      (itiPhiA (r t) (some (d t)) * r' + itiPhiB (r t) (some (d t)) * d') t := by
  rcases lt_or_gt_of_ne hthr with hlt | hgt
  · have e1 : itiPhiA (r t) (some (d t)) = 1 - r t / √((r t) ^ 2 + (d t) ^ 2) := by
      simp [itiPhiA, dinf, not_lt.2 hlt.le]
    have e2 : itiPhiB (r t) (some (d t)) = 1 - d t / √((r t) ^ 2 + (d t) ^ 2) := by
      simp [itiPhiB, dinf, not_lt.2 hlt.le]
    rw [e1, e2]
    refine (hasDerivAt_phi r d r' d' t hr hd h).congr_of_eventuallyEq ?_
    have : ∀ᶠ s in nhds t, d s < 100000 := hd.continuousAt.eventually_lt continuousAt_const hlt
    filter_upwards [this] with s hs
    simp [itiH, dinf, not_lt.2 hs.le, phiFB]
  · have e1 : itiPhiA (r t) (some (d t)) = 1 := by simp [itiPhiA, dinf, hgt]
    have e2 : itiPhiB (r t) (some (d t)) = 0 := by simp [itiPhiB, dinf, hgt]
    rw [e1, e2, one_mul, zero_mul, add_zero]
    refine hr.congr_of_eventuallyEq ?_
    have : ∀ᶠ s in nhds t, 100000 < d s := continuousAt_const.eventually_lt hd.continuousAt hgt
    filter_upwards [this] with s hs
    simp [itiH, dinf, hs]

/-- The slack is not at a kink: the bound is absent, or the pair (residual, slack) is not `(0,0)` and the
slack is not exactly at the threshold. -/
def NoKink (res : ℝ) (dx : Option ℝ) : Prop := ∀ d ∈ dx, (res ≠ 0 ∨ d ≠ 0) ∧ d ≠ 100000

private theorem hasDerivAt_itiH_lower (r x : ℝ → ℝ) (r' x' t : ℝ) (hr : HasDerivAt r r' t)
    (hx : HasDerivAt x x' t) (lb : Option ℝ) (h : NoKink (r t) (lb.map fun l => x t - l)) :
    HasDerivAt (fun s => itiH (r s) (lb.map fun l => x s - l))
      (itiPhiA (r t) (lb.map fun l => x t - l) * r' + itiPhiB (r t) (lb.map fun l => x t - l) * x') t := by
  cases lb with
  | none => simpa [itiH, dinf, itiPhiA, itiPhiB] using hr
  | some l =>
    obtain ⟨h1, h2⟩ := h (x t - l) rfl
    exact hasDerivAt_itiH r (fun s => x s - l) r' x' t hr (hx.sub_const l) h1 h2

private theorem hasDerivAt_itiH_upper (r x : ℝ → ℝ) (r' x' t : ℝ) (hr : HasDerivAt r r' t)
    (hx : HasDerivAt x x' t) (ub : Option ℝ) (h : NoKink (r t) (ub.map fun u => u - x t)) :
    HasDerivAt (fun s => itiH (r s) (ub.map fun u => u - x s))
      (itiPhiA (r t) (ub.map fun u => u - x t) * r'
        + itiPhiB (r t) (ub.map fun u => u - x t) * (-x')) t := by
  cases ub with
  | none => simpa [itiH, dinf, itiPhiA, itiPhiB] using hr
  | some u =>
    obtain ⟨h1, h2⟩ := h (u - x t) rfl
    exact hasDerivAt_itiH r (fun s => u - x s) r' (-x') t hr (hx.const_sub u) h1 h2

/-- **C21, improved time iteration, current controls.**  If `dres i j` is the derivative of residual `i` with
respect to control `j` (the residual being a function `R` of the controls), then the transformed `dres i j`
is the derivative of the transformed residual `i` with respect to control `j`, away from the kinks. -/
theorem C21_improved_time_iteration_dres {n : ℕ} (R : (Fin n → ℝ) → Fin n → ℝ)
    (dres jres : Fin n → Fin n → ℝ) (x : Fin n → ℝ) (lb ub : Fin n → Option ℝ) (i j : Fin n)
    (hR : HasDerivAt (fun s => R (Function.update x j s) i) (dres i j) (x j))
    (h1 : NoKink (R x i) ((lb i).map fun l => x i - l))
    (h2 : NoKink (-itiH (R x i) ((lb i).map fun l => x i - l)) ((ub i).map fun u => u - x i)) :
    HasDerivAt
      (fun s => (itiComplement ⟨R (Function.update x j s), dres, jres⟩ (Function.update x j s) lb ub).res i)
      ((itiComplement ⟨R x, dres, jres⟩ x lb ub).dres i j) (x j) := by
  have hx : HasDerivAt (fun s => Function.update x j s i) (if i = j then 1 else 0) (x j) := by
    by_cases hij : i = j
    · subst hij
      simpa using did (x i)
    · simpa [Function.update_of_ne hij, hij] using hasDerivAt_const (x j) (x i)
  have hself : Function.update x j (x j) = x := Function.update_eq_self j x
  have s1 := hasDerivAt_itiH_lower (fun s => R (Function.update x j s) i)
    (fun s => Function.update x j s i) _ _ (x j) hR hx (lb i) (by simpa [hself] using h1)
  have s2 := hasDerivAt_itiH_upper _ (fun s => Function.update x j s i) _ _ (x j) (dneg s1) hx (ub i)
    (by simpa [hself] using h2)
  have s3 := dneg s2
  simp only [hself] at s3
  simp only [itiComplement, itiNeg, itiSmooth]
  refine derivCongr s3 (fun s => rfl) ?_
  by_cases hij : i = j
  · simp [hij]
  · simp [hij]

/-- **C21, improved time iteration, future controls.**  If `jres i j` is the derivative of residual `i` along
some direction that leaves the current controls unchanged, so is the transformed one for the transformed
residual. -/
theorem C21_improved_time_iteration_jres {n : ℕ} (R : ℝ → Fin n → ℝ) (t : ℝ)
    (dres jres : Fin n → Fin n → ℝ) (x : Fin n → ℝ) (lb ub : Fin n → Option ℝ) (i j : Fin n)
    (hR : HasDerivAt (fun s => R s i) (jres i j) t)
    (h1 : NoKink (R t i) ((lb i).map fun l => x i - l))
    (h2 : NoKink (-itiH (R t i) ((lb i).map fun l => x i - l)) ((ub i).map fun u => u - x i)) :
    HasDerivAt (fun s => (itiComplement ⟨R s, dres, jres⟩ x lb ub).res i)
      ((itiComplement ⟨R t, dres, jres⟩ x lb ub).jres i j) t := by
  have hx : HasDerivAt (fun _ : ℝ => x i) 0 t := hasDerivAt_const t (x i)
  have s1 := hasDerivAt_itiH_lower (fun s => R s i) (fun _ => x i) _ _ t hR hx (lb i) h1
  have s2 := hasDerivAt_itiH_upper _ (fun _ => x i) _ _ t (dneg s1) hx (ub i) h2
  have s3 := dneg s2
  simp only [itiComplement, itiNeg, itiSmooth]
  refine derivCongr s3 (fun s => rfl) ?_
  ring

/-- Without the exclusion of the threshold the claim fails: at a slack of exactly `100000` the transformed
residual jumps, so it has no derivative there. -/
theorem C21_threshold_jump : itiH 1 (some 100000) ≠ 1 ∧ ∀ d > 100000, itiH 1 (some d) = 1 := by
  constructor
  · have : itiH 1 (some 100000) = phiFB 1 100000 := by
      simp [itiH, dinf, phiFB]
    rw [this]
    unfold phiFB
    intro h
    have h2 : √((1 : ℝ) ^ 2 + 100000 ^ 2) = 100000 := by linarith
    have h3 := Real.sq_sqrt (by norm_num : (0 : ℝ) ≤ 1 ^ 2 + 100000 ^ 2)
    rw [h2] at h3
    norm_num at h3
  · intro d hd
    simp [itiH, dinf, hd]

/-- The hypotheses of the derivative theorems at `F(x) = x`, `x = 1/2`, bounds `0` and `1`. -/
example : HasDerivAt (fun y : ℝ => smoothFB y y 0 1) (smoothFB' (1 / 2) (1 / 2) 0 1 1).2 (1 / 2) :=
  (C21_smooth_FB (fun y => y) (1 / 2) 0 1 1 (did _) (by norm_num) (by norm_num)).2

example : NoKink (1 : ℝ) ((some (0 : ℝ)).map fun l => (1 : ℝ) / 2 - l) := by
  intro d hd
  simp only [Option.map_some, Option.mem_def, Option.some.injEq] at hd
  subst hd
  norm_num

/-! ### C22: ncpsolve -/

private theorem mem_ncp {p : ℝ → Prop} [DecidablePred p] (a : Option ℝ) (l : ℝ)
    (h : l ∈ a.filter fun l => p l) : l ∈ a := by
  cases a with
  | none => simp at h
  | some v =>
    simp only [Option.mem_def, Option.filter_eq_some_iff] at h
    exact h.1

theorem ncp_eq (x fx : ℝ) (a b : Option ℝ) (hb : BoundsOK a b) :
    ncpFxnew x (ncpPval x fx a) b = 0 ↔ SolvesMCP (ncpLower a) (ncpUpper b) x (-fx) := by
  cases hu : ncpUpper b with
  | none =>
    have e : ncpFxnew x (ncpPval x fx a) b = ncpPval x fx a := by simp [ncpFxnew, hu]
    rw [e, ← neg_eq_zero, ← neg_eq_zero]
    apply two_sided (ncpLower a) none (by intro l _ u hu; simp at hu) x (-fx) (-ncpPval x fx a)
    · cases hl : ncpLower a with
      | none => left; simp [ncpPval, hl]
      | some l =>
        right
        refine ⟨l, rfl, ?_⟩
        simp only [ncpPval, hl, phiFB]
        have : (-fx) ^ 2 + (x - l) ^ 2 = fx ^ 2 + (l - x) ^ 2 := by ring
        rw [this]; ring
    · left; simp
  | some u =>
    have e : ncpFxnew x (ncpPval x fx a) b
        = ncpPval x fx a - √((ncpPval x fx a) ^ 2 + (u - x) ^ 2) + (u - x) := by simp [ncpFxnew, hu]
    rw [e]
    apply two_sided (ncpLower a) (some u) _ x (-fx) (-ncpPval x fx a)
    · cases hl : ncpLower a with
      | none => left; simp [ncpPval, hl]
      | some l =>
        right
        refine ⟨l, rfl, ?_⟩
        simp only [ncpPval, hl, phiFB]
        have : (-fx) ^ 2 + (x - l) ^ 2 = fx ^ 2 + (l - x) ^ 2 := by ring
        rw [this]; ring
    · right
      refine ⟨u, rfl, ?_⟩
      simp only [phiFB, neg_neg]
      ring
    · intro l hl u' hu'
      rw [← hu] at hu'
      exact hb l (mem_ncp a l hl) u' (mem_ncp b u' hu')

/-- **C22 (partial).**  With serial or sparse storage: the smoothed function that `ncpsolve` hands to Newton
vanishes at `z` exactly when every component solves `f ⟂ a ≤ z ≤ b` (bounds at or beyond `1e20` being treated
as absent). -/
theorem C22_ncpsolve_partial {n : ℕ} (f : (Fin n → ℝ) → (Fin n → ℝ) × (Fin n → Fin n → ℝ))
    (a b : Fin n → Option ℝ) (hb : ∀ i, BoundsOK (a i) (b i)) (jactype : JacType)
    (hj : jactype = .serial ∨ jactype = .sparse) (z : Fin n → ℝ) :
    (∀ i, (ncpFcmp f a b jactype z).1 i = 0) ↔
      ∀ i, SolvesMCP (ncpLower (a i)) (ncpUpper (b i)) (z i) ((f z).1 i) := by
  have e : ∀ i, (ncpFcmp f a b jactype z).1 i
      = ncpFxnew (z i) (ncpPval (z i) (-(f z).1 i) (a i)) (b i) := by
    intro i
    rcases hj with rfl | rfl <;> rfl
  apply forall_congr'
  intro i
  rw [e, ncp_eq _ _ _ _ (hb i), neg_neg]

/-- **C22 (partial), bounds.**  Bounds of modulus below `1e20` are the bounds of the problem solved; bounds at or
beyond `±1e20` are absent from it. -/
theorem C22_ncpsolve_bounds_partial {n : ℕ} (f : (Fin n → ℝ) → (Fin n → ℝ) × (Fin n → Fin n → ℝ))
    (a b : Fin n → Option ℝ) (hb : ∀ i, BoundsOK (a i) (b i)) (jactype : JacType)
    (hj : jactype = .serial ∨ jactype = .sparse) (z : Fin n → ℝ) :
    ((∀ i, ∀ l ∈ a i, -(10 ^ 20) < l) → (∀ i, ∀ u ∈ b i, u < 10 ^ 20) →
      ((∀ i, (ncpFcmp f a b jactype z).1 i = 0) ↔ ∀ i, SolvesMCP (a i) (b i) (z i) ((f z).1 i))) ∧
    ((∀ i, ∀ l ∈ a i, l ≤ -(10 ^ 20)) → (∀ i, ∀ u ∈ b i, 10 ^ 20 ≤ u) →
      ((∀ i, (ncpFcmp f a b jactype z).1 i = 0) ↔ ∀ i, SolvesMCP none none (z i) ((f z).1 i))) := by
  rw [C22_ncpsolve_partial f a b hb jactype hj z]
  constructor
  · intro h1 h2
    refine forall_congr' fun i => ?_
    have e1 : ncpLower (a i) = a i := by
      rcases ha : a i with _ | l
      · rfl
      · simp [ncpLower, Option.filter, h1 i l ha]
    have e2 : ncpUpper (b i) = b i := by
      rcases hb' : b i with _ | u
      · rfl
      · simp [ncpUpper, Option.filter, h2 i u hb']
    rw [e1, e2]
  · intro h1 h2
    refine forall_congr' fun i => ?_
    have e1 : ncpLower (a i) = none := by
      rcases ha : a i with _ | l
      · rfl
      · simp [ncpLower, Option.filter, h1 i l ha]
    have e2 : ncpUpper (b i) = none := by
      rcases hb' : b i with _ | u
      · rfl
      · simp [ncpUpper, Option.filter, h2 i u hb']
    rw [e1, e2]

/-- A finite bound above `1e10` is a bound of the problem: `f(z) = 1 - z` on `[0, 2e10]` is not solved at
`z = 3e10`. -/
example : ¬ ∀ i, (ncpFcmp (fun z : Fin 1 → ℝ => (fun i => 3 * 10 ^ 10 - z i, fun _ _ => -1)) (fun _ => some 0)
    (fun _ => some (2 * 10 ^ 10)) .serial (fun _ => 3 * 10 ^ 10)).1 i = 0 := by
  rw [(C22_ncpsolve_bounds_partial _ _ _ (by rintro i l ⟨⟩ u ⟨⟩; norm_num) _ (.inl rfl) _).1
    (by rintro i l ⟨⟩; norm_num) (by rintro i u ⟨⟩; norm_num)]
  intro h
  have := (h 0).2.1 _ rfl
  norm_num at this

/-- A case with a binding lower bound: `f(z) = z + 1` on `[0, ∞)` has the zero `z = 0` of the smoothed
function. -/
example : ∀ i, (ncpFcmp (fun z : Fin 1 → ℝ => (fun i => z i + 1, fun _ _ => 1)) (fun _ => some 0)
    (fun _ => none) .serial (fun _ => 0)).1 i = 0 := by
  rw [C22_ncpsolve_partial _ _ _ (by intro i l _ u hu; simp at hu) _ (.inl rfl)]
  intro i
  simp [SolvesMCP, ncpLower, ncpUpper, Option.filter]

/-- With the full storage the bounds are ignored: `z = -1` with `f(z) = z + 1 = 0` is accepted although the
lower bound is zero. -/
theorem C22_ncpsolve_full_fails :
    ∃ (f : (Fin 1 → ℝ) → (Fin 1 → ℝ) × (Fin 1 → Fin 1 → ℝ)) (a b : Fin 1 → Option ℝ) (z : Fin 1 → ℝ),
      (∀ i, BoundsOK (a i) (b i)) ∧ (∀ i, (ncpFcmp f a b .full z).1 i = 0) ∧
      ¬ ∀ i, SolvesMCP (ncpLower (a i)) (ncpUpper (b i)) (z i) ((f z).1 i) := by
  refine ⟨fun z => (fun i => z i + 1, fun _ _ => 1), fun _ => some 0, fun _ => none, fun _ => -1,
    ?_, ?_, ?_⟩
  · intro i l _ u hu; simp at hu
  · intro i; simp [ncpFcmp, ncpSmooth]
  · intro h
    have h0 := (h 0).1 0 (by simp [ncpLower])
    norm_num at h0

/-- **C22, Jacobian.**  With serial or sparse storage the Jacobian handed to Newton is the derivative of the
smoothed function, away from the kinks. -/
theorem C22_ncpsolve_jacobian_partial {n : ℕ} (f : (Fin n → ℝ) → (Fin n → ℝ) × (Fin n → Fin n → ℝ))
    (a b : Fin n → Option ℝ) (jactype : JacType) (hj : jactype = .serial ∨ jactype = .sparse)
    (z : Fin n → ℝ) (i j : Fin n)
    (hf : HasDerivAt (fun s => (f (Function.update z j s)).1 i) ((f z).2 i j) (z j))
    (h1 : ∀ l ∈ ncpLower (a i), (f z).1 i ≠ 0 ∨ l - z i ≠ 0)
    (h2 : ∀ u ∈ ncpUpper (b i), ncpPval (z i) (-(f z).1 i) (a i) ≠ 0 ∨ u - z i ≠ 0) :
    HasDerivAt (fun s => (ncpFcmp f a b jactype (Function.update z j s)).1 i)
      ((ncpFcmp f a b jactype z).2 i j) (z j) := by
  have hself : Function.update z j (z j) = z := Function.update_eq_self j z
  have hz : HasDerivAt (fun s => Function.update z j s i) (if i = j then 1 else 0) (z j) := by
    by_cases hij : i = j
    · subst hij
      simpa using did (z i)
    · simpa [Function.update_of_ne hij, hij] using hasDerivAt_const (z j) (z i)
  set δ : ℝ := if i = j then 1 else 0 with hδ
  have hval : ∀ y, (ncpFcmp f a b jactype y).1 i
      = ncpFxnew (y i) (ncpPval (y i) (-(f y).1 i) (a i)) (b i) := by
    intro y
    rcases hj with rfl | rfl <;> rfl
  have hjac : (ncpFcmp f a b jactype z).2 i j
      = (ncpDm (z i) (ncpPval (z i) (-(f z).1 i) (a i)) (b i)).1 *
          ((ncpDp (z i) (-(f z).1 i) (a i)).1 * (-(f z).2 i j)
            - (ncpDp (z i) (-(f z).1 i) (a i)).2 * δ)
        - (ncpDm (z i) (ncpPval (z i) (-(f z).1 i) (a i)) (b i)).2 * δ := by
    have e : (ncpFcmp f a b jactype z).2 i j
        = (ncpDm (z i) (ncpPval (z i) (-(f z).1 i) (a i)) (b i)).1
            * (ncpDp (z i) (-(f z).1 i) (a i)).1 * (-(f z).2 i j)
          - (if i = j then (ncpDm (z i) (ncpPval (z i) (-(f z).1 i) (a i)) (b i)).1
            * (ncpDp (z i) (-(f z).1 i) (a i)).2
            + (ncpDm (z i) (ncpPval (z i) (-(f z).1 i) (a i)) (b i)).2 else 0) := by
      rcases hj with rfl | rfl <;> rfl
    rw [e, hδ]
    split_ifs <;> ring
  -- first step
  have hp : HasDerivAt (fun s => ncpPval (Function.update z j s i)
      (-(f (Function.update z j s)).1 i) (a i))
      ((ncpDp (z i) (-(f z).1 i) (a i)).1 * (-(f z).2 i j)
        - (ncpDp (z i) (-(f z).1 i) (a i)).2 * δ) (z j) := by
    unfold ncpPval ncpDp
    cases hl : ncpLower (a i) with
    | none => simpa using (dneg hf)
    | some l =>
      have hd : HasDerivAt (fun s => l - Function.update z j s i) (-δ) (z j) := hz.const_sub l
      have hn := hasDerivAt_norm (fun s => -(f (Function.update z j s)).1 i)
        (fun s => l - Function.update z j s i) _ _ (z j) (dneg hf) hd (by
          rcases h1 l hl with h | h
          · left; simpa [hself] using h
          · right; simpa [hself] using h)
      have := dadd (dadd (dneg hf) hn) hd
      simp only [hself] at this
      refine derivCongr this (fun s => rfl) ?_
      simp only []
      ring
  simp only [hval, hjac]
  unfold ncpFxnew ncpDm
  cases hu : ncpUpper (b i) with
  | none => simpa using hp
  | some u =>
    have hd : HasDerivAt (fun s => u - Function.update z j s i) (-δ) (z j) := hz.const_sub u
    have hn := hasDerivAt_norm _ (fun s => u - Function.update z j s i) _ _ (z j) hp hd (by
          rcases h2 u hu with h | h
          · left; simpa [hself] using h
          · right; simpa [hself] using h)
    have := dadd (dsub hp hn) hd
    simp only [hself] at this
    refine derivCongr this (fun s => rfl) ?_
    simp only []
    ring

/-! ### C23: lmmcp -/

/-- The bounds are not exactly at `-1e10` / `1e10`, the value separating finite from infinite bounds. -/
def NotAtBig (lb ub : Option ℝ) : Prop := lb ≠ some (-(10 ^ 10 : ℝ)) ∧ ub ≠ some (10 ^ 10 : ℝ)

/-- The bounds lmmcp takes into account. -/
noncomputable def lmmcpEffLower (lb : Option ℝ) : Option ℝ := lb.filter fun l => l > -(10 ^ 10 : ℝ)
/-- The bounds lmmcp takes into account. -/
noncomputable def lmmcpEffUpper (ub : Option ℝ) : Option ℝ := ub.filter fun u => u < (10 ^ 10 : ℝ)

theorem phiU_eq (x F u : ℝ) : lmmcpPhiU x F u = -phiFB (-F) (u - x) := by
  unfold lmmcpPhiU phiFB
  have : (u - x) ^ 2 + F ^ 2 = (-F) ^ 2 + (u - x) ^ 2 := by ring
  rw [this]; ring

private theorem entry1 (x F l u lam1 lam2 : ℝ) (h1 : lam1 ≠ 0) :
    lmmcpPhiEntry x F l u lam1 lam2 1 = (0, 0) ↔ SolvesMCP (some l) none x F := by
  have e : lmmcpPhiEntry x F l u lam1 lam2 1
      = (-(lam1 * phiFB F (x - l)), lam2 * max 0 (x - l) * max 0 F) := by
    simp only [lmmcpPhiEntry, phiFB, if_true]
    have : (x - l) ^ 2 + F ^ 2 = F ^ 2 + (x - l) ^ 2 := by ring
    rw [this]
    congr 1
    ring
  rw [e, Prod.mk.injEq]
  have key : phiFB F (x - l) = 0 ↔ SolvesMCP (some l) none x F := by
    rw [← neg_eq_zero]
    exact two_sided (some l) none (by intro _ _ u hu; simp at hu) x F (phiFB F (x - l)) _
      (.inr ⟨l, rfl, rfl⟩) (.inl ⟨rfl, by simp⟩)
  rw [← key]
  constructor
  · rintro ⟨h, -⟩
    have := neg_eq_zero.1 h
    exact (mul_eq_zero.1 this).resolve_left h1
  · intro h
    refine ⟨by rw [h]; ring, ?_⟩
    obtain ⟨a1, a2, a3⟩ := (C19_fischer_burmeister _ _).1 h
    rw [max_eq_right a1, max_eq_right a2, mul_assoc, mul_comm (x - l) F, a3, mul_zero]

private theorem entry2 (x F l u lam1 lam2 : ℝ) (h1 : lam1 ≠ 0) :
    lmmcpPhiEntry x F l u lam1 lam2 2 = (0, 0) ↔ SolvesMCP none (some u) x F := by
  have e : lmmcpPhiEntry x F l u lam1 lam2 2
      = (lam1 * phiFB (-F) (u - x), lam2 * max 0 (u - x) * max 0 (-F)) := by
    simp only [lmmcpPhiEntry, phiU_eq]
    norm_num
  rw [e, Prod.mk.injEq]
  have key : phiFB (-F) (u - x) = 0 ↔ SolvesMCP none (some u) x F :=
    two_sided none (some u) (by intro l hl; simp at hl) x F F _
      (.inl ⟨rfl, by simp⟩) (.inr ⟨u, rfl, rfl⟩)
  rw [← key]
  constructor
  · rintro ⟨h, -⟩
    exact (mul_eq_zero.1 h).resolve_left h1
  · intro h
    refine ⟨by rw [h]; ring, ?_⟩
    obtain ⟨a1, a2, a3⟩ := (C19_fischer_burmeister _ _).1 h
    rw [max_eq_right a1, max_eq_right a2, mul_assoc, mul_comm (u - x) (-F), a3, mul_zero]

private theorem entry3 (x F l u lam1 lam2 : ℝ) (h1 : lam1 ≠ 0) (hlu : l ≤ u) :
    lmmcpPhiEntry x F l u lam1 lam2 3 = (0, 0) ↔ SolvesMCP (some l) (some u) x F := by
  have e : lmmcpPhiEntry x F l u lam1 lam2 3
      = (-(lam1 * phiFB (-phiFB (-F) (u - x)) (x - l)),
        lam2 * (max 0 (x - l) * max 0 F + max 0 (u - x) * max 0 (-F))) := by
    simp only [lmmcpPhiEntry, phiU_eq]
    norm_num
    unfold phiFB
    have : ∀ p : ℝ, (x - l) ^ 2 + p ^ 2 = p ^ 2 + (x - l) ^ 2 := by intro p; ring
    rw [this]
    ring_nf
  rw [e, Prod.mk.injEq]
  -- mirrored problem: -x with bounds -u, -l and function -F
  have key : phiFB (-phiFB (-F) (u - x)) (x - l) = 0 ↔ SolvesMCP (some l) (some u) x F := by
    have h := C20_smooth_FB (-F) (-x) (-u) (-l) (by linarith)
    unfold smoothFB at h
    have e1 : -x - -u = u - x := by ring
    have e2 : -l - -x = x - l := by ring
    rw [e1, e2] at h
    rw [h]
    unfold SolvesMCP
    simp only [Option.mem_def, Option.some.injEq, forall_eq', neg_le_neg_iff, neg_inj]
    constructor
    · rintro ⟨a, b, c, d⟩
      exact ⟨b, a, fun h => d (by linarith), fun h => c (by linarith)⟩
    · rintro ⟨a, b, c, d⟩
      exact ⟨b, a, fun h => d (by linarith), fun h => c (by linarith)⟩
  rw [← key]
  constructor
  · rintro ⟨h, -⟩
    exact (mul_eq_zero.1 (neg_eq_zero.1 h)).resolve_left h1
  · intro h
    refine ⟨by rw [h]; ring, ?_⟩
    obtain ⟨a1, a2, a3, a4⟩ := key.1 h
    have b1 : max 0 (x - l) * max 0 F = 0 := by
      rcases le_or_gt F 0 with hF | hF
      · rw [max_eq_left hF, mul_zero]
      · have := a3 hF
        simp only [Option.some.injEq] at this
        rw [this]; simp
    have b2 : max 0 (u - x) * max 0 (-F) = 0 := by
      rcases le_or_gt 0 F with hF | hF
      · rw [max_eq_left (by linarith : -F ≤ 0), mul_zero]
      · have := a4 hF
        simp only [Option.some.injEq] at this
        rw [this]; simp
    rw [b1, b2]; ring

private theorem entry0 (x F l u lam1 lam2 : ℝ) (h1 : lam1 ≠ 0) :
    lmmcpPhiEntry x F l u lam1 lam2 0 = (0, 0) ↔ SolvesMCP none none x F := by
  have e : lmmcpPhiEntry x F l u lam1 lam2 0 = (-lam1 * F, -lam2 * F) := by
    simp [lmmcpPhiEntry]
  rw [e, Prod.mk.injEq]
  simp only [SolvesMCP, Option.mem_def, reduceCtorEq, false_imp_iff, implies_true, true_and, imp_false,
    not_lt]
  constructor
  · rintro ⟨h, -⟩
    have : F = 0 := (mul_eq_zero.1 h).resolve_left (neg_ne_zero.2 h1)
    exact ⟨this.le, this.ge⟩
  · rintro ⟨h, h'⟩
    have : F = 0 := le_antisymm h h'
    rw [this]; simp

/-- **C23 (partial).**  For bounds not exactly equal to `±1e10`, the pair of residuals of an index is zero
exactly when the index satisfies the complementarity condition of its (effective) bounds. -/
theorem C23_lmmcp_partial (x F : ℝ) (lb ub : Option ℝ) (hb : BoundsOK lb ub) (hbig : NotAtBig lb ub)
    (lam1 lam2 : ℝ) (h1 : lam1 ≠ 0) :
    lmmcpPhi x F lb ub lam1 lam2 = (0, 0) ↔
      SolvesMCP (lmmcpEffLower lb) (lmmcpEffUpper ub) x F := by
  unfold lmmcpPhi lmmcpEffLower lmmcpEffUpper
  cases lb with
  | none =>
    cases ub with
    | none =>
      have : lmmcpIndex none none = 0 := by simp [lmmcpIndex]
      rw [this]
      simpa using entry0 x F 0 0 lam1 lam2 h1
    | some u =>
      by_cases hu : u < 10 ^ 10
      · have : lmmcpIndex none (some u) = 2 := by simp [lmmcpIndex, hu]
        rw [this]
        simpa [hu, Option.filter] using entry2 x F 0 u lam1 lam2 h1
      · have : lmmcpIndex none (some u) = 0 := by simp [lmmcpIndex, hu]
        rw [this]
        simpa [hu, Option.filter] using entry0 x F 0 u lam1 lam2 h1
  | some l =>
    by_cases hl : l > -(10 ^ 10 : ℝ)
    · cases ub with
      | none =>
        have : lmmcpIndex (some l) none = 1 := by simp [lmmcpIndex, hl]
        rw [this]
        have hf : (some l).filter (fun l => l > -(10 ^ 10 : ℝ)) = some l := by simp [Option.filter, hl]
        rw [hf]
        simpa using entry1 x F l 0 lam1 lam2 h1
      | some u =>
        have hf : (some l).filter (fun l => l > -(10 ^ 10 : ℝ)) = some l := by simp [Option.filter, hl]
        rw [hf]
        by_cases hu : u < 10 ^ 10
        · have : lmmcpIndex (some l) (some u) = 3 := by simp [lmmcpIndex, hu, hl]
          rw [this]
          have hfu : (some u).filter (fun u => u < (10 ^ 10 : ℝ)) = some u := by
            simp [Option.filter, hu]
          rw [hfu]
          exact entry3 x F l u lam1 lam2 h1 (hb l rfl u rfl)
        · have hne : u ≠ 10 ^ 10 := fun h => hbig.2 (by rw [h])
          have hgt : u > 10 ^ 10 := lt_of_le_of_ne (not_lt.1 hu) hne.symm
          have : lmmcpIndex (some l) (some u) = 1 := by simp [lmmcpIndex, hu, hl, hgt]
          rw [this]
          have hfu : (some u).filter (fun u => u < (10 ^ 10 : ℝ)) = none := by
            simp [Option.filter, hu]
          rw [hfu]
          exact entry1 x F l u lam1 lam2 h1
    · have hne : l ≠ -(10 ^ 10) := fun h => hbig.1 (by rw [h])
      have hlt : l < -(10 ^ 10 : ℝ) := lt_of_le_of_ne (not_lt.1 hl) hne
      have hf : (some l).filter (fun l => l > -(10 ^ 10 : ℝ)) = none := by simp [Option.filter, hl]
      rw [hf]
      cases ub with
      | none =>
        have : lmmcpIndex (some l) none = 0 := by simp [lmmcpIndex, hl]
        rw [this]
        simpa using entry0 x F l 0 lam1 lam2 h1
      | some u =>
        by_cases hu : u < 10 ^ 10
        · have : lmmcpIndex (some l) (some u) = 2 := by simp [lmmcpIndex, hu, hl, hlt]
          rw [this]
          have hfu : (some u).filter (fun u => u < (10 ^ 10 : ℝ)) = some u := by
            simp [Option.filter, hu]
          rw [hfu]
          exact entry2 x F l u lam1 lam2 h1
        · have : lmmcpIndex (some l) (some u) = 0 := by simp [lmmcpIndex, hu, hl]
          rw [this]
          have hfu : (some u).filter (fun u => u < (10 ^ 10 : ℝ)) = none := by
            simp [Option.filter, hu]
          rw [hfu]
          exact entry0 x F l u lam1 lam2 h1

/-- `x = 1` at the upper bound of `[0, 1]` with a negative function value. -/
example : lmmcpPhi 1 (-2) (some 0) (some 1) (1 / 10) (9 / 10) = (0, 0) := by
  rw [C23_lmmcp_partial _ _ _ _ _ _ _ _ (by norm_num)]
  · simp [SolvesMCP, lmmcpEffLower, lmmcpEffUpper, Option.filter]
    norm_num
  · intro l hl u hu
    simp only [Option.mem_def, Option.some.injEq] at hl hu
    subst hl hu
    norm_num
  · constructor <;> norm_num

/-- With an upper bound equal to `1e10` the lower bound is dropped: `x = -1` and `F = 0` is accepted for
`0 ≤ x ≤ 1e10`. -/
theorem C23_lmmcp_big_fails :
    ∃ (x F : ℝ) (lb ub : Option ℝ) , BoundsOK lb ub ∧
      (∀ lam1 lam2, lmmcpPhi x F lb ub lam1 lam2 = (0, 0)) ∧ ¬ SolvesMCP lb ub x F := by
  refine ⟨-1, 0, some 0, some (10 ^ 10), ?_, ?_, ?_⟩
  · intro l hl u hu
    simp only [Option.mem_def, Option.some.injEq] at hl hu
    subst hl hu
    norm_num
  · intro lam1 lam2
    have : lmmcpIndex (some 0) (some (10 ^ 10)) = 0 := by
      simp [lmmcpIndex]
    simp [lmmcpPhi, this, lmmcpPhiEntry]
  · intro h
    have := h.1 0 rfl
    norm_num at this

/-! ### C70: lmmcp's Jacobian -/

/-- **C70, first block.**  Where the arguments of the square roots are not small, the first block of the
matrix is the derivative of the first block of residuals: along any differentiable point and function value,
`d y_i = lambda1 (Da dx_i + Db dF_i)`. -/
theorem C70_lmmcp_first_block (X F : ℝ → ℝ) (x' F' t l u lam1 lam2 : ℝ) (hX : HasDerivAt X x' t)
    (hF : HasDerivAt F F' t) (k : ℕ) (hk : k ≤ 3)
    (h1 : k = 1 → 1 / 10 ^ 8 ≤ √((X t - l) ^ 2 + F t ^ 2))
    (h2 : k = 2 ∨ k = 3 → 1 / 10 ^ 8 ≤ √((u - X t) ^ 2 + F t ^ 2))
    (h3 : k = 3 → 1 / 10 ^ 8 ≤ √((X t - l) ^ 2 + (lmmcpPhiU (X t) (F t) u) ^ 2)) :
    HasDerivAt (fun s => (lmmcpPhiEntry (X s) (F s) l u lam1 lam2 k).1)
      (lam1 * ((lmmcpD1 (X t) (F t) l u k).1 * x' + (lmmcpD1 (X t) (F t) l u k).2 * F')) t := by
  have pos : ∀ {a b : ℝ}, 1 / 10 ^ 8 ≤ √(a ^ 2 + b ^ 2) → a ≠ 0 ∨ b ≠ 0 := by
    intro a b h
    by_contra hc
    push Not at hc
    rw [hc.1, hc.2] at h
    norm_num at h
  have hl : HasDerivAt (fun s => X s - l) x' t := hX.sub_const l
  have hu : HasDerivAt (fun s => u - X s) (-x') t := hX.const_sub u
  interval_cases k
  · simp only [lmmcpPhiEntry, lmmcpD1]
    norm_num
    exact dneg (dcmul lam1 hF)
  · have hn := hasDerivAt_norm _ _ _ _ t hl hF (pos (h1 rfl))
    simp only [lmmcpPhiEntry, lmmcpD1]
    norm_num only [if_true, if_false]
    have hm : max (1 / 100000000 : ℝ) (√((X t - l) ^ 2 + F t ^ 2)) = √((X t - l) ^ 2 + F t ^ 2) := by
      apply max_eq_right; have := h1 rfl; norm_num at this; linarith
    rw [hm]
    have := dcmul lam1 (dadd (dsub (dadd (dneg hX) (hasDerivAt_const t l)) hF) hn)
    refine derivCongr this (fun s => rfl) ?_
    ring
  · have hn := hasDerivAt_norm _ _ _ _ t hu hF (pos (h2 (.inl rfl)))
    simp only [lmmcpPhiEntry, lmmcpD1, lmmcpPhiU]
    norm_num only [if_true, if_false]
    have hm : max (1 / 100000000 : ℝ) (√((u - X t) ^ 2 + F t ^ 2)) = √((u - X t) ^ 2 + F t ^ 2) := by
      apply max_eq_right; have := h2 (.inl rfl); norm_num at this; linarith
    rw [hm]
    have := dcmul (-lam1) (dadd (dadd (dsub hn (hasDerivAt_const t u)) hX) hF)
    refine derivCongr this (fun s => rfl) ?_
    ring
  · have hn := hasDerivAt_norm _ _ _ _ t hu hF (pos (h2 (.inr rfl)))
    have hp : HasDerivAt (fun s => lmmcpPhiU (X s) (F s) u)
        (((X t - u) / √((u - X t) ^ 2 + F t ^ 2) + 1) * x'
          + (F t / √((u - X t) ^ 2 + F t ^ 2) + 1) * F') t := by
      have := dadd (dadd (dsub hn (hasDerivAt_const t u)) hX) hF
      refine derivCongr this (fun s => rfl) ?_
      ring
    have hn2 := hasDerivAt_norm _ _ _ _ t hl hp (pos (h3 rfl))
    have hphi : -u + X t + F t + √((u - X t) ^ 2 + F t ^ 2) = lmmcpPhiU (X t) (F t) u := by
      unfold lmmcpPhiU; ring
    have hm : max (1 / 10 ^ 8 : ℝ) (√((u - X t) ^ 2 + F t ^ 2)) = √((u - X t) ^ 2 + F t ^ 2) :=
      max_eq_right (h2 (.inr rfl))
    have hm2 : max (1 / 10 ^ 8 : ℝ) (√((X t - l) ^ 2 + (lmmcpPhiU (X t) (F t) u) ^ 2))
        = √((X t - l) ^ 2 + (lmmcpPhiU (X t) (F t) u) ^ 2) := max_eq_right (h3 rfl)
    simp only [lmmcpPhiEntry, lmmcpD1, hphi, hm, hm2]
    norm_num only [if_true, if_false]
    have := dcmul lam1 (dsub (dadd (dsub hn2 hX) (hasDerivAt_const t l)) hp)
    refine derivCongr this (fun s => rfl) ?_
    ring

private theorem hasDerivAt_maxprod_pos (A B : ℝ → ℝ) (a' b' t : ℝ) (hA : HasDerivAt A a' t)
    (hB : HasDerivAt B b' t) (h1 : 0 < A t) (h2 : 0 < B t) :
    HasDerivAt (fun s => max 0 (A s) * max 0 (B s)) (a' * B t + A t * b') t := by
  refine (hA.mul hB).congr_of_eventuallyEq ?_
  have e1 : ∀ᶠ s in nhds t, 0 < A s := continuousAt_const.eventually_lt hA.continuousAt h1
  have e2 : ∀ᶠ s in nhds t, 0 < B s := continuousAt_const.eventually_lt hB.continuousAt h2
  filter_upwards [e1, e2] with s hs1 hs2
  simp [max_eq_right hs1.le, max_eq_right hs2.le]

private theorem hasDerivAt_maxprod_neg (A B : ℝ → ℝ) (a' b' t : ℝ) (hA : HasDerivAt A a' t)
    (hB : HasDerivAt B b' t) (h : A t < 0 ∨ B t < 0) :
    HasDerivAt (fun s => max 0 (A s) * max 0 (B s)) 0 t := by
  refine (hasDerivAt_const t (0 : ℝ)).congr_of_eventuallyEq ?_
  rcases h with h | h
  · have e1 : ∀ᶠ s in nhds t, A s < 0 := hA.continuousAt.eventually_lt continuousAt_const h
    filter_upwards [e1] with s hs
    simp [max_eq_left hs.le]
  · have e1 : ∀ᶠ s in nhds t, B s < 0 := hB.continuousAt.eventually_lt continuousAt_const h
    filter_upwards [e1] with s hs
    simp [max_eq_left hs.le]

/-- `v` is away from zero by more than the tolerance `null`. -/
def Clear (v : ℝ) : Prop := 1 / 10 ^ 8 < |v|

/-- **C70, second block.**  Where the slacks of the bounds in use and the function value are further from
zero than the tolerance, the second block of the matrix is the derivative of the second block of residuals. -/
theorem C70_lmmcp_second_block (X F : ℝ → ℝ) (x' F' t l u lam1 lam2 : ℝ) (hX : HasDerivAt X x' t)
    (hF : HasDerivAt F F' t) (k : ℕ) (hk : k ≤ 3)
    (hl : k = 1 ∨ k = 3 → Clear (X t - l)) (hu : k = 2 ∨ k = 3 → Clear (u - X t))
    (hc : k ≠ 0 → Clear (F t)) :
    HasDerivAt (fun s => (lmmcpPhiEntry (X s) (F s) l u lam1 lam2 k).2)
      (lam2 * ((lmmcpD2 (X t) (F t) l u k).1 * x' + (lmmcpD2 (X t) (F t) l u k).2 * F')) t := by
  have hnull : (0 : ℝ) < 1 / 10 ^ 8 := by norm_num
  have clear_ge : ∀ v : ℝ, Clear v → (v ≥ -(1 / 10 ^ 8) ↔ 0 < v) := by
    intro v hv
    unfold Clear at hv
    rcases lt_abs.1 hv with h | h
    · constructor <;> intro <;> linarith
    · constructor <;> intro <;> linarith
  have clear_le : ∀ v : ℝ, Clear v → (v ≤ (1 / 10 ^ 8) ↔ v < 0) := by
    intro v hv
    unfold Clear at hv
    rcases lt_abs.1 hv with h | h
    · constructor <;> intro <;> linarith
    · constructor <;> intro <;> linarith
  have clear_ne : ∀ v : ℝ, Clear v → ¬ 0 < v → v < 0 := by
    intro v hv h
    unfold Clear at hv
    rcases lt_abs.1 hv with h' | h' <;> linarith
  have dl : HasDerivAt (fun s => X s - l) x' t := hX.sub_const l
  have du : HasDerivAt (fun s => u - X s) (-x') t := hX.const_sub u
  -- derivative of the two products
  have low : Clear (X t - l) → Clear (F t) →
      HasDerivAt (fun s => max 0 (X s - l) * max 0 (F s))
        (if 0 < X t - l ∧ 0 < F t then F t * x' + (X t - l) * F' else 0) t := by
    intro c1 c2
    split_ifs with h
    · have := hasDerivAt_maxprod_pos _ _ _ _ t dl hF h.1 h.2
      refine derivCongr this (fun s => rfl) ?_
      ring
    · apply hasDerivAt_maxprod_neg _ _ _ _ t dl hF
      by_cases h1 : 0 < X t - l
      · right; exact clear_ne _ c2 (fun h2 => h ⟨h1, h2⟩)
      · left; exact clear_ne _ c1 h1
  have up : Clear (u - X t) → Clear (F t) →
      HasDerivAt (fun s => max 0 (u - X s) * max 0 (-F s))
        (if 0 < u - X t ∧ F t < 0 then F t * x' + (X t - u) * F' else 0) t := by
    intro c1 c2
    split_ifs with h
    · have := hasDerivAt_maxprod_pos _ _ _ _ t du (dneg hF) h.1 (by linarith [h.2])
      refine derivCongr this (fun s => rfl) ?_
      ring
    · apply hasDerivAt_maxprod_neg _ _ _ _ t du (dneg hF)
      by_cases h1 : 0 < u - X t
      · right
        have h2 : ¬ F t < 0 := fun h2 => h ⟨h1, h2⟩
        have : 0 < F t := by
          by_contra h3
          exact h2 (clear_ne _ c2 h3)
        simpa using this
      · left; exact clear_ne _ c1 h1
  interval_cases k
  · simp only [lmmcpPhiEntry, lmmcpD2]
    norm_num
    exact dneg (dcmul lam2 hF)
  · have c1 := hl (.inl rfl)
    have c2 := hc (by norm_num)
    have := dcmul lam2 (low c1 c2)
    simp only [lmmcpPhiEntry, lmmcpD2, clear_ge _ c1, clear_ge _ c2]
    norm_num only [if_true, if_false]
    simp only [mul_assoc] at this ⊢
    refine derivCongr this (fun s => rfl) ?_
    split_ifs <;> simp
  · have c1 := hu (.inl rfl)
    have c2 := hc (by norm_num)
    have := dcmul lam2 (up c1 c2)
    simp only [lmmcpPhiEntry, lmmcpD2, clear_ge _ c1, clear_le _ c2]
    norm_num only [if_true, if_false]
    simp only [mul_assoc] at this ⊢
    refine derivCongr this (fun s => rfl) ?_
    split_ifs <;> simp
  · have c1 := hl (.inr rfl)
    have c1' := hu (.inr rfl)
    have c2 := hc (by norm_num)
    have := dcmul lam2 (dadd (low c1 c2) (up c1' c2))
    simp only [lmmcpPhiEntry, lmmcpD2, clear_ge _ c1, clear_ge _ c1', clear_ge _ c2, clear_le _ c2]
    norm_num only [if_true, if_false]
    refine derivCongr this (fun s => rfl) ?_
    have hex : ¬ ((0 < X t - l ∧ 0 < F t) ∧ 0 < u - X t ∧ F t < 0) := by
      rintro ⟨⟨-, h1⟩, -, h2⟩; linarith
    rw [if_neg hex]
    by_cases a1 : 0 < X t - l ∧ 0 < F t
    · have a2 : ¬ (0 < u - X t ∧ F t < 0) := fun h => hex ⟨a1, h⟩
      simp only [if_pos a1, if_neg a2, add_zero]
    · by_cases a2 : 0 < u - X t ∧ F t < 0
      · simp only [if_neg a1, if_pos a2, zero_add]
      · simp only [if_neg a1, if_neg a2, add_zero, zero_mul]

/-- A point where the hypotheses of both blocks hold: `x = 1/2` in `[0, 1]`, `F = 1`. -/
example : Clear ((1 : ℝ) / 2 - 0) ∧ Clear ((1 : ℝ) - 1 / 2) ∧ Clear (1 : ℝ) := by
  unfold Clear
  refine ⟨?_, ?_, ?_⟩ <;> norm_num [abs_of_pos]

end Dolo
