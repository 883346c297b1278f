import Mathlib.Analysis.SpecialFunctions.Sqrt
import Mathlib.Analysis.Calculus.ContDiff.Operations
import Mathlib.Analysis.Calculus.FDeriv.Mul
import Mathlib.Analysis.Calculus.FDeriv.Pow
import Verif.Props.Complementarity

/-!
# Calculus of the smoothed residual, for functions of several variables

Auxiliary facts for `Verif.Props.ItiConv`.
-/

namespace Dolo

open Filter Topology

variable {Z : Type} [NormedAddCommGroup Z] [NormedSpace ℝ Z]

private theorem sq_pos' {a d : ℝ} (h : a ≠ 0 ∨ d ≠ 0) : 0 < a ^ 2 + d ^ 2 := by
  rcases h with h | h <;> positivity

private theorem itiH_low {a d : ℝ} (h : d < 100000) : itiH a (some d) = a + d - √(a ^ 2 + d ^ 2) := by
  simp [itiH, dinf, not_lt.2 h.le]

private theorem itiH_high {a d : ℝ} (h : 100000 < d) : itiH a (some d) = a := by
  simp [itiH, dinf, h]

private theorem itiH_fderiv {a d : Z → ℝ} {a' d' : Z →L[ℝ] ℝ} {z : Z} (ha : HasFDerivAt a a' z)
    (hd : HasFDerivAt d d' z) (h : a z ≠ 0 ∨ d z ≠ 0) (hthr : d z ≠ 100000) :
    HasFDerivAt (fun z => itiH (a z) (some (d z)))
      (itiPhiA (a z) (some (d z)) • a' + itiPhiB (a z) (some (d z)) • d') z := by
  rcases lt_or_gt_of_ne hthr with hlt | hgt
  · have e1 : itiPhiA (a z) (some (d z)) = 1 - a z / √((a z) ^ 2 + (d z) ^ 2) := by
      simp [itiPhiA, dinf, not_lt.2 hlt.le]
    have e2 : itiPhiB (a z) (some (d z)) = 1 - d z / √((a z) ^ 2 + (d z) ^ 2) := by
      simp [itiPhiB, dinf, not_lt.2 hlt.le]
    have hpos := sq_pos' h
    have hs := ((ha.pow 2).add (hd.pow 2)).sqrt hpos.ne'
    have h1 := (ha.add hd).sub hs
    rw [e1, e2]
    refine (h1.congr_of_eventuallyEq ?_).congr_fderiv ?_
    · have : ∀ᶠ s in 𝓝 z, d s < 100000 := hd.continuousAt.eventually_lt continuousAt_const hlt
      filter_upwards [this] with s hs
      exact itiH_low hs
    · have hsq : √((a z) ^ 2 + (d z) ^ 2) ≠ 0 := (Real.sqrt_pos.2 hpos).ne'
      ext v
      simp
      field_simp
      ring
  · have e1 : itiPhiA (a z) (some (d z)) = 1 := by simp [itiPhiA, dinf, hgt]
    have e2 : itiPhiB (a z) (some (d z)) = 0 := by simp [itiPhiB, dinf, hgt]
    rw [e1, e2, one_smul, zero_smul, add_zero]
    refine ha.congr_of_eventuallyEq ?_
    have : ∀ᶠ s in 𝓝 z, 100000 < d s := continuousAt_const.eventually_lt hd.continuousAt hgt
    filter_upwards [this] with s hs
    exact itiH_high hs

private theorem itiH_contDiff {a d : Z → ℝ} {z : Z} (ha : ContDiffAt ℝ 1 a z) (hd : ContDiffAt ℝ 1 d z)
    (h : a z ≠ 0 ∨ d z ≠ 0) (hthr : d z ≠ 100000) : ContDiffAt ℝ 1 (fun z => itiH (a z) (some (d z))) z := by
  rcases lt_or_gt_of_ne hthr with hlt | hgt
  · have hpos := sq_pos' h
    have h1 : ContDiffAt ℝ 1 (fun z => a z + d z - √((a z) ^ 2 + (d z) ^ 2)) z :=
      (ha.add hd).sub (((ha.pow 2).add (hd.pow 2)).sqrt hpos.ne')
    refine h1.congr_of_eventuallyEq ?_
    have : ∀ᶠ s in 𝓝 z, d s < 100000 := hd.continuousAt.eventually_lt continuousAt_const hlt
    filter_upwards [this] with s hs
    exact itiH_low hs
  · refine ha.congr_of_eventuallyEq ?_
    have : ∀ᶠ s in 𝓝 z, 100000 < d s := continuousAt_const.eventually_lt hd.continuousAt hgt
    filter_upwards [this] with s hs
    exact itiH_high hs

/-- The smoothed residual of one equation: `a` the residual, `x` the control. -/
noncomputable def smooth2 (lb ub : Option ℝ) (a x : ℝ) : ℝ :=
  -itiH (-itiH a (lb.map fun l => x - l)) (ub.map fun u => u - x)

/-- Its derivative with respect to the residual. -/
noncomputable def smooth2A (lb ub : Option ℝ) (a x : ℝ) : ℝ :=
  itiPhiA (-itiH a (lb.map fun l => x - l)) (ub.map fun u => u - x) * itiPhiA a (lb.map fun l => x - l)

/-- Its derivative with respect to the control. -/
noncomputable def smooth2B (lb ub : Option ℝ) (a x : ℝ) : ℝ :=
  itiPhiA (-itiH a (lb.map fun l => x - l)) (ub.map fun u => u - x) * itiPhiB a (lb.map fun l => x - l)
    + itiPhiB (-itiH a (lb.map fun l => x - l)) (ub.map fun u => u - x)

/-- No kink at either bound. -/
def NoKink2 (lb ub : Option ℝ) (a x : ℝ) : Prop :=
  NoKink a (lb.map fun l => x - l) ∧ NoKink (-itiH a (lb.map fun l => x - l)) (ub.map fun u => u - x)

private theorem lower_fderiv {a x : Z → ℝ} {a' x' : Z →L[ℝ] ℝ} {z : Z} (ha : HasFDerivAt a a' z)
    (hx : HasFDerivAt x x' z) (lb : Option ℝ) (h : NoKink (a z) (lb.map fun l => x z - l)) :
    HasFDerivAt (fun z => itiH (a z) (lb.map fun l => x z - l))
      (itiPhiA (a z) (lb.map fun l => x z - l) • a' + itiPhiB (a z) (lb.map fun l => x z - l) • x') z := by
  cases lb with
  | none => simpa [itiH, dinf, itiPhiA, itiPhiB] using ha
  | some l =>
    obtain ⟨h1, h2⟩ := h (x z - l) rfl
    exact itiH_fderiv ha (hx.sub_const l) h1 h2

private theorem upper_fderiv {a x : Z → ℝ} {a' x' : Z →L[ℝ] ℝ} {z : Z} (ha : HasFDerivAt a a' z)
    (hx : HasFDerivAt x x' z) (ub : Option ℝ) (h : NoKink (a z) (ub.map fun u => u - x z)) :
    HasFDerivAt (fun z => itiH (a z) (ub.map fun u => u - x z))
      (itiPhiA (a z) (ub.map fun u => u - x z) • a' - itiPhiB (a z) (ub.map fun u => u - x z) • x') z := by
  cases ub with
  | none => simpa [itiH, dinf, itiPhiA, itiPhiB] using ha
  | some u =>
    obtain ⟨h1, h2⟩ := h (u - x z) rfl
    refine (itiH_fderiv ha (hx.const_sub u) h1 h2).congr_fderiv ?_
    simp only [Option.map_some, smul_neg, sub_eq_add_neg]

theorem smooth2_fderiv {a x : Z → ℝ} {a' x' : Z →L[ℝ] ℝ} {z : Z} (ha : HasFDerivAt a a' z)
    (hx : HasFDerivAt x x' z) (lb ub : Option ℝ) (h : NoKink2 lb ub (a z) (x z)) :
    HasFDerivAt (fun z => smooth2 lb ub (a z) (x z))
      (smooth2A lb ub (a z) (x z) • a' + smooth2B lb ub (a z) (x z) • x') z := by
  have h1 := (lower_fderiv ha hx lb h.1).neg
  have h2 := (upper_fderiv h1 hx ub h.2).neg
  refine h2.congr_fderiv ?_
  ext v
  simp [smooth2A, smooth2B]
  ring

private theorem lower_contDiff {a x : Z → ℝ} {z : Z} (ha : ContDiffAt ℝ 1 a z)
    (hx : ContDiffAt ℝ 1 x z) (lb : Option ℝ) (h : NoKink (a z) (lb.map fun l => x z - l)) :
    ContDiffAt ℝ 1 (fun z => itiH (a z) (lb.map fun l => x z - l)) z := by
  cases lb with
  | none => simpa [itiH, dinf] using ha
  | some l =>
    obtain ⟨h1, h2⟩ := h (x z - l) rfl
    exact itiH_contDiff ha (hx.sub contDiffAt_const) h1 h2

private theorem upper_contDiff {a x : Z → ℝ} {z : Z} (ha : ContDiffAt ℝ 1 a z)
    (hx : ContDiffAt ℝ 1 x z) (ub : Option ℝ) (h : NoKink (a z) (ub.map fun u => u - x z)) :
    ContDiffAt ℝ 1 (fun z => itiH (a z) (ub.map fun u => u - x z)) z := by
  cases ub with
  | none => simpa [itiH, dinf] using ha
  | some u =>
    obtain ⟨h1, h2⟩ := h (u - x z) rfl
    exact itiH_contDiff ha (contDiffAt_const.sub hx) h1 h2

theorem smooth2_contDiff {a x : Z → ℝ} {z : Z} (ha : ContDiffAt ℝ 1 a z)
    (hx : ContDiffAt ℝ 1 x z) (lb ub : Option ℝ) (h : NoKink2 lb ub (a z) (x z)) :
    ContDiffAt ℝ 1 (fun z => smooth2 lb ub (a z) (x z)) z :=
  (upper_contDiff (lower_contDiff ha hx lb h.1).neg hx ub h.2).neg

private theorem noKink_eventually {W : Type} [TopologicalSpace W] {a : W → ℝ} {d : W → Option ℝ} {z : W}
    (ha : ContinuousAt a z) (hd : (∀ w, d w = none) ∨ ∃ d' : W → ℝ, ContinuousAt d' z ∧ ∀ w, d w = some (d' w))
    (h : NoKink (a z) (d z)) : ∀ᶠ w in 𝓝 z, NoKink (a w) (d w) := by
  rcases hd with hd | ⟨d', hd', e⟩
  · refine Eventually.of_forall fun w x hx => ?_
    rw [hd w] at hx
    cases hx
  · obtain ⟨h1, h2⟩ := h (d' z) (e z)
    have k2 : ∀ᶠ w in 𝓝 z, d' w ≠ 100000 := hd'.eventually_ne h2
    have k1 : ∀ᶠ w in 𝓝 z, a w ≠ 0 ∨ d' w ≠ 0 := by
      rcases h1 with h1 | h1
      · exact (ha.eventually_ne h1).mono fun _ h => Or.inl h
      · exact (hd'.eventually_ne h1).mono fun _ h => Or.inr h
    filter_upwards [k1, k2] with w w1 w2 x hx
    rw [e w] at hx
    cases hx
    exact ⟨w1, w2⟩

theorem noKink2_eventually {a x : Z → ℝ} {z : Z} (ha : ContDiffAt ℝ 1 a z) (hx : ContDiffAt ℝ 1 x z)
    (lb ub : Option ℝ) (h : NoKink2 lb ub (a z) (x z)) : ∀ᶠ w in 𝓝 z, NoKink2 lb ub (a w) (x w) := by
  have h1 := noKink_eventually (d := fun w => lb.map fun l => x w - l) ha.continuousAt (by
    cases lb with
    | none => exact Or.inl fun _ => rfl
    | some l => exact Or.inr ⟨_, hx.continuousAt.sub continuousAt_const, fun _ => rfl⟩) h.1
  have h2 := noKink_eventually (d := fun w => ub.map fun u => u - x w)
    (lower_contDiff ha hx lb h.1).neg.continuousAt (by
    cases ub with
    | none => exact Or.inl fun _ => rfl
    | some u => exact Or.inr ⟨_, continuousAt_const.sub hx.continuousAt, fun _ => rfl⟩) h.2
  exact h1.and h2

end Dolo
