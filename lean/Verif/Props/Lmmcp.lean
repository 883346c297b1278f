import Mathlib.Tactic.Linarith
import Mathlib.Tactic.NormNum
import Mathlib.Tactic.FieldSimp
import Mathlib.Algebra.Order.BigOperators.Group.Finset
import Verif.Model.Lmmcp
import Verif.Props.Newton

/-!
# C109: what `lmmcp` returns is a solution
-/

set_option linter.unusedSectionVars false

namespace Dolo

variable {n : ℕ}

/-! ### The merit function -/

private theorem reflect (l u x F : ℝ) (h : l ≤ u) :
    naturalResidual (some (-u)) (some (-l)) (-x) (-F) = -naturalResidual (some l) (some u) x F := by
  simp only [naturalResidual]
  have e1 : -x - -u = u - x := by ring
  have e2 : -x - -l = l - x := by ring
  rw [e1, e2]
  rcases le_total F (x - l) with h1 | h1 <;> rcases le_total F (x - u) with h2 | h2
  · rw [min_eq_left h1, max_eq_right h2, min_eq_right (by linarith : u - x ≤ -F)]
    rw [max_eq_left (by linarith)]; ring
  · rw [min_eq_left h1, max_eq_left h2, min_eq_left (by linarith : -F ≤ u - x)]
    rw [max_eq_left (by linarith)]
  · rw [min_eq_right h1, min_eq_right (by linarith : u - x ≤ -F)]
    rw [max_eq_left (by linarith : l - x ≤ u - x), max_eq_right (by linarith)]; ring
  · rw [min_eq_right h1, min_eq_left (by linarith : -F ≤ u - x)]
    rw [max_eq_right (by linarith : -F ≤ l - x), max_eq_left (by linarith)]; ring

/-- The natural residual of one index is controlled by the first entry of `Phi`. -/
private theorem entry_bound (x F : ℝ) (lb ub : Option ℝ) (hb : BoundsOK lb ub) (hbig : NotAtBig lb ub) (e : ℝ)
    (h : |(lmmcpPhi x F lb ub (1 / 10) (9 / 10)).1| ≤ e) :
    |naturalResidual (lmmcpEffLower lb) (lmmcpEffUpper ub) x F| ≤ 30 * e := by
  have key0 : ∀ l u : ℝ, |(lmmcpPhiEntry x F l u (1 / 10) (9 / 10) 0).1| ≤ e →
      |naturalResidual none none x F| ≤ 30 * e := by
    intro l u h
    have e1 : (lmmcpPhiEntry x F l u (1 / 10) (9 / 10) 0).1 = -(1 / 10) * F := by simp [lmmcpPhiEntry]
    rw [e1, abs_mul] at h
    norm_num at h
    simp only [naturalResidual]
    have := abs_nonneg F
    linarith
  have key1 : ∀ l u : ℝ, |(lmmcpPhiEntry x F l u (1 / 10) (9 / 10) 1).1| ≤ e →
      |naturalResidual (some l) none x F| ≤ 30 * e := by
    intro l u h
    have e1 : (lmmcpPhiEntry x F l u (1 / 10) (9 / 10) 1).1 = -(1 / 10) * phiFB F (x - l) := by
      simp only [lmmcpPhiEntry, if_true, phiFB]
      rw [add_comm ((x - l) ^ 2)]
      ring
    rw [e1, abs_mul] at h
    norm_num at h
    have := natural_le (some l) none x F (phiFB F (x - l)) (phiFB F (x - l)) (10 * e) rfl rfl (by linarith)
    linarith
  have key2 : ∀ l u : ℝ, |(lmmcpPhiEntry x F l u (1 / 10) (9 / 10) 2).1| ≤ e →
      |naturalResidual none (some u) x F| ≤ 30 * e := by
    intro l u h
    have e1 : (lmmcpPhiEntry x F l u (1 / 10) (9 / 10) 2).1 = -(1 / 10) * (-phiFB (-F) (u - x)) := by
      simp [lmmcpPhiEntry, phiU_eq]
    rw [e1, abs_mul] at h
    norm_num at h
    have := natural_le none (some u) x F F (-phiFB (-F) (u - x)) (10 * e) rfl rfl
      (by rw [abs_neg]; linarith)
    linarith
  have key3 : ∀ l u : ℝ, l ≤ u → |(lmmcpPhiEntry x F l u (1 / 10) (9 / 10) 3).1| ≤ e →
      |naturalResidual (some l) (some u) x F| ≤ 30 * e := by
    intro l u hlu h
    have e1 : (lmmcpPhiEntry x F l u (1 / 10) (9 / 10) 3).1
        = (1 / 10) * (-phiFB (-phiFB (-F) (u - x)) (x - l)) := by
      simp only [lmmcpPhiEntry, phiU_eq]
      norm_num
      unfold phiFB
      rw [add_comm ((x - l) ^ 2), neg_sq]
      ring_nf
    rw [e1, abs_mul] at h
    norm_num at h
    have h1 := natural_le (some (-u)) (some (-l)) (-x) (-F) (phiFB (-F) (u - x))
      (-phiFB (-phiFB (-F) (u - x)) (x - l)) (10 * e)
      (by simp only []; congr 1; ring) (by simp only []; congr 2; ring) (by rw [abs_neg]; linarith)
    rw [reflect l u x F hlu, abs_neg] at h1
    linarith
  unfold lmmcpPhi at h
  unfold lmmcpEffLower lmmcpEffUpper
  cases lb with
  | none =>
    cases ub with
    | none =>
      have : lmmcpIndex none none = 0 := by simp [lmmcpIndex]
      rw [this] at h
      exact key0 _ _ h
    | some u =>
      by_cases hu : u < 10 ^ 10
      · have : lmmcpIndex none (some u) = 2 := by simp [lmmcpIndex, hu]
        rw [this] at h
        simpa [hu, Option.filter] using key2 _ _ h
      · have : lmmcpIndex none (some u) = 0 := by simp [lmmcpIndex, hu]
        rw [this] at h
        simpa [hu, Option.filter] using key0 _ _ h
  | some l =>
    by_cases hl : l > -(10 ^ 10 : ℝ)
    · have hf : (some l).filter (fun l => l > -(10 ^ 10 : ℝ)) = some l := by simp [Option.filter, hl]
      rw [hf]
      cases ub with
      | none =>
        have : lmmcpIndex (some l) none = 1 := by simp [lmmcpIndex, hl]
        rw [this] at h
        exact key1 _ _ h
      | some u =>
        by_cases hu : u < 10 ^ 10
        · have : lmmcpIndex (some l) (some u) = 3 := by simp [lmmcpIndex, hu, hl]
          rw [this] at h
          have hfu : (some u).filter (fun u => u < (10 ^ 10 : ℝ)) = some u := by simp [Option.filter, hu]
          rw [hfu]
          exact key3 _ _ (hb l rfl u rfl) h
        · have hu' : u > 10 ^ 10 := by
            rcases lt_or_eq_of_le (not_lt.1 hu) with h1 | h1
            · exact h1
            · exact absurd (by rw [← h1]) hbig.2
          have : lmmcpIndex (some l) (some u) = 1 := by simp [lmmcpIndex, hu, hl, hu']
          rw [this] at h
          have hfu : (some u).filter (fun u => u < (10 ^ 10 : ℝ)) = none := by simp [Option.filter, hu]
          rw [hfu]
          exact key1 _ _ h
    · have hl' : l < -(10 ^ 10 : ℝ) := by
        rcases lt_or_eq_of_le (not_lt.1 hl) with h1 | h1
        · exact h1
        · exact absurd (by rw [h1]) hbig.1
      have hf : (some l).filter (fun l => l > -(10 ^ 10 : ℝ)) = none := by simp [Option.filter, hl]
      rw [hf]
      cases ub with
      | none =>
        have : lmmcpIndex (some l) none = 0 := by simp [lmmcpIndex, hl]
        rw [this] at h
        exact key0 _ _ h
      | some u =>
        by_cases hu : u < 10 ^ 10
        · have : lmmcpIndex (some l) (some u) = 2 := by simp [lmmcpIndex, hu, hl, hl']
          rw [this] at h
          have hfu : (some u).filter (fun u => u < (10 ^ 10 : ℝ)) = some u := by simp [Option.filter, hu]
          rw [hfu]
          exact key2 _ _ h
        · have : lmmcpIndex (some l) (some u) = 0 := by simp [lmmcpIndex, hu, hl]
          rw [this] at h
          have hfu : (some u).filter (fun u => u < (10 ^ 10 : ℝ)) = none := by simp [Option.filter, hu]
          rw [hfu]
          exact key0 _ _ h

/-- A small merit value means small natural residuals. -/
private theorem residual_of_psi (P : LmmcpProblem n) (hb : ∀ i, BoundsOK (P.lb i) (P.ub i))
    (hbig : ∀ i, NotAtBig (P.lb i) (P.ub i)) (x : Fin n → ℝ) (e : ℝ) (h : lmmcpPsi P x ≤ e) (i : Fin n) :
    |naturalResidual (lmmcpEffLower (P.lb i)) (lmmcpEffUpper (P.ub i)) (x i) (P.F x i)| ≤ 43 * √e := by
  have h1 : (lmmcpPhi (x i) (P.F x i) (P.lb i) (P.ub i) (1 / 10) (9 / 10)).1 ^ 2 ≤ 2 * e := by
    have h2 := Finset.single_le_sum (f := fun i =>
      (lmmcpPhi (x i) (P.F x i) (P.lb i) (P.ub i) (1 / 10) (9 / 10)).1 ^ 2
        + (lmmcpPhi (x i) (P.F x i) (P.lb i) (P.ub i) (1 / 10) (9 / 10)).2 ^ 2)
      (fun j _ => by positivity) (Finset.mem_univ i)
    have h3 : lmmcpPhiSq P x ≤ 2 * e := by unfold lmmcpPsi at h; linarith
    unfold lmmcpPhiSq at h3
    have h4 := sq_nonneg (lmmcpPhi (x i) (P.F x i) (P.lb i) (P.ub i) (1 / 10) (9 / 10)).2
    linarith
  have h2 := Real.abs_le_sqrt h1
  have h3 := entry_bound (x i) (P.F x i) (P.lb i) (P.ub i) (hb i) (hbig i) _ h2
  rw [Real.sqrt_mul (by norm_num)] at h3
  have h4 : √(2 : ℝ) ≤ 143 / 100 := by
    apply Real.sqrt_le_iff.2
    norm_num
  have h5 := Real.sqrt_nonneg e
  have h6 : √(2 : ℝ) * √e ≤ 143 / 100 * √e := mul_le_mul_of_nonneg_right h4 h5
  linarith

/-! ### The loops -/

private theorem pre_spec (P : LmmcpProblem n) (o : LmmcpOpts) (fuel k : ℕ) (delta np : ℝ) (x : Fin n → ℝ)
    (psi : ℝ) (h : psi = lmmcpPsi P x) :
    let r := lmmcpPre P o fuel k delta np x psi
    r.1 ≤ k + fuel ∧ r.2.2 = lmmcpPsi P r.2.1 := by
  induction fuel generalizing k delta np x psi with
  | zero => exact ⟨le_refl _, h⟩
  | succ f ih =>
    unfold lmmcpPre
    split_ifs with hc
    · obtain ⟨h1, h2⟩ := ih (k + 1)
        (lmmcpDelta (√(lmmcpPhiSq P (lmmcpBoxStep P x (P.preDir (k + 1) x) delta))) (√(lmmcpPhiSq P x)) delta)
        (√(∑ i, P.preDir (k + 1) x i ^ 2)) (lmmcpBoxStep P x (P.preDir (k + 1) x) delta) _ rfl
      exact ⟨by simp only [] at h1 ⊢; omega, h2⟩
    · exact ⟨by simp only []; omega, h⟩

private theorem search_spec (P : LmmcpProblem n) (x d : Fin n → ℝ) (mp c : ℝ) (fuel : ℕ) (t : ℝ)
    (xn : Fin n → ℝ) (psi : ℝ) (h : psi = lmmcpPsi P xn) (hx : xn = fun i => x i + t * d i)
    (ht : t * (55 / 100) ^ fuel ≤ 1 / 10 ^ 12) :
    let r := lmmcpSearch P x d mp c fuel t xn psi
    r.2.2 = lmmcpPsi P r.2.1 ∧ r.2.1 = (fun i => x i + r.1 * d i) ∧
    (r.2.2 ≤ mp + c * r.1 ∨ r.1 ≤ 1 / 10 ^ 12) := by
  induction fuel generalizing t xn psi with
  | zero => exact ⟨h, hx, .inr (by simpa [lmmcpSearch] using ht)⟩
  | succ f ih =>
    unfold lmmcpSearch
    split_ifs with hc
    · exact ih (t * (55 / 100)) _ _ rfl rfl (by rw [mul_assoc, ← pow_succ']; exact ht)
    · refine ⟨h, hx, ?_⟩
      by_contra hn
      push Not at hn
      exact hc hn

private theorem search_47 (P : LmmcpProblem n) (x d : Fin n → ℝ) (mp c : ℝ) :
    let r := lmmcpSearch P x d mp c 47 1 (fun i => x i + d i) (lmmcpPsi P fun i => x i + d i)
    r.2.2 = lmmcpPsi P r.2.1 ∧ r.2.1 = (fun i => x i + r.1 * d i) ∧
    (r.2.2 ≤ mp + c * r.1 ∨ r.1 ≤ 1 / 10 ^ 12) :=
  search_spec P x d mp c 47 1 _ _ rfl (by simp) (by norm_num)

private theorem step_spec (P : LmmcpProblem n) (s : LmmcpState n)
    (hb : s.Psibest = lmmcpPsi P s.xbest) :
    let s' := lmmcpStep P s
    s'.k = s.k + 1 ∧ s'.Psix = lmmcpPsi P s'.x ∧ s'.Psibest = lmmcpPsi P s'.xbest := by
  have h1 := (search_47 P s.x (P.mainDir s.k s.x) s.MaxPsi
    (1 / 10 ^ 4 * ∑ i, P.grad s.x i * P.mainDir s.k s.x i)).1
  unfold lmmcpStep
  simp only []
  split_ifs <;> first | exact ⟨rfl, h1, h1⟩ | exact ⟨rfl, hb, hb⟩ | exact ⟨rfl, h1, hb⟩

private theorem main_spec (P : LmmcpProblem n) (o : LmmcpOpts) (fuel : ℕ) (s : LmmcpState n)
    (h : s.Psix = lmmcpPsi P s.x) (hb : s.Psibest = lmmcpPsi P s.xbest) :
    let r := lmmcpMain P o fuel s
    r.Psix = lmmcpPsi P r.x ∧ s.k ≤ r.k ∧ r.k ≤ s.k + fuel ∧ (r.k < s.k + fuel → r.Psix ≤ o.eps2) ∧
      (s.Psix ≤ o.eps2 → r = s) := by
  induction fuel generalizing s with
  | zero => exact ⟨h, le_refl _, le_refl _, fun hc => absurd hc (by simp [lmmcpMain]), fun _ => rfl⟩
  | succ f ih =>
    unfold lmmcpMain
    split_ifs with hc
    · obtain ⟨h1, h2, h3⟩ := step_spec P s hb
      obtain ⟨g1, g2, g3, g4, g5⟩ := ih (lmmcpStep P s) h2 h3
      rw [h1] at g2 g3 g4
      exact ⟨g1, by omega, by omega, fun hk => g4 (by omega),
        fun hk => absurd hk (not_le.2 hc)⟩
    · exact ⟨h, le_refl _, by omega, fun _ => not_lt.1 hc, fun _ => rfl⟩

private theorem finish_spec (P : LmmcpProblem n) (o : LmmcpOpts) (x0 : Fin n → ℝ) (k : ℕ) (hk : k < 500)
    (x : Fin n → ℝ) (psi : ℝ) (h : psi = lmmcpPsi P x) (z : Fin n → ℝ)
    (hz : lmmcpFinish P o x0 k x psi = .ok z) : lmmcpPsi P z ≤ o.eps2 := by
  unfold lmmcpFinish at hz
  simp only [] at hz
  obtain ⟨h1, h2, h3, h4, -⟩ := main_spec P o (500 - k)
    ⟨k, 0, x, psi, lmmcpPsi P x0, fun j => if j = 0 then lmmcpPsi P x0 else 0, 0, x0, lmmcpPsi P x0⟩ h rfl
  simp only [] at h3 h4
  split_ifs at hz with hc
  simp only [Except.ok.injEq] at hz
  subst hz
  rw [← h1]
  apply h4
  omega

private theorem psi_of_ok (P : LmmcpProblem n) (o : LmmcpOpts) (hpre : o.presteps < 500) (verbose : Bool)
    (x0 z : Fin n → ℝ) (hz : lmmcp P o verbose x0 = .ok z) : lmmcpPsi P z ≤ o.eps2 := by
  obtain ⟨h1, h2⟩ := pre_spec P o o.presteps 0 5 1 (lmmcpProject P x0) _ rfl
  unfold lmmcp at hz
  simp only [] at hz
  split_ifs at hz with c1 c2 c3
  · simp only [Except.ok.injEq] at hz
    subst hz
    rw [← h2]
    exact c2.le
  · exact finish_spec P o _ _ (by omega) _ _ h2 z hz
  · exact finish_spec P o _ _ (by omega) _ _ rfl z hz
  · exact finish_spec P o _ _ (by omega) _ _ rfl z hz

/-- **C109 (partial).**  For every problem, all search directions and all options with fewer than 500 preprocessing
steps (20 by default): if `lmmcp` returns a point, every component solves its complementarity problem up to a
natural residual `max(min(f, x - lb), x - ub)` of at most `43 * sqrt(eps2)`.  (The bounds are the ones taken into
account, and not exactly `±1e10`, see C23.  With more preprocessing steps the point need not be a solution,
`C109_presteps_fails`.) -/
theorem C109_solution_partial (P : LmmcpProblem n) (hb : ∀ i, BoundsOK (P.lb i) (P.ub i))
    (hbig : ∀ i, NotAtBig (P.lb i) (P.ub i)) (o : LmmcpOpts) (hpre : o.presteps < 500) (verbose : Bool)
    (x0 z : Fin n → ℝ) (hz : lmmcp P o verbose x0 = .ok z) (i : Fin n) :
    |naturalResidual (lmmcpEffLower (P.lb i)) (lmmcpEffUpper (P.ub i)) (z i) (P.F z i)| ≤ 43 * √o.eps2 :=
  residual_of_psi P hb hbig z _ (psi_of_ok P o hpre verbose x0 z hz) i

/-- **C109, default options.**  The natural residual is at most `4.3e-6`. -/
theorem C109_default (P : LmmcpProblem n) (hb : ∀ i, BoundsOK (P.lb i) (P.ub i))
    (hbig : ∀ i, NotAtBig (P.lb i) (P.ub i)) (verbose : Bool)
    (x0 z : Fin n → ℝ) (hz : lmmcp P lmmcpDefaults verbose x0 = .ok z) (i : Fin n) :
    |naturalResidual (lmmcpEffLower (P.lb i)) (lmmcpEffUpper (P.ub i)) (z i) (P.F z i)| ≤ 43 / 10 ^ 7 := by
  refine le_trans (C109_solution_partial P hb hbig lmmcpDefaults (by simp [lmmcpDefaults]) verbose x0 z hz i) ?_
  have : √lmmcpDefaults.eps2 = 1 / 10 ^ 7 := by
    have e : lmmcpDefaults.eps2 = (1 / 10 ^ 7) ^ 2 := by simp only [lmmcpDefaults]; norm_num
    rw [e, Real.sqrt_sq (by positivity)]
  rw [this]
  norm_num

/-- **C109, `verbose` only prints.**  With fewer than 500 preprocessing steps the result does not depend on
`verbose`, although the preprocessor only returns its solution when `verbose` is set. -/
theorem C109_verbose (P : LmmcpProblem n) (o : LmmcpOpts) (hpre : o.presteps < 500) (x0 : Fin n → ℝ) :
    lmmcp P o true x0 = lmmcp P o false x0 := by
  obtain ⟨h1, h2⟩ := pre_spec P o o.presteps 0 5 1 (lmmcpProject P x0) _ rfl
  unfold lmmcp
  simp only []
  by_cases c1 : o.preprocess = true
  swap
  · simp [c1]
  by_cases c2 : (lmmcpPre P o o.presteps 0 5 1 (lmmcpProject P x0) (lmmcpPsi P (lmmcpProject P x0))).2.2 < o.eps2
  swap
  · simp [c2]
  · simp only [c1, c2, if_true, Bool.false_eq_true, if_false]
    symm
    unfold lmmcpFinish
    simp only []
    rw [(main_spec P o _ _ _ rfl).2.2.2.2 c2.le]
    · simp only [] at h1 ⊢
      rw [if_neg (by omega)]
    · exact h2

/-- The preprocessor never leaves the box. -/
private theorem box_step (P : LmmcpProblem n) (x p : Fin n → ℝ) (delta : ℝ) (hd : 0 ≤ delta)
    (h : ∀ i, (∀ l ∈ P.lb i, l ≤ x i) ∧ ∀ u ∈ P.ub i, x i ≤ u) :
    ∀ i, (∀ l ∈ P.lb i, l ≤ lmmcpBoxStep P x p delta i) ∧ ∀ u ∈ P.ub i, lmmcpBoxStep P x p delta i ≤ u := by
  intro i
  obtain ⟨h1, h2⟩ := h i
  constructor
  · intro l hl
    have hl' := h1 l hl
    rw [Option.mem_def] at hl
    unfold lmmcpBoxStep
    simp only [hl]
    have e1 : l - x i ≤ max (min (l - x i) 0) (-delta) := by
      refine le_trans ?_ (le_max_left _ _)
      rw [min_eq_left (by linarith)]
    have key : ∀ w, l ≤ x i + max (max (min (l - x i) 0) (-delta)) w := fun w => by
      have := le_trans e1 (le_max_left _ w)
      linarith
    exact key _
  · intro u hu
    have hu' := h2 u hu
    rw [Option.mem_def] at hu
    unfold lmmcpBoxStep
    simp only [hu]
    have e0 : min (p i) (min (max (u - x i) 0) delta) ≤ u - x i := by
      refine le_trans (min_le_right _ _) (le_trans (min_le_left _ _) ?_)
      rw [max_eq_left (by linarith)]
    have key : ∀ w, w ≤ 0 → x i + max w (min (p i) (min (max (u - x i) 0) delta)) ≤ u := fun w hw => by
      have := max_le (le_trans hw (by linarith : (0 : ℝ) ≤ u - x i)) e0
      linarith
    apply key
    cases P.lb i with
    | none => simpa using hd
    | some l => exact max_le (min_le_right _ _) (by linarith)

private theorem delta_nonneg (a b d : ℝ) (hd : 0 ≤ d) : 0 ≤ lmmcpDelta a b d := by
  unfold lmmcpDelta
  split_ifs
  · exact le_trans zero_le_one (le_max_left _ _)
  · exact le_trans zero_le_one (le_max_left _ _)
  · exact hd

private theorem pre_box (P : LmmcpProblem n) (o : LmmcpOpts) (fuel k : ℕ) (delta np : ℝ) (hd : 0 ≤ delta)
    (x : Fin n → ℝ) (psi : ℝ) (h : ∀ i, (∀ l ∈ P.lb i, l ≤ x i) ∧ ∀ u ∈ P.ub i, x i ≤ u) :
    ∀ i, (∀ l ∈ P.lb i, l ≤ (lmmcpPre P o fuel k delta np x psi).2.1 i) ∧
      ∀ u ∈ P.ub i, (lmmcpPre P o fuel k delta np x psi).2.1 i ≤ u := by
  induction fuel generalizing k delta np x psi with
  | zero => exact h
  | succ f ih =>
    unfold lmmcpPre
    split_ifs with hc
    · exact ih _ _ _ (delta_nonneg _ _ _ hd) _ _ (box_step P x _ delta hd h)
    · exact h

/-- **C109, the preprocessor.**  With consistent bounds, the function is only evaluated within the bounds during
preprocessing: the starting point is projected and every point reached satisfies them exactly. -/
theorem C109_preprocessor_feasible (P : LmmcpProblem n) (hb : ∀ i, BoundsOK (P.lb i) (P.ub i)) (o : LmmcpOpts)
    (x0 : Fin n → ℝ) (steps : ℕ) (i : Fin n) :
    let x := lmmcpProject P x0
    let z := (lmmcpPre P o steps 0 5 1 x (lmmcpPsi P x)).2.1
    (∀ l ∈ P.lb i, l ≤ z i) ∧ ∀ u ∈ P.ub i, z i ≤ u := by
  intro x z
  apply pre_box P o steps 0 5 1 (by norm_num) x
  intro i
  simp only [x, lmmcpProject]
  constructor
  · intro l hl
    rw [Option.mem_def] at hl
    simp only [hl]
    exact le_max_left _ _
  · intro u hu
    have hbi := hb i
    rw [Option.mem_def] at hu
    simp only [hu]
    cases hl : P.lb i with
    | none => exact min_le_right _ _
    | some l => exact max_le (hbi l (by rw [hl]; rfl) u hu) (min_le_right _ _)

/-- **C109, the trust region of the preprocessor.**  The smaller the norm after a step, the larger the next radius.  It
grows after a step that lowers the norm by 5 %, shrinks (but not below one) after a step that multiplies the norm by more
than 4.75, never more than doubles and never falls below one. -/
theorem C109_radius (norm delta : ℝ) (hn : 0 < norm) (hd : 1 ≤ delta) :
    (∀ a b, a ≤ b → lmmcpDelta b norm delta ≤ lmmcpDelta a norm delta) ∧
      (∀ a, a ≤ 95 / 100 * norm → lmmcpDelta a norm delta = 2 * delta) ∧
      (∀ a, 19 / 4 * norm < a → 1 < delta → lmmcpDelta a norm delta < delta) ∧
      (∀ a, 95 / 100 * norm < a → a ≤ 19 / 4 * norm → lmmcpDelta a norm delta = delta) ∧
      ∀ a, 1 ≤ lmmcpDelta a norm delta ∧ delta / 2 ≤ lmmcpDelta a norm delta ∧ lmmcpDelta a norm delta ≤ 2 * delta := by
  have hup : max 1 (2 * delta) = 2 * delta := max_eq_right (by linarith)
  have hlo : max 1 (1 / 2 * delta) ≤ delta := max_le hd (by linarith)
  refine ⟨fun a b hab => ?_, fun a ha => ?_, fun a ha h1 => ?_, fun a ha hb => ?_, fun a => ?_⟩
  · unfold lmmcpDelta
    split_ifs <;> linarith
  · unfold lmmcpDelta
    rw [if_pos ha, hup]
  · unfold lmmcpDelta
    rw [if_neg (by linarith), if_pos (by linarith)]
    exact max_lt h1 (by linarith)
  · unfold lmmcpDelta
    rw [if_neg (by linarith), if_neg (by linarith)]
  · unfold lmmcpDelta
    have h1 := le_max_left (1 : ℝ) (1 / 2 * delta)
    have h2 := le_max_right (1 : ℝ) (1 / 2 * delta)
    split_ifs <;> refine ⟨?_, ?_, ?_⟩ <;> linarith

private theorem box_move (P : LmmcpProblem n) (x p : Fin n → ℝ) (delta : ℝ) (hd : 0 ≤ delta) (i : Fin n) :
    |lmmcpBoxStep P x p delta i - x i| ≤ delta := by
  unfold lmmcpBoxStep
  simp only [add_sub_cancel_left]
  rw [abs_le]
  constructor
  · refine le_trans ?_ (le_max_left _ _)
    cases P.lb i with
    | none => exact le_rfl
    | some l => exact le_max_right _ _
  · refine max_le ?_ (le_trans (min_le_right _ _) ?_)
    · cases P.lb i with
      | none => simp only; linarith
      | some l => exact max_le (le_trans (min_le_right _ _) hd) (by linarith)
    · cases P.ub i with
      | none => exact le_rfl
      | some u => exact min_le_right _ _

private theorem delta_range (a b d : ℝ) (hd : 1 ≤ d) : 1 ≤ lmmcpDelta a b d ∧ lmmcpDelta a b d ≤ 2 * d := by
  unfold lmmcpDelta
  have h1 := le_max_left (1 : ℝ) (1 / 2 * d)
  have h2 := le_max_left (1 : ℝ) (2 * d)
  have h3 : max 1 (2 * d) ≤ 2 * d := max_le (by linarith) le_rfl
  have h4 : max 1 (1 / 2 * d) ≤ 2 * d := max_le (by linarith) (by linarith)
  split_ifs <;> constructor <;> linarith

private theorem pre_move (P : LmmcpProblem n) (o : LmmcpOpts) (i : Fin n) (fuel k : ℕ) (delta np : ℝ) (hd : 1 ≤ delta)
    (x : Fin n → ℝ) (psi : ℝ) :
    |(lmmcpPre P o fuel k delta np x psi).2.1 i - x i| ≤ delta * (2 ^ fuel - 1) := by
  induction fuel generalizing k delta np x psi with
  | zero => simp [lmmcpPre]
  | succ f ih =>
    have hp : (1 : ℝ) ≤ 2 ^ f := one_le_pow₀ (by norm_num)
    unfold lmmcpPre
    split_ifs with hc
    · set y := lmmcpBoxStep P x (P.preDir (k + 1) x) delta
      obtain ⟨h1, h2⟩ := delta_range (√(lmmcpPhiSq P y)) (√(lmmcpPhiSq P x)) delta hd
      have := ih (k + 1) _ (√(∑ i, P.preDir (k + 1) x i ^ 2)) h1 y (lmmcpPsi P y)
      have hm := box_move P x (P.preDir (k + 1) x) delta (by linarith) i
      refine (abs_sub_le _ (y i) _).trans ?_
      have := mul_le_mul_of_nonneg_right h2 (by linarith : (0 : ℝ) ≤ 2 ^ f - 1)
      rw [pow_succ]
      have e : delta * (2 ^ f * 2 - 1) = 2 * delta * (2 ^ f - 1) + delta := by ring
      rw [e]
      linarith
    · simp only [sub_self, abs_zero]
      have : (1 : ℝ) ≤ 2 ^ (f + 1) := one_le_pow₀ (by norm_num)
      exact mul_nonneg (by linarith) (by linarith)

/-- **C109, how far the preprocessor moves.**  In `m` steps no unknown moves by more than `5 * (2 ^ m - 1)` from the
(projected) starting point, whatever the directions computed. -/
theorem C109_preprocessor_distance (P : LmmcpProblem n) (o : LmmcpOpts) (x0 : Fin n → ℝ) (steps : ℕ) (i : Fin n) :
    let x := lmmcpProject P x0
    |(lmmcpPre P o steps 0 5 1 x (lmmcpPsi P x)).2.1 i - x i| ≤ 5 * (2 ^ steps - 1) :=
  pre_move P o i steps 0 5 1 (by norm_num) _ _

/-- **C109, the line search.**  A step of the main algorithm moves to `x + t d`, where either the merit function is
at most `MaxPsi + 1e-4 * t * DPsi · d` or `t ≤ 1e-12`; unless it returns to the best point so far. -/
theorem C109_armijo (P : LmmcpProblem n) (s : LmmcpState n) :
    let d := P.mainDir s.k s.x
    let s' := lmmcpStep P s
    s'.x = s.xbest ∨ ∃ t : ℝ, s'.x = (fun i => s.x i + t * d i) ∧
      (lmmcpPsi P s'.x ≤ s.MaxPsi + 1 / 10 ^ 4 * (∑ i, P.grad s.x i * d i) * t ∨ t ≤ 1 / 10 ^ 12) := by
  intro d s'
  obtain ⟨h1, h2, h3⟩ := search_47 P s.x (P.mainDir s.k s.x) s.MaxPsi
    (1 / 10 ^ 4 * ∑ i, P.grad s.x i * P.mainDir s.k s.x i)
  rw [h1] at h3
  simp only [s', lmmcpStep]
  split_ifs <;> first | exact .inl rfl | exact .inr ⟨_, h2, h3⟩

/-! #### The reference value of the line search -/

private theorem maxAux_spec (aux : ℕ → ℝ) :
    (∃ i < 10, lmmcpMaxAux aux = aux i) ∧ ∀ i < 10, aux i ≤ lmmcpMaxAux aux := by
  have h : ∀ (l : List ℝ) (a : ℝ), (l.foldl max a = a ∨ l.foldl max a ∈ l) ∧ a ≤ l.foldl max a ∧
      ∀ b ∈ l, b ≤ l.foldl max a := by
    intro l
    induction l with
    | nil => intro a; simp
    | cons c l ih =>
      intro a
      obtain ⟨h1, h2, h3⟩ := ih (max a c)
      simp only [List.foldl_cons]
      refine ⟨?_, (le_max_left _ _).trans h2, ?_⟩
      · rcases h1 with h1 | h1
        · rcases max_choice a c with h | h
          · left; rw [h1, h]
          · right; rw [h1, h]; simp
        · right; simp [h1]
      · intro b hb
        rcases List.mem_cons.1 hb with rfl | hb
        · exact (le_max_right _ _).trans h2
        · exact h3 b hb
  obtain ⟨h1, h2, h3⟩ := h ((List.range 9).map fun j => aux (j + 1)) (aux 0)
  refine ⟨?_, ?_⟩
  · rcases h1 with h1 | h1
    · exact ⟨0, by norm_num, h1⟩
    · obtain ⟨j, hj, e⟩ := List.mem_map.1 h1
      exact ⟨j + 1, by have := List.mem_range.1 hj; omega, e.symm⟩
  · intro i hi
    rcases i with _ | i
    · exact h2
    · exact h3 _ (List.mem_map.2 ⟨i, List.mem_range.2 (by omega), rfl⟩)

/-- The largest merit among the points `y` of the last ten passes up to pass `j`, the starting point included. -/
def IsRecentMax (P : LmmcpProblem n) (y : ℕ → Fin n → ℝ) (j : ℕ) (v : ℝ) : Prop :=
  (∃ i ≤ j, j < i + 10 ∧ v = lmmcpPsi P (y i)) ∧ ∀ i ≤ j, j < i + 10 → lmmcpPsi P (y i) ≤ v

/-- **C109, the memory of the line search.**  Let `y 1, y 2, ...` be the points found by the line searches of the main
algorithm, started from `y 0 = x0`.  The state goes from one to the next, or back to the best point so far.  The
reference value of the next search is the merit of the current point in the first five passes, then the largest merit of
the last ten points; after a return to the best point it is the merit of this point. -/
theorem C109_memory (P : LmmcpProblem n) (k : ℕ) (x0 x : Fin n → ℝ) (Psix : ℝ) :
    let s0 : LmmcpState n := ⟨k, 0, x, Psix, lmmcpPsi P x0, fun j => if j = 0 then lmmcpPsi P x0 else 0, 0, x0,
      lmmcpPsi P x0⟩
    ∃ y : ℕ → Fin n → ℝ, y 0 = x0 ∧ ∀ j,
      let s := (lmmcpStep P)^[j + 1] s0
      (s.x = y (j + 1) ∧ s.Psix = lmmcpPsi P (y (j + 1)) ∧
          if j + 1 ≤ 5 then s.MaxPsi = lmmcpPsi P (y (j + 1)) else IsRecentMax P y (j + 1) s.MaxPsi) ∨
        (s.x = s.xbest ∧ s.Psix = s.Psibest ∧ s.MaxPsi = s.Psibest ∧ s.kbest + 20 < s.k ∧
          s.Psibest ≤ lmmcpPsi P (y (j + 1))) := by
  intro s0
  have hpsi : ∀ z, 0 ≤ lmmcpPsi P z := by
    intro z
    unfold lmmcpPsi lmmcpPhiSq
    positivity
  set st : ℕ → LmmcpState n := fun j => (lmmcpStep P)^[j] s0 with hst
  set r : ℕ → ℝ × (Fin n → ℝ) × ℝ := fun j =>
    let s := st j
    let d := P.mainDir s.k s.x
    let xnew := fun i => s.x i + d i
    lmmcpSearch P s.x d s.MaxPsi (1 / 10 ^ 4 * ∑ i, P.grad s.x i * d i) 47 1 xnew (lmmcpPsi P xnew) with hr
  have hr2 : ∀ j, (r j).2.2 = lmmcpPsi P (r j).2.1 := fun j => (search_47 P _ _ _ _).1
  set y : ℕ → Fin n → ℝ := fun j => Nat.casesOn j x0 fun j => (r j).2.1 with hy
  have hsucc : ∀ j, st (j + 1) = lmmcpStep P (st j) := fun j => Function.iterate_succ_apply' _ _ _
  have hk : ∀ j, (st j).kMain = j := by
    intro j
    induction j with
    | zero => rfl
    | succ j ih =>
      rw [hsucc, ← congrArg (· + 1) ih]
      unfold lmmcpStep
      dsimp only
      split_ifs <;> rfl
  have haux : ∀ j i, (st (j + 1)).aux i = if i = (j + 1) % 10 then lmmcpPsi P (y (j + 1)) else (st j).aux i := by
    intro j i
    rw [hsucc, show y (j + 1) = (r j).2.1 from rfl, ← hr2]
    unfold lmmcpStep
    dsimp only
    rw [hk]
    split_ifs <;> first | rfl | simp_all
  have hmem : ∀ j, ∀ i < 10, (∃ q ≤ j, q % 10 = i ∧ j < q + 10 ∧ (st j).aux i = lmmcpPsi P (y q)) ∨
      (j < i ∧ (st j).aux i = 0) := by
    intro j
    induction j with
    | zero =>
      intro i hi
      rcases Nat.eq_zero_or_pos i with rfl | h
      · exact .inl ⟨0, le_refl _, rfl, by norm_num, rfl⟩
      · right
        exact ⟨h, if_neg (by omega)⟩
    | succ j ih =>
      intro i hi
      rw [haux]
      by_cases h : i = (j + 1) % 10
      · rw [if_pos h]
        exact .inl ⟨j + 1, le_refl _, h.symm, by omega, rfl⟩
      · rw [if_neg h]
        rcases ih i hi with ⟨q, h1, h2, h3, h4⟩ | ⟨h1, h2⟩
        · exact .inl ⟨q, by omega, h2, by omega, h4⟩
        · exact .inr ⟨by omega, h2⟩
  have hmax : ∀ j, IsRecentMax P y j (lmmcpMaxAux (st j).aux) := by
    intro j
    obtain ⟨⟨i, hi, e⟩, hle⟩ := maxAux_spec (st j).aux
    have hall : ∀ q ≤ j, j < q + 10 → lmmcpPsi P (y q) ≤ lmmcpMaxAux (st j).aux := by
      intro q hq hq2
      rcases hmem j (q % 10) (Nat.mod_lt _ (by norm_num)) with ⟨q', h1, h2, h3, h4⟩ | ⟨h1, -⟩
      · have : q' = q := by omega
        rw [← this, ← h4]
        exact hle _ (Nat.mod_lt _ (by norm_num))
      · exact absurd h1 (by have := Nat.mod_le q 10; omega)
    refine ⟨?_, hall⟩
    rcases hmem j i hi with ⟨q, h1, -, h3, h4⟩ | ⟨h1, h2⟩
    · exact ⟨q, h1, h3, e.trans h4⟩
    · refine ⟨j, le_refl _, by omega, le_antisymm ?_ (hall j (le_refl _) (by omega))⟩
      rw [e, h2]
      exact hpsi _
  refine ⟨y, rfl, fun j => ?_⟩
  have hm := hmax (j + 1)
  have hauxj : (st (j + 1)).aux = fun i => if i = (j + 1) % 10 then (r j).2.2 else (st j).aux i := by
    funext i; rw [haux, hr2]
  rw [hauxj] at hm
  have hs : (lmmcpStep P)^[j + 1] s0 = lmmcpStep P (st j) := hsucc j
  have hy1 : y (j + 1) = (r j).2.1 := rfl
  dsimp only
  rw [hs, hy1, ← hr2]
  unfold lmmcpStep
  dsimp only
  simp only [hk]
  split_ifs with c1 c2 c3 c4 c5
  all_goals first
    | exact .inl ⟨rfl, rfl, rfl⟩
    | exact .inl ⟨rfl, rfl, hm⟩
    | (refine .inr ⟨rfl, rfl, rfl, ?_, ?_⟩
       · dsimp only; omega
       · exact not_lt.1 (by assumption))

/-- A call that returns: `F(x) = x + 1` on `[0, ∞)`, started below the bound. -/
example : lmmcp (n := 1) ⟨fun x i => x i + 1, fun _ => some 0, fun _ => none, fun _ _ _ => 0, fun _ _ _ => 0,
    fun _ _ => 0⟩ lmmcpDefaults false (fun _ => -3) = .ok (fun _ => 0) := by
  set P : LmmcpProblem 1 := ⟨fun x i => x i + 1, fun _ => some 0, fun _ => none, fun _ _ _ => 0,
    fun _ _ _ => 0, fun _ _ => 0⟩ with hP
  have hx : lmmcpProject P (fun _ => -3) = fun _ => 0 := by
    funext i
    simp [lmmcpProject, hP]
  have hpsi : lmmcpPsi P (fun _ => 0) = 0 := by
    have hi : lmmcpIndex (some 0) none = 1 := by simp [lmmcpIndex]
    simp [lmmcpPsi, lmmcpPhiSq, lmmcpPhi, lmmcpPhiEntry, hP, hi]
  have hpre : lmmcpPre P lmmcpDefaults 20 0 5 1 (fun _ => 0) 0 = (0, fun _ => 0, 0) := by
    unfold lmmcpPre
    rw [if_neg]
    simp [lmmcpDefaults]
  have hmain : ∀ s : LmmcpState 1, s.Psix = 0 → lmmcpMain P lmmcpDefaults 500 s = s := by
    intro s hs
    unfold lmmcpMain
    rw [if_neg]
    rw [hs]
    simp [lmmcpDefaults]
  unfold lmmcp
  simp only [hx, hpsi]
  have e : lmmcpDefaults.presteps = 20 := rfl
  rw [e, hpre]
  simp only []
  rw [if_pos (by rfl), if_pos (by simp [lmmcpDefaults]), if_neg (by simp)]
  unfold lmmcpFinish
  simp only [Nat.sub_zero]
  rw [hmain _ rfl]
  simp

/-- `F(x) = x² + 1` in 100 variables, without bounds and without solution; for 100 and more variables the direction
of the preprocessor is the Newton step. -/
private noncomputable def noRoot : LmmcpProblem 100 :=
  ⟨fun x i => x i ^ 2 + 1, fun _ => none, fun _ => none, fun _ x i => -(x i ^ 2 + 1) / (2 * x i),
    fun _ _ _ => 0, fun _ _ => 0⟩

private theorem noRoot_sq (a : ℝ) (ha : a ^ 2 = 1 / 3) : lmmcpPhiSq noRoot (fun _ => a) = 1312 / 9 := by
  have hi : lmmcpIndex none none = 0 := by simp [lmmcpIndex]
  simp only [lmmcpPhiSq, lmmcpPhi, lmmcpPhiEntry, noRoot, hi, ha]
  norm_num

private theorem noRoot_step (a : ℝ) (ha : a ^ 2 = 1 / 3) (k : ℕ) :
    lmmcpBoxStep noRoot (fun _ => a) (noRoot.preDir k fun _ => a) 5 = fun _ => -a := by
  have h0 : a ≠ 0 := by rintro rfl; norm_num at ha
  have e : -(a ^ 2 + 1) / (2 * a) = -(2 * a) := by
    rw [div_eq_iff (by simpa using h0)]
    nlinarith
  have hle : |a| ≤ 1 := by
    rw [← sq_le_one_iff_abs_le_one]; linarith
  have hle' := abs_le.1 hle
  funext i
  simp only [lmmcpBoxStep, noRoot, e]
  rw [min_eq_left (by linarith [hle'.1]), max_eq_right (by linarith [hle'.2])]
  ring

private theorem noRoot_pre (o : LmmcpOpts) (he : o.eps2 < 1) (hn : o.null < 1) (fuel k : ℕ) (np : ℝ)
    (hnp : np > o.null) (a : ℝ) (ha : a ^ 2 = 1 / 3) :
    (lmmcpPre noRoot o fuel k 5 np (fun _ => a) (656 / 9)).1 = k + fuel ∧
    (lmmcpPre noRoot o fuel k 5 np (fun _ => a) (656 / 9)).2.2 = 656 / 9 := by
  induction fuel generalizing k np a with
  | zero => exact ⟨rfl, rfl⟩
  | succ f ih =>
    have ha' : (-a) ^ 2 = 1 / 3 := by rw [neg_sq]; exact ha
    unfold lmmcpPre
    rw [if_pos ⟨by linarith, hnp⟩]
    simp only [noRoot_step a ha, noRoot_sq a ha, noRoot_sq _ ha']
    have hpsi : lmmcpPsi noRoot (fun _ => -a) = 656 / 9 := by
      unfold lmmcpPsi; rw [noRoot_sq _ ha']; norm_num
    have hdelta : lmmcpDelta (√(1312 / 9)) (√(1312 / 9)) 5 = 5 := by
      have hp : 0 < √(1312 / 9 : ℝ) := Real.sqrt_pos.2 (by norm_num)
      unfold lmmcpDelta
      rw [if_neg (by linarith), if_neg (by linarith)]
    rw [hpsi, hdelta]
    have hnp' : √(∑ i, noRoot.preDir (k + 1) (fun _ => a) i ^ 2) > o.null := by
      have h0 : a ≠ 0 := by rintro rfl; norm_num at ha
      have e : -(a ^ 2 + 1) / (2 * a) = -(2 * a) := by
        rw [div_eq_iff (by simpa using h0)]
        nlinarith
      have e2 : ∑ i, noRoot.preDir (k + 1) (fun _ => a) i ^ 2 = 400 / 3 := by
        have e3 : ∀ i, noRoot.preDir (k + 1) (fun _ => a) i ^ 2 = 4 / 3 := by
          intro i
          show (-(a ^ 2 + 1) / (2 * a)) ^ 2 = 4 / 3
          rw [e, neg_sq, mul_pow, ha]
          norm_num
        simp only [e3]
        norm_num
      rw [e2]
      have : (1 : ℝ) ≤ √(400 / 3) := by
        rw [Real.one_le_sqrt]; norm_num
      linarith
    obtain ⟨h1, h2⟩ := ih (k + 1) _ hnp' (-a) ha'
    exact ⟨by rw [h1]; omega, h2⟩

/-- With more than 500 preprocessing steps the counter shared by both phases is past `kmax` when the preprocessor
has failed, the main algorithm is skipped and the starting point is returned as if it were a solution. -/
theorem C109_presteps_fails :
    ∃ (P : LmmcpProblem 100) (o : LmmcpOpts) (x0 : Fin 100 → ℝ), o.presteps = 501 ∧
      o.eps2 = lmmcpDefaults.eps2 ∧ (∀ x, ∀ i, 1 ≤ P.F x i) ∧ lmmcp P o true x0 = .ok x0 := by
  have hs : ((1 : ℝ) / √3) ^ 2 = 1 / 3 := by
    rw [div_pow, Real.sq_sqrt (by norm_num)]; norm_num
  refine ⟨noRoot, ⟨1 / 10 ^ 14, 1 / 10 ^ 8, true, 501⟩, fun _ => 1 / √3, rfl, rfl, ?_, ?_⟩
  · intro x i
    simp only [noRoot]
    nlinarith [sq_nonneg (x i)]
  · obtain ⟨h1, h2⟩ := noRoot_pre ⟨1 / 10 ^ 14, 1 / 10 ^ 8, true, 501⟩ (by norm_num) (by norm_num) 501 0 1
      (by norm_num) (1 / √3) hs
    have hx : lmmcpProject noRoot (fun _ => 1 / √3) = fun _ => 1 / √3 := by
      funext i
      simp [lmmcpProject, noRoot]
    have hpsi : lmmcpPsi noRoot (fun _ => 1 / √3) = 656 / 9 := by
      unfold lmmcpPsi; rw [noRoot_sq _ hs]; norm_num
    unfold lmmcp
    simp only [hx, hpsi]
    rw [if_pos trivial, h2, if_neg (by norm_num), h1]
    unfold lmmcpFinish
    simp [lmmcpMain]

end Dolo
