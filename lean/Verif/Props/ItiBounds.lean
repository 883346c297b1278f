import Verif.Props.ItiConv
import Verif.Props.Newton
import Verif.Props.Loops

/-!
# C144: what convergence of improved time iteration says about bounds
-/

set_option linter.unusedSectionVars false

namespace Dolo

/-- The natural residual is at most three times the residual of improved time iteration. -/
theorem natural_le_iti (lb ub : Option ℝ) (x f e : ℝ) (he : e ≤ 30000)
    (h : |itiH (-itiH f (lb.map fun l => x - l)) (ub.map fun u => u - x)| ≤ e) : |naturalResidual lb ub x f| ≤ 3 * e := by
  have he0 : 0 ≤ e := le_trans (abs_nonneg _) h
  set P := itiH f (lb.map fun l => x - l) with hP
  set Q := -itiH (-P) (ub.map fun u => u - x) with hQ
  have hQe : |Q| ≤ e := by rw [hQ, abs_neg]; exact h
  have hsmall : ∀ (r d : ℝ), d ≤ 100000 → itiH r (some d) = phiFB r d := by
    intro r d hd
    simp [itiH, dinf, not_lt.2 hd, phiFB]
  have hbig : ∀ (r d : ℝ), 100000 < d → itiH r (some d) = r := by
    intro r d hd
    simp [itiH, dinf, hd]
  have hnone : ∀ r : ℝ, itiH r none = r := by
    intro r
    simp [itiH, dinf]
  -- bounds seen by the smoothing
  set lb' : Option ℝ := lb.filter fun l => x - l ≤ 100000 with hlb'
  set ub' : Option ℝ := ub.filter fun u => u - x ≤ 100000 with hub'
  have h1 : |naturalResidual lb' ub' x f| ≤ 3 * e := by
    refine natural_le lb' ub' x f P Q e ?_ ?_ hQe
    · rcases lb with _ | l
      · simp only [hlb', Option.filter_none]
        rw [hP, Option.map_none, hnone]
      · by_cases hl : x - l ≤ 100000
        · simp only [hlb', Option.filter_some, hl, decide_true, if_true]
          rw [hP, Option.map_some, hsmall _ _ hl]
        · simp only [hlb', Option.filter_some, hl, decide_false, Bool.false_eq_true, if_false]
          rw [hP, Option.map_some, hbig _ _ (not_le.1 hl)]
    · rcases ub with _ | u
      · simp only [hub', Option.filter_none]
        rw [hQ, Option.map_none, hnone, neg_neg]
      · by_cases hu : u - x ≤ 100000
        · simp only [hub', Option.filter_some, hu, decide_true, if_true]
          rw [hQ, Option.map_some, hsmall _ _ hu]
        · simp only [hub', Option.filter_some, hu, decide_false, Bool.false_eq_true, if_false]
          rw [hQ, Option.map_some, hbig _ _ (not_le.1 hu), neg_neg]
  have h2 := abs_le.1 h1
  have h3 : naturalResidual lb ub x f = naturalResidual lb' ub' x f := by
    -- a slack above the cut-off does not matter
    have low : (∀ l ∈ lb, 100000 < x - l → f ≤ x - l) → ∀ u, naturalResidual lb u x f = naturalResidual lb' u x f := by
      intro hf u
      rcases lb with _ | l
      · rfl
      · by_cases hl : x - l ≤ 100000
        · simp only [hlb', Option.filter_some, hl, decide_true, if_true]
        · simp only [hlb', Option.filter_some, hl, decide_false, Bool.false_eq_true, if_false]
          have : min f (x - l) = f := min_eq_left (hf l rfl (not_le.1 hl))
          rcases u with _ | u <;> simp only [naturalResidual, this]
    have hf : ∀ l ∈ lb, 100000 < x - l → f ≤ x - l := by
      intro l hl hb
      have hn : lb' = none := by
        rw [Option.mem_def] at hl
        rw [hlb', hl, Option.filter_some, if_neg (by simp only [decide_eq_true_eq, not_le]; exact hb)]
      rw [hn] at h2
      have : f ≤ naturalResidual none ub' x f := by
        rcases ub' with _ | u
        · exact le_rfl
        · exact le_max_left _ _
      linarith [h2.2]
    rw [low hf]
    rcases ub with _ | u
    · rfl
    · by_cases hu : u - x ≤ 100000
      · simp only [hub', Option.filter_some, hu, decide_true, if_true]
      · have hn : ub' = none := by
          rw [hub', Option.filter_some, if_neg (by simpa using hu)]
        rw [hn] at h2 ⊢
        have : naturalResidual lb' (some u) x f = max (naturalResidual lb' none x f) (x - u) := by
          rcases lb' with _ | l <;> rfl
        rw [this]
        refine max_eq_left ?_
        have := not_le.1 hu
        linarith [h2.1]
  rw [h3]
  exact h1

/-- What a small natural residual means. -/
theorem natural_meaning (lb ub : Option ℝ) (x f δ : ℝ) (hb : ∀ l ∈ lb, ∀ u ∈ ub, l ≤ u) (h : |naturalResidual lb ub x f| ≤ δ) :
    (∀ l ∈ lb, l - δ ≤ x) ∧ (∀ u ∈ ub, x ≤ u + δ) ∧ ((∀ l ∈ lb, l + δ < x) → f ≤ δ) ∧ ((∀ u ∈ ub, x < u - δ) → -δ ≤ f) := by
  have h2 := abs_le.1 h
  have hδ : 0 ≤ δ := le_trans (abs_nonneg _) h
  rcases lb with _ | l <;> rcases ub with _ | u <;> simp only [naturalResidual] at h2
  · exact ⟨by simp, by simp, fun _ => h2.2, fun _ => h2.1⟩
  · refine ⟨by simp, ?_, fun _ => le_trans (le_max_left _ _) h2.2, fun hu => ?_⟩
    · rintro _ ⟨⟩
      linarith [le_trans (le_max_right _ _) h2.2]
    · have := hu u rfl
      rcases le_max_iff.1 h2.1 with h | h <;> linarith
  · refine ⟨?_, by simp, fun hl => ?_, fun _ => le_trans h2.1 (min_le_left _ _)⟩
    · rintro _ ⟨⟩
      linarith [le_trans h2.1 (min_le_right _ _)]
    · have := hl l rfl
      rcases min_le_iff.1 h2.2 with h | h <;> linarith
  · have hlu := hb l rfl u rfl
    have hm := le_trans (le_max_left _ _) h2.2
    have hu' := le_trans (le_max_right _ _) h2.2
    refine ⟨?_, ?_, fun hl => ?_, fun hu => ?_⟩
    · rintro _ ⟨⟩
      rcases le_max_iff.1 h2.1 with h | h
      · linarith [le_trans h (min_le_right _ _)]
      · linarith
    · rintro _ ⟨⟩
      linarith
    · have := hl l rfl
      rcases min_le_iff.1 hm with h | h <;> linarith
    · have := hu u rfl
      rcases le_max_iff.1 h2.1 with h | h
      · linarith [le_trans h (min_le_left _ _)]
      · linarith

/-- **C144.**  When `improved_time_iteration` converges on a model with complementarities, the controls returned respect their bounds up to
three times the tolerance; where a control is away from both bounds by more than that, its equation holds up to the same number; near a bound
the equation has the sign that the bound allows.  The residual is the one of the rule returned. -/
theorem C144_bounds (P : ItiProblem) (S : ItiSolvers) (method : InvMethod) (tol : ℝ) (smaxit b maxit : ℕ) (x0 : Ctrl P)
    (r : ITIResult (Ctrl P) ℝ) (hr : P.run S method tol smaxit (b + 1) maxit x0 = .ok r) (hconv : r.converged = true)
    (hc : P.constrained = true) (htol : tol ≤ 30000) (i n k : ℕ) (hi : i < P.nm) (hn : n < P.N) (hk : k < P.nx)
    (hb : ∀ l ∈ P.lb i n k, ∀ u ∈ P.ub i n k, l ≤ u) :
    (∀ l ∈ P.lb i n k, l - 3 * tol ≤ P.tab r.x i n k) ∧ (∀ u ∈ P.ub i n k, P.tab r.x i n k ≤ u + 3 * tol) ∧
    ((∀ l ∈ P.lb i n k, l + 3 * tol < P.tab r.x i n k) → P.raw (P.tab r.x) i n k ≤ 3 * tol) ∧
    ((∀ u ∈ P.ub i n k, P.tab r.x i n k < u - 3 * tol) → -(3 * tol) ≤ P.raw (P.tab r.x) i n k) := by
  have hmax : 1 ≤ maxit := by
    rcases maxit with _ | m
    · cases hr
    · omega
  obtain ⟨r', path, m, h1, -, -, -, -, h2, -⟩ := C29_improved_time_iteration (fun v => P.err (reshape3 P.nm P.N P.nx v))
    (fun v b => flatten3 P.nm P.N P.nx (P.trial S method tol smaxit (reshape3 P.nm P.N P.nx v) b)) b tol maxit hmax x0
  have hr' : r' = r := by
    have : (Except.ok r' : Except Err _) = .ok r := by rw [← h1, ← hr]; rfl
    injection this
  subst hr'
  have herr := (h2 hconv).1
  have ht := (tableMax_le_iff P.nm P.N P.nx _ tol (le_trans (tableMax_nonneg _ _ _ _) herr.le)).1 herr.le i hi n hn k hk
  apply natural_meaning _ _ _ _ _ hb
  apply natural_le_iti _ _ _ _ _ htol
  unfold ItiProblem.arrays at ht
  simp only [hc, if_true, negArrays, smoothArrays, mul_neg, mul_one, abs_neg] at ht
  exact ht

/-- The hypotheses of `C144_bounds` can be met: a problem where the bound `x <= 1` binds; the solution is at most `1.000003`. -/
example : ∃ (P : ItiProblem) (S : ItiSolvers) (x0 : Ctrl P) (maxit : ℕ) (r : ITIResult (Ctrl P) ℝ),
    P.run S .iti (1 / 1000000) 500 10 maxit x0 = .ok r ∧ P.ub 0 0 0 = some 1 ∧ P.tab r.x 0 0 0 ≤ 1 + 3 * (1 / 1000000) := by
  obtain ⟨P, S, x0, maxit, r, h, hconv, hc, h1, h2, h3, hl, hu⟩ := exists_bound_converges
  refine ⟨P, S, x0, maxit, r, h, hu, ?_⟩
  exact (C144_bounds P S .iti _ 500 9 maxit x0 r h hconv hc (by norm_num) 0 0 0 (by omega) (by omega) (by omega)
    (by rw [hl]; simp)).2.1 1 (by rw [hu]; rfl)

/-- **C144, without complementarities** all equations hold up to the tolerance. -/
theorem C144_unbounded (P : ItiProblem) (S : ItiSolvers) (method : InvMethod) (tol : ℝ) (smaxit b maxit : ℕ) (x0 : Ctrl P)
    (r : ITIResult (Ctrl P) ℝ) (hr : P.run S method tol smaxit (b + 1) maxit x0 = .ok r) (hconv : r.converged = true)
    (hc : P.constrained = false) (i n k : ℕ) (hi : i < P.nm) (hn : n < P.N) (hk : k < P.nx) :
    |P.raw (P.tab r.x) i n k| ≤ tol := by
  have hmax : 1 ≤ maxit := by
    rcases maxit with _ | m
    · cases hr
    · omega
  obtain ⟨r', path, m, h1, -, -, -, -, h2, -⟩ := C29_improved_time_iteration (fun v => P.err (reshape3 P.nm P.N P.nx v))
    (fun v b => flatten3 P.nm P.N P.nx (P.trial S method tol smaxit (reshape3 P.nm P.N P.nx v) b)) b tol maxit hmax x0
  have hr' : r' = r := by
    have : (Except.ok r' : Except Err _) = .ok r := by rw [← h1, ← hr]; rfl
    injection this
  subst hr'
  have herr := (h2 hconv).1
  have ht := (tableMax_le_iff P.nm P.N P.nx _ tol (le_trans (tableMax_nonneg _ _ _ _) herr.le)).1 herr.le i hi n hn k hk
  unfold ItiProblem.arrays at ht
  simpa only [hc, Bool.false_eq_true, if_false] using ht

end Dolo
