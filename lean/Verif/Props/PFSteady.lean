import Mathlib.Analysis.Calculus.Deriv.Pow
import Mathlib.Analysis.Calculus.FDeriv.Pow
import Verif.Props.PFLocal

/-!
# C126 continued: `deterministic_solve` near a steady state

The whole call, with its default guess, when the calibration is a regular steady state.
-/

set_option linter.unusedSectionVars false

namespace Dolo

open Filter Topology

section

variable {S X E : Type} [Fintype S] [Fintype X] [Fintype E] [DecidableEq S] [DecidableEq X]

/-- The calibration, repeated for ever. -/
def steadyPath (M : PFModel ℝ S X E) : ℕ → S ⊕ X → ℝ := fun _ => Sum.elim M.cS M.cX

/-- The exogenous path, and the values the call starts from, are within `r` of the calibration.  With a path given by the
user these values are those of `find_steady_state`, otherwise they are `s0` and `m0`, or the calibration itself. -/
def StartClose (M : PFModel ℝ S X E) (T : ℕ) (r : ℝ) (given : Bool) (eps : ℕ → E → ℝ) (s0 : Option (S → ℝ))
    (m0 : Option (E → ℝ)) : Prop :=
  (∀ t, t < T + 1 → ∀ e, |eps t e - M.cE e| ≤ r) ∧
  (given = true → (∀ a, |(M.findSteady (eps 0)).1 a - M.cS a| ≤ r) ∧ ∀ b, |(M.findSteady (eps 0)).2 b - M.cX b| ≤ r) ∧
  (given = false → (∀ s, s0 = some s → ∀ a, |s a - M.cS a| ≤ r) ∧ ∀ m, m0 = some m → ∀ e, |m e - M.cE e| ≤ r)

/-- The starting point and the default guess are then close to the steady state as well. -/
theorem start_close (M : PFModel ℝ S X E) {T : ℕ} (hT : 1 ≤ T) (hg : M.g M.cE M.cS M.cX M.cE = M.cS)
    (hs : ContDiffAt ℝ 1 (gAll M.g) (M.cE, M.cS, M.cX, M.cE)) :
    ∃ L ≥ (1 : ℝ), ∃ δ > 0, ∀ r, 0 ≤ r → r < δ → ∀ given eps s0 m0, StartClose M T r given eps s0 m0 →
      ∃ s0' x0 s1, pfStart M T given eps s0 m0 = .ok (s0', x0, s1) ∧
        DataClose (T + 1) (L * r) s1 M.cS eps (fun _ => M.cE) ∧ PFClose (T + 1) (L * r) (pfGuess M T s1) (steadyPath M) := by
  obtain ⟨K, U, hU, hK⟩ := hs.exists_lipschitzOnWith
  obtain ⟨δ, hδ, hball⟩ := Metric.mem_nhds_iff.1 hU
  refine ⟨max 1 K, le_max_left _ _, δ, hδ, fun r hr0 hr given eps s0 m0 ⟨h1, h2, h3⟩ => ?_⟩
  have key : ∀ (m : E → ℝ) (s : S → ℝ) (x : X → ℝ), (∀ e, |m e - M.cE e| ≤ r) → (∀ a, |s a - M.cS a| ≤ r) →
      (∀ b, |x b - M.cX b| ≤ r) → ∀ a, |M.g m s x (eps 1) a - M.cS a| ≤ max 1 K * r := by
    intro m s x hm hs' hx a
    have d1 : dist (m, s, x, eps 1) (M.cE, M.cS, M.cX, M.cE) ≤ r := by
      refine max_le ((dist_pi_le_iff hr0).2 hm) (max_le ((dist_pi_le_iff hr0).2 hs') (max_le ((dist_pi_le_iff hr0).2 hx)
        ((dist_pi_le_iff hr0).2 fun e => h1 1 (by omega) e)))
    have h := hK.dist_le_mul _ (hball (Metric.mem_ball.2 (d1.trans_lt hr))) _ (hball (Metric.mem_ball_self hδ))
    have h' : dist (M.g m s x (eps 1)) (M.g M.cE M.cS M.cX M.cE) ≤ K * r :=
      h.trans (mul_le_mul_of_nonneg_left d1 K.2)
    rw [hg] at h'
    exact ((dist_le_pi_dist _ _ a).trans h').trans (mul_le_mul_of_nonneg_right (le_max_right _ _) hr0)
  have hLr : r ≤ max 1 K * r := le_mul_of_one_le_left hr0 (le_max_left _ _)
  have guess : ∀ s1 : S → ℝ, (∀ a, |s1 a - M.cS a| ≤ max 1 (K : ℝ) * r) →
      PFClose (T + 1) (max 1 K * r) (pfGuess M T s1) (steadyPath M) := by
    intro s1 hs1 t ht c
    have hT' : (0 : ℝ) < T := by exact_mod_cast hT
    have l0 : 0 ≤ (t : ℝ) / T := by positivity
    have l1 : (t : ℝ) / T ≤ 1 := by
      rw [div_le_one hT']
      exact_mod_cast Nat.lt_succ_iff.1 ht
    rcases c with a | b
    · change |s1 a * (1 - (t : ℝ) / T) + M.cS a * ((t : ℝ) / T) - M.cS a| ≤ _
      have : s1 a * (1 - (t : ℝ) / T) + M.cS a * ((t : ℝ) / T) - M.cS a = (1 - (t : ℝ) / T) * (s1 a - M.cS a) := by ring
      rw [this, abs_mul, abs_of_nonneg (by linarith)]
      calc (1 - (t : ℝ) / T) * |s1 a - M.cS a| ≤ 1 * |s1 a - M.cS a| :=
            mul_le_mul_of_nonneg_right (by linarith) (abs_nonneg _)
        _ ≤ _ := by rw [one_mul]; exact hs1 a
    · change |M.cX b * (1 - (t : ℝ) / T) + M.cX b * ((t : ℝ) / T) - M.cX b| ≤ _
      have : M.cX b * (1 - (t : ℝ) / T) + M.cX b * ((t : ℝ) / T) - M.cX b = 0 := by ring
      rw [this, abs_zero]
      exact hr0.trans hLr
  have hT0 : ¬T = 0 := by omega
  cases given with
  | true =>
    obtain ⟨k1, k2⟩ := h2 rfl
    have hs1 := key (eps 0) _ _ (h1 0 (by omega)) k1 k2
    exact ⟨_, _, _, by unfold pfStart; rw [if_neg hT0]; rfl, ⟨hs1, fun t ht e => (h1 t ht e).trans hLr⟩, guess _ hs1⟩
  | false =>
    obtain ⟨k1, k2⟩ := h3 rfl
    have hs0 : ∀ a, |(s0.getD M.cS) a - M.cS a| ≤ r := by
      cases s0 with
      | none => intro a; simpa using hr0
      | some s => exact k1 s rfl
    have hm0 : ∀ e, |(m0.getD M.cE) e - M.cE e| ≤ r := by
      cases m0 with
      | none => intro a; simpa using hr0
      | some s => exact k2 s rfl
    have hs1 := key _ _ M.cX hm0 hs0 (fun b => by simpa using hr0)
    exact ⟨_, _, _, by unfold pfStart; rw [if_neg hT0]; rfl, ⟨hs1, fun t ht e => (h1 t ht e).trans hLr⟩, guess _ hs1⟩

/-- The call, once its starting values are known. -/
theorem pfSolveFree_eq (M : PFModel ℝ S X E) (d : PFDiff S X E)
    (spsolve : (ℕ → S ⊕ X → ℕ → S ⊕ X → ℝ) → (ℕ → S ⊕ X → ℝ) → ℕ → S ⊕ X → ℝ) {T : ℕ} (hT : 1 ≤ T) (given keep : Bool)
    (eps : ℕ → E → ℝ) (s0 : Option (S → ℝ)) (m0 : Option (E → ℝ)) (tol : ℝ) (maxit : ℕ) {s0' : S → ℝ} {x0 : X → ℝ}
    {s1 : S → ℝ} (h : pfStart M T given eps s0 m0 = .ok (s0', x0, s1)) :
    pfSolveFree M d spsolve T given keep eps s0 m0 tol maxit
      = .ok (pfTable T given keep s0' x0 (newton (pfNewton M d spsolve (T + 1) s1 eps) (1 / 10 ^ 6) 5 (pfGuess M T s1)).x eps,
          (newton (pfNewton M d spsolve (T + 1) s1 eps) (1 / 10 ^ 6) 5 (pfGuess M T s1)).warned) := by
  obtain ⟨res, eres, -⟩ := C38_residual_zero_iff M.g M.f (T + 1) (by omega) (pfGuess M T s1) s1 eps
  unfold pfSolveFree
  rw [h]
  change (detResidual M.g M.f (T + 1) (pfGuess M T s1) s1 eps).bind _ = _
  rw [eres]
  rfl

/-- **C126, the call near a steady state.**  If the calibration is a regular steady state, then `deterministic_solve` with
its default guess, applied to data within `r < δ` of the calibration, concerns a model that has a perfect foresight path
`u'` within `C r` of the steady state, and, as soon as `C r ρ⁴ < 1e-6`, the call succeeds, `newton` does not warn, and the
table contains a path within `C · 1e-6` of `u'`, the equations holding up to `1e-6`.  (Four steps: `newton` is called with
its default `maxit=5`.) -/
theorem C126_steady_state (M : PFModel ℝ S X E) (d : PFDiff S X E) (hd : d.IsDerivative M) {T : ℕ} (hT : 1 ≤ T)
    (hu : PFRegular M d (T + 1) M.cS (fun _ => M.cE) (steadyPath M))
    (spsolve : (ℕ → S ⊕ X → ℕ → S ⊕ X → ℝ) → (ℕ → S ⊕ X → ℝ) → ℕ → S ⊕ X → ℝ) (hsp : SpsolveExact (T + 1) spsolve)
    {ρ : ℝ} (hρ0 : 0 < ρ) (hρ1 : ρ < 1) :
    ∃ C > 0, ∃ δ > 0, ∀ r, 0 ≤ r → r < δ → ∀ given keep eps s0 m0 tol maxit, StartClose M T r given eps s0 m0 →
      ∃ s0' x0 s1 u', pfStart M T given eps s0 m0 = .ok (s0', x0, s1) ∧
        IsPFPath M.g M.f (T + 1) s1 eps (stOf u') (ctOf u') ∧ PFClose (T + 1) (C * r) u' (steadyPath M) ∧
        (C * r * ρ ^ 4 < 1 / 10 ^ 6 → ∃ sol,
          pfSolveFree M d spsolve T given keep eps s0 m0 tol maxit = .ok (pfTable T given keep s0' x0 sol eps, false) ∧
          PFClose (T + 1) (C * (1 / 10 ^ 6)) sol u' ∧
          ∀ t, t < T + 1 → ∀ c, |pfRes M (T + 1) sol s1 eps t c| < 1 / 10 ^ 6) := by
  have hN : 2 ≤ T + 1 := by omega
  obtain ⟨L, hL, δ1, hδ1, hstart⟩ := start_close M hT (by
    have := hu.path.transition 0 (by omega)
    exact this.symm) (hu.smooth.transition 0 (by omega))
  obtain ⟨C, hC, ε, hε, δ, hδ, h⟩ := C126_newton M d hd hN M.cS (fun _ => M.cE) (steadyPath M) hu spsolve hsp hρ0 hρ1
  have hL0 : 0 < L := by linarith
  refine ⟨C * L, mul_pos hC hL0, min δ1 (δ / L), lt_min hδ1 (div_pos hδ hL0),
    fun r hr0 hr given keep eps s0 m0 tol maxit hclose => ?_⟩
  obtain ⟨s0', x0, s1, e1, e2, e3⟩ := hstart r hr0 (hr.trans_le (min_le_left _ _)) given eps s0 m0 hclose
  have hLr : L * r < δ := by
    have := hr.trans_le (min_le_right _ _)
    rwa [lt_div_iff₀ hL0, mul_comm] at this
  obtain ⟨u', h1, h2, -, h4⟩ := h (L * r) (by positivity) hLr s1 eps e2
  refine ⟨s0', x0, s1, u', e1, h1, by rw [mul_assoc]; exact h2, fun htol => ?_⟩
  obtain ⟨p1, -, p3, p4⟩ := (h4 _ e3).2 (1 / 10 ^ 6) (by norm_num) 4 (by rw [← mul_assoc]; exact htol) 5 (by norm_num)
  obtain ⟨res, eres, -⟩ := C38_residual_zero_iff M.g M.f (T + 1) hN (pfGuess M T s1) s1 eps
  refine ⟨_, ?_, fun t ht c => (p4 t ht c).trans ?_, p3⟩
  · rw [pfSolveFree_eq M d spsolve hT given keep eps s0 m0 tol maxit e1]
    rw [p1]
  · rw [mul_assoc, mul_comm L, ← mul_assoc]
    exact le_mul_of_one_le_right (by positivity) hL

/-- **C126, the call near a steady state, with constraints.**  The same with bounds that are not reached at the steady
state; `tol` and `maxit` are now those of the call. -/
theorem C126_steady_state_bounds (M : PFModel ℝ S X E) (d : PFDiff S X E) (hd : d.IsDerivative M) {T : ℕ} (hT : 1 ≤ T)
    (lb ub : ℕ → X → Option ℝ) (hb : PFBounds (T + 1) lb ub)
    (hu : PFRegular M d (T + 1) M.cS (fun _ => M.cE) (steadyPath M))
    (hin : ∀ t, t < T + 1 → ∀ b, (∀ l ∈ lb t b, l < M.cX b) ∧ ∀ h ∈ ub t b, M.cX b < h)
    (spsolve : (ℕ → S ⊕ X → ℕ → S ⊕ X → ℝ) → (ℕ → S ⊕ X → ℝ) → ℕ → S ⊕ X → ℝ) (hsp : SpsolveExact (T + 1) spsolve)
    {ρ : ℝ} (hρ0 : 0 < ρ) (hρ1 : ρ < 1) :
    ∃ C > 0, ∃ δ > 0, ∀ r, 0 ≤ r → r < δ → ∀ given keep eps s0 m0, StartClose M T r given eps s0 m0 →
      ∃ s0' x0 s1 u', pfStart M T given eps s0 m0 = .ok (s0', x0, s1) ∧
        IsPFMcpPath M (T + 1) s1 eps lb ub u' ∧ PFClose (T + 1) (C * r) u' (steadyPath M) ∧
        ∀ tol, 0 < tol → ∀ n0 : ℕ, C * r * ρ ^ n0 < tol → ∀ maxit, n0 < maxit → ∃ sol,
          pfSolveNcp M d spsolve T given keep eps s0 m0 lb ub tol maxit = .ok (pfTable T given keep s0' x0 sol eps, false) ∧
          PFClose (T + 1) (C * tol) sol u' := by
  have hN : 2 ≤ T + 1 := by omega
  have hf : ∀ t, t + 1 < T + 1 → ∀ b, M.f M.cE M.cS M.cX M.cE M.cS M.cX b = 0 := fun t ht b =>
    congrFun (hu.path.arbitrage t ht) b
  have hcr : ∀ t b, controlRes M (T + 1) (fun _ => M.cE) (steadyPath M) t b = 0 := by
    intro t b
    unfold controlRes
    by_cases c : t + 1 < T + 1
    · rw [if_pos c]
      exact hf t c b
    · rw [if_neg c]
      exact sub_self _
  have hu : PFMcpRegular M d (T + 1) M.cS (fun _ => M.cE) lb ub (steadyPath M) :=
    { initial := fun a => rfl
      transition := fun t ht a => congrFun (hu.path.transition t ht) a
      arbitrage := fun t ht b => .inl ⟨hcr t b, hin t ht b⟩
      smooth := hu.smooth
      regular := fun v hv => hu.regular v
        { initial := hv.initial
          transition := hv.transition
          arbitrage := fun t ht b _ => hv.arbitrage t ht b (fun h => h (hcr t b))
          bound := fun t ht b h => h.elim
          terminal := fun b _ => hv.terminal b (fun h => h (hcr _ b)) } }
  obtain ⟨L, hL, δ1, hδ1, hstart⟩ := start_close M hT (by
    funext a
    exact (hu.transition 0 (by omega) a).symm) (hu.smooth.transition 0 (by omega))
  obtain ⟨C, hC, ε, hε, δ, hδ, h⟩ :=
    C126_ncpsolve M d hd hN M.cS (fun _ => M.cE) lb ub hb (steadyPath M) hu spsolve hsp hρ0 hρ1
  have hL0 : 0 < L := by linarith
  refine ⟨C * L, mul_pos hC hL0, min δ1 (δ / L), lt_min hδ1 (div_pos hδ hL0),
    fun r hr0 hr given keep eps s0 m0 hclose => ?_⟩
  obtain ⟨s0', x0, s1, e1, e2, e3⟩ := hstart r hr0 (hr.trans_le (min_le_left _ _)) given eps s0 m0 hclose
  have hLr : L * r < δ := by
    have := hr.trans_le (min_le_right _ _)
    rwa [lt_div_iff₀ hL0, mul_comm] at this
  obtain ⟨u', h1, h2, -, h4⟩ := h (L * r) (by positivity) hLr s1 eps e2
  refine ⟨s0', x0, s1, u', e1, h1, by rw [mul_assoc]; exact h2, fun tol htol n0 hn0 maxit hmax => ?_⟩
  obtain ⟨p1, -, p3, p4⟩ := (h4 _ e3).2 tol htol n0 (by rw [← mul_assoc]; exact hn0) maxit hmax
  obtain ⟨res, eres, -⟩ := C38_residual_zero_iff M.g M.f (T + 1) hN (pfGuess M T s1) s1 eps
  refine ⟨_, ?_, fun t ht c => (p4 t ht c).trans ?_⟩
  · unfold pfSolveNcp
    rw [e1]
    change (detResidual M.g M.f (T + 1) (pfGuess M T s1) s1 eps).bind _ = _
    rw [eres]
    change Except.ok (_, (newton _ _ _ _).warned) = _
    rw [p1]
  · rw [mul_assoc, mul_comm L, ← mul_assoc]
    exact le_mul_of_one_le_right (by positivity) hL

/-- A solver with the contract asked of `spsolve` exists. -/
theorem spsolve_exists (N : ℕ) :
    ∃ spsolve : (ℕ → S ⊕ X → ℕ → S ⊕ X → ℝ) → (ℕ → S ⊕ X → ℝ) → ℕ → S ⊕ X → ℝ, SpsolveExact N spsolve := by
  have key : ∀ (J : ℕ → S ⊕ X → ℕ → S ⊕ X → ℝ) (b : ℕ → S ⊕ X → ℝ), ∃ w : ℕ → S ⊕ X → ℝ,
      (∀ w : Fin N × (S ⊕ X) → ℝ, (∀ ic : Fin N × (S ⊕ X), ∑ jc : Fin N × (S ⊕ X), J ic.1 ic.2 jc.1 jc.2 * w jc = 0) →
        w = 0) → ∀ ic : Fin N × (S ⊕ X), ∑ jc : Fin N × (S ⊕ X), J ic.1 ic.2 jc.1 jc.2 * w jc.1 jc.2 = b ic.1 ic.2 := by
    intro J b
    by_cases h : ∀ w : Fin N × (S ⊕ X) → ℝ,
        (∀ ic : Fin N × (S ⊕ X), ∑ jc : Fin N × (S ⊕ X), J ic.1 ic.2 jc.1 jc.2 * w jc = 0) → w = 0
    · let A : Matrix (Fin N × (S ⊕ X)) (Fin N × (S ⊕ X)) ℝ := fun ic jc => J ic.1 ic.2 jc.1 jc.2
      have hinj : Function.Injective A.mulVecLin := by
        rw [← LinearMap.ker_eq_bot, LinearMap.ker_eq_bot']
        exact fun w hw => h w fun ic => congrFun hw ic
      obtain ⟨w, hw⟩ := LinearMap.injective_iff_surjective.1 hinj (piOf N b)
      refine ⟨pathOf N w, fun _ ic => ?_⟩
      have hv' : ∀ jc : Fin N × (S ⊕ X), pathOf N w jc.1 jc.2 = w jc := fun jc => congrFun (piOf_pathOf w) jc
      simp only [hv']
      exact congrFun hw ic
    · exact ⟨0, fun h' => absurd h' h⟩
  choose f hf using key
  exact ⟨f, hf⟩

end

/-- Steady at `s = 0, x = c`: the state stays where it is, and the control should be equal to the state. -/
private noncomputable def exTol (c : ℝ) : PFModel ℝ Unit Unit Unit where
  g := fun _ s _ _ => s
  f := fun _ s x _ _ _ _ => x () - s ()
  cS := fun _ => 0
  cX := fun _ => c
  cE := fun _ => 0
  findSteady := fun _ => (fun _ => 0, fun _ => 0)

theorem exTol_rest (c : ℝ) (hc : |c| < 1 / 10 ^ 6) (d : PFDiff Unit Unit Unit)
    (spsolve : (ℕ → Unit ⊕ Unit → ℕ → Unit ⊕ Unit → ℝ) → (ℕ → Unit ⊕ Unit → ℝ) → ℕ → Unit ⊕ Unit → ℝ) (tol : ℝ) (maxit : ℕ) :
    pfSolveFree (exTol c) d spsolve 1 false false (fun _ _ => 0) none none tol maxit
      = .ok (pfTable 1 false false (fun _ => 0) (fun _ => c) (pfGuess (exTol c) 1 (fun _ => 0)) (fun _ _ => 0), false) := by
  have hg : pfGuess (exTol c) 1 (fun _ => 0) = fun _ => Sum.elim (fun _ => 0) (fun _ => c) := by
    funext t a
    rcases a with a | a
    · change 0 * _ + 0 * _ = (0 : ℝ)
      ring
    · change c * _ + c * _ = c
      ring
  obtain ⟨e1, e2, e3, e4⟩ := pfRes_entries (exTol c) (1 + 1) (by norm_num) (pfGuess (exTol c) 1 (fun _ => 0)) (fun _ => 0) (fun _ _ => 0)
  have hsmall : pfNorm (1 + 1) (pfRes (exTol c) (1 + 1) (pfGuess (exTol c) 1 (fun _ => 0)) (fun _ => 0) (fun _ _ => 0)) < 1 / 10 ^ 6 := by
    unfold pfNorm
    rw [Finset.fold_max_lt]
    refine ⟨by norm_num, ?_⟩
    rintro ⟨t, a⟩ -
    fin_cases t <;> rcases a with a | a
    · have := e1 a
      change |pfRes _ _ _ _ _ 0 (.inl a)| < _
      rw [this, hg]; norm_num
    · have := e3 0 a (by norm_num)
      change |pfRes _ _ _ _ _ 0 (.inr a)| < _
      rw [this, hg]
      change |c - 0| < _
      rw [sub_zero]; exact hc
    · have := e2 0 a (by norm_num)
      change |pfRes _ _ _ _ _ 1 (.inl a)| < _
      rw [this, hg]
      change |(0 : ℝ) - 0| < _
      norm_num
    · have := e4 a
      change |pfRes _ _ _ _ _ 1 (.inr a)| < _
      rw [this, hg]
      change |c - c| < _
      norm_num
  have e0 : pfStart (exTol c) 1 false (fun _ _ => (0 : ℝ)) none none
      = .ok ((fun _ => 0), (fun _ => c), fun _ => 0) := by
    unfold pfStart
    rw [if_neg (by norm_num)]
    rfl
  rw [pfSolveFree_eq (exTol c) d spsolve le_rfl false false _ none none tol maxit e0]
  have hn : newton (pfNewton (exTol c) d spsolve (1 + 1) (fun _ => 0) (fun _ _ => 0)) (1 / 10 ^ 6) 5
      (pfGuess (exTol c) 1 (fun _ => 0)) = ⟨pfGuess (exTol c) 1 (fun _ => 0), 0, false⟩ := by
    unfold newton newtonLoop
    exact if_pos hsmall
  rw [hn]

/-- **C126, the disagreement.**  Without constraints the arguments `tol` and `maxit` of `deterministic_solve` are not passed
to the solver.  There is a model for which every call, however small the tolerance asked for, returns without a warning
the control `5e-7` at all dates, although the only perfect foresight path has the control zero. -/
theorem C126_tolerance_ignored :
    ∃ M : PFModel ℝ Unit Unit Unit, ∀ d spsolve tol maxit,
      (∃ sol, pfSolveFree M d spsolve 1 false false (fun _ => M.cE) none none tol maxit
          = .ok (pfTable 1 false false M.cS M.cX sol (fun _ => M.cE), false) ∧
        ∀ t, sol t (.inr ()) = 5 / 10 ^ 7 ∧ sol t (.inl ()) = 0) ∧
      ∀ s x, IsPFPath M.g M.f 2 (M.g M.cE M.cS M.cX M.cE) (fun _ => M.cE) s x → x 0 () = 0 ∧ x 1 () = 0 := by
  refine ⟨exTol (5 / 10 ^ 7), fun d spsolve tol maxit => ⟨⟨_, exTol_rest (5 / 10 ^ 7) (by norm_num [abs_of_pos]) d spsolve tol maxit,
    fun t => ⟨?_, ?_⟩⟩, fun s x h => ?_⟩⟩
  · change (5 / 10 ^ 7 : ℝ) * _ + 5 / 10 ^ 7 * _ = 5 / 10 ^ 7
    ring
  · change (0 : ℝ) * _ + 0 * _ = 0
    ring
  · have h0 : x 0 () = 0 := by
      have h1 := congrFun (h.arbitrage 0 (by norm_num)) ()
      have h2 := congrFun h.initial ()
      change x 0 () - s 0 () = 0 at h1
      change s 0 () = 0 at h2
      linarith
    refine ⟨h0, ?_⟩
    have h3 := congrFun h.terminal ()
    exact h3.trans h0

/-! ### Examples -/

section examples

/-- A nonlinear model: `s' = s²` and `x³ + x = s + m`. -/
private noncomputable def exPF : PFModel ℝ Unit Unit Unit where
  g := fun _ s _ _ _ => s () ^ 2
  f := fun m s x _ _ _ _ => x () ^ 3 + x () - s () - m ()
  cS := fun _ => 0
  cX := fun _ => 0
  cE := fun _ => 0
  findSteady := fun _ => (fun _ => 0, fun _ => 0)

private noncomputable def exPFd : PFDiff Unit Unit Unit where
  g_s := fun _ s _ _ _ _ => 2 * s ()
  g_x := fun _ _ _ _ _ _ => 0
  f_s := fun _ _ _ _ _ _ _ _ => -1
  f_x := fun _ _ x _ _ _ _ _ => 3 * x () ^ 2 + 1
  f_S := fun _ _ _ _ _ _ _ _ => 0
  f_X := fun _ _ _ _ _ _ _ _ => 0

private noncomputable abbrev one : (Unit → ℝ) →L[ℝ] ℝ := ContinuousLinearMap.proj ()

private noncomputable def gS : ((Unit → ℝ) × (Unit → ℝ) × (Unit → ℝ) × (Unit → ℝ)) →L[ℝ] ℝ :=
  one.comp ((ContinuousLinearMap.fst ℝ _ _).comp (ContinuousLinearMap.snd ℝ _ _))

private theorem exPF_g (m s x m' : Unit → ℝ) :
    HasFDerivAt (gAll exPF.g) (ContinuousLinearMap.pi fun _ => (2 * s () ^ 1) • gS) (m, s, x, m') := by
  rw [hasFDerivAt_pi']
  intro _
  have h : HasFDerivAt (fun p => gS p ^ 2) _ (m, s, x, m') := gS.hasFDerivAt.pow 2
  refine (h.congr_fderiv ?_)
  ext <;> simp [gS]

private noncomputable def fM :
    ((Unit → ℝ) × (Unit → ℝ) × (Unit → ℝ) × (Unit → ℝ) × (Unit → ℝ) × (Unit → ℝ)) →L[ℝ] ℝ :=
  one.comp (ContinuousLinearMap.fst ℝ _ _)

private noncomputable def fS :
    ((Unit → ℝ) × (Unit → ℝ) × (Unit → ℝ) × (Unit → ℝ) × (Unit → ℝ) × (Unit → ℝ)) →L[ℝ] ℝ :=
  one.comp ((ContinuousLinearMap.fst ℝ _ _).comp (ContinuousLinearMap.snd ℝ _ _))

private noncomputable def fX :
    ((Unit → ℝ) × (Unit → ℝ) × (Unit → ℝ) × (Unit → ℝ) × (Unit → ℝ) × (Unit → ℝ)) →L[ℝ] ℝ :=
  one.comp ((ContinuousLinearMap.fst ℝ _ _).comp ((ContinuousLinearMap.snd ℝ _ _).comp (ContinuousLinearMap.snd ℝ _ _)))

private theorem exPF_f (m s x m' s' x' : Unit → ℝ) :
    HasFDerivAt (fAll exPF.f) (ContinuousLinearMap.pi fun _ => (3 * x () ^ 2) • fX + fX - fS - fM) (m, s, x, m', s', x') := by
  rw [hasFDerivAt_pi']
  intro _
  have h : HasFDerivAt (fun p => fX p ^ 3 + fX p - fS p - fM p) _ (m, s, x, m', s', x') :=
    (((fX.hasFDerivAt.pow 3).add fX.hasFDerivAt).sub fS.hasFDerivAt).sub fM.hasFDerivAt
  refine (h.congr_fderiv ?_)
  ext <;> simp [fX, fS, fM]

private theorem exPF_isDerivative : exPFd.IsDerivative exPF where
  g_s m s x m' _ a b := by rw [(exPF_g m s x m').fderiv]; simp [exPFd, gS]
  g_x m s x m' _ a b := by rw [(exPF_g m s x m').fderiv]; simp [exPFd, gS]
  f_s m s x m' s' x' _ a b := by rw [(exPF_f m s x m' s' x').fderiv]; simp [exPFd, fX, fS, fM]
  f_x m s x m' s' x' _ a b := by rw [(exPF_f m s x m' s' x').fderiv]; simp [exPFd, fX, fS, fM]
  f_S m s x m' s' x' _ a b := by rw [(exPF_f m s x m' s' x').fderiv]; simp [exPFd, fX, fS, fM]
  f_X m s x m' s' x' _ a b := by rw [(exPF_f m s x m' s' x').fderiv]; simp [exPFd, fX, fS, fM]

private theorem exPF_smooth (N : ℕ) (m : ℕ → Unit → ℝ) (u : ℕ → Unit ⊕ Unit → ℝ) : PFSmooth exPF N m u where
  transition t _ := by
    rw [contDiffAt_pi]
    intro _
    exact (gS.contDiff.pow 2).contDiffAt
  arbitrage t _ := by
    rw [contDiffAt_pi]
    intro _
    exact ((((fX.contDiff.pow 3).add fX.contDiff).sub fS.contDiff).sub fM.contDiff).contDiffAt

/-- Along a path on which the state is zero the linearised equations have no other solution than zero. -/
private theorem exPF_linear (N : ℕ) (hN : 2 ≤ N) (m : ℕ → Unit → ℝ) (u : ℕ → Unit ⊕ Unit → ℝ) (hu : ∀ t, u t (.inl ()) = 0)
    (binds : ℕ → Unit → Prop) (v : ℕ → Unit ⊕ Unit → ℝ) (hv : IsLinearPath exPFd N m u binds v) :
    ∀ t, t < N → ∀ c, v t c = 0 := by
  have hs : ∀ t, t < N → v t (.inl ()) = 0 := by
    intro t ht
    rcases t with _ | t
    · exact hv.initial ()
    · rw [hv.transition t ht ()]
      simp [exPFd, stOf, hu]
  have hx : ∀ t, t + 1 < N → v t (.inr ()) = 0 := by
    intro t ht
    by_cases hb : binds t ()
    · exact hv.bound t (by omega) () hb
    · have h := hv.arbitrage t ht () hb
      simp only [Finset.univ_unique, Finset.sum_singleton, PUnit.default_eq_unit, hs t (by omega), exPFd, mul_zero, zero_mul,
        zero_add, add_zero] at h
      rcases mul_eq_zero.1 h with h | h
      · exfalso
        have := sq_nonneg (ctOf u t ())
        linarith
      · exact h
  intro t ht c
  rcases c with a | b
  · exact hs t ht
  · by_cases c : t + 1 < N
    · exact hx t c
    · obtain rfl : t = N - 1 := by omega
      by_cases hb : binds (N - 1) ()
      · exact hv.bound _ (by omega) () hb
      · exact (hv.terminal () hb).trans (hx (N - 2) (by omega))

/-- The hypotheses of the theorems hold at the steady state of this model. -/
private theorem exPF_regular (T : ℕ) (hT : 1 ≤ T) : PFRegular exPF exPFd (T + 1) exPF.cS (fun _ => exPF.cE) (steadyPath exPF) where
  path :=
    { initial := rfl
      transition := fun t _ => by funext _; simp [exPF, stOf, steadyPath]
      arbitrage := fun t _ => by funext _; simp [exPF, stOf, ctOf, steadyPath]
      terminal := rfl }
  smooth := exPF_smooth _ _ _
  regular := exPF_linear _ (by omega) _ _ (fun _ => rfl) _

example : ∃ spsolve, ∃ C > 0, ∃ δ > 0, ∀ r, 0 ≤ r → r < δ → ∀ eps : ℕ → Unit → ℝ, (∀ t, t < 11 → ∀ e, |eps t e| ≤ r) →
    C * r * (1 / 10 : ℝ) ^ 4 < 1 / 10 ^ 6 → ∀ tol maxit, ∃ sol,
      pfSolveFree exPF exPFd spsolve 10 true true eps none none tol maxit
        = .ok (pfTable 10 true true exPF.cS exPF.cX sol eps, false) := by
  obtain ⟨spsolve, hsp⟩ := spsolve_exists (S := Unit) (X := Unit) 11
  obtain ⟨C, hC, δ, hδ, h⟩ := C126_steady_state exPF exPFd exPF_isDerivative (T := 10) (by norm_num)
    (exPF_regular 10 (by norm_num)) spsolve hsp (ρ := 1 / 10) (by norm_num) (by norm_num)
  refine ⟨spsolve, C, hC, δ, hδ, fun r hr0 hr eps heps hC' tol maxit => ?_⟩
  obtain ⟨s0', x0, s1, u', e1, -, -, h4⟩ := h r hr0 hr true true eps none none tol maxit
    ⟨fun t ht e => by simpa [exPF] using heps t ht e, fun _ => ⟨fun a => by simpa [exPF] using hr0, fun b => by simpa [exPF] using hr0⟩,
      fun h => by cases h⟩
  obtain ⟨sol, e2, -⟩ := h4 hC'
  have : s0' = exPF.cS ∧ x0 = exPF.cX := by
    unfold pfStart at e1
    simp only [exPF, if_true] at e1
    injection e1 with e1
    exact ⟨(congrArg Prod.fst e1).symm, (congrArg (fun p => p.2.1) e1).symm⟩
  exact ⟨sol, by rw [e2, this.1, this.2]⟩

/-- Three periods, the lower bound `0`, and a shock that makes it bind at the first date only. -/
private noncomputable def exPFm : ℕ → Unit → ℝ := fun t _ => if t = 0 then -2 else 2

private noncomputable def exPFu : ℕ → Unit ⊕ Unit → ℝ :=
  fun t => Sum.elim (fun _ => 0) (fun _ => if t = 0 then 0 else 1)

example : PFBounds (X := Unit) 3 (fun _ _ => some 0) (fun _ _ => none) ∧
    PFMcpRegular exPF exPFd 3 (fun _ => 0) exPFm (fun _ _ => some 0) (fun _ _ => none) exPFu ∧
    0 < exPF.f (exPFm 0) (stOf exPFu 0) (ctOf exPFu 0) (exPFm 1) (stOf exPFu 1) (ctOf exPFu 1) () := by
  refine ⟨⟨fun _ _ _ => by simp [BoundsOK], fun _ _ _ l hl => ?_, fun _ _ _ l hl => by cases hl⟩, ⟨fun _ => rfl,
    fun t _ a => by simp [exPF, exPFu, stOf], fun t ht b => ?_, exPF_smooth _ _ _,
    exPF_linear _ (by norm_num) _ _ (fun _ => rfl) _⟩, ?_⟩
  · cases hl; norm_num
  · rcases t with _ | t
    · exact .inr (.inl ⟨by simp [controlRes, exPF, exPFu, exPFm, stOf, ctOf], rfl, fun l hl => by cases hl⟩)
    · refine .inl ⟨?_, fun l hl => ?_, fun l hl => by cases hl⟩
      · unfold controlRes
        split_ifs
        · simp [exPF, exPFu, exPFm, stOf, ctOf]; norm_num
        · simp [exPFu]
      · cases hl
        simp [exPFu]
  · simp [exPF, exPFu, exPFm, stOf, ctOf]

/-- The last control at its bound, below the one before. -/
private noncomputable def exPFlast : ℕ → Unit ⊕ Unit → ℝ :=
  fun t => Sum.elim (fun _ => 0) (fun _ => if t = 2 then 0 else 1)

example : PFMcpRegular exPF exPFd 3 (fun _ => 0) (fun _ _ => 2) (fun _ _ => some 0) (fun _ _ => none) exPFlast ∧
    0 < controlRes exPF 3 (fun _ _ => 2) exPFlast 2 () := by
  refine ⟨⟨fun _ => rfl, fun t _ a => by simp [exPF, exPFlast, stOf], fun t ht b => ?_, exPF_smooth _ _ _,
    exPF_linear _ (by norm_num) _ _ (fun _ => rfl) _⟩, by simp [controlRes, exPFlast]⟩
  by_cases h : t = 2
  · subst h
    exact .inr (.inl ⟨by simp [controlRes, exPFlast], by simp [exPFlast], fun l hl => by cases hl⟩)
  · have ht' : t + 1 < 3 := by omega
    refine .inl ⟨?_, fun l hl => ?_, fun l hl => by cases hl⟩
    · unfold controlRes
      rw [if_pos ht']
      simp [exPF, exPFlast, stOf, ctOf, h]
      norm_num
    · cases hl
      simp [exPFlast, h]

end examples

end Dolo
