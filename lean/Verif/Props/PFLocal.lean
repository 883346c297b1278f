import Mathlib.Analysis.Normed.Module.FiniteDimension
import Mathlib.Analysis.Calculus.ContDiff.Basic
import Mathlib.Analysis.Calculus.ContDiff.RCLike
import Verif.Lemmas.PFStack
import Verif.Lemmas.NcpLocal
import Verif.Lemmas.TISerial

/-!
# C126: perfect foresight paths near a regular path

What `deterministic_solve` computes when the initial state and the shocks are close to those of a regular perfect
foresight path, for instance of a steady state.
-/

set_option linter.unusedSectionVars false

namespace Dolo

open Filter Topology

section

variable {S X E : Type} [Fintype S] [Fintype X] [Fintype E] [DecidableEq S] [DecidableEq X]

/-- Two paths differ by at most `r` over the first `N` periods. -/
def PFClose (N : ℕ) (r : ℝ) (u v : ℕ → S ⊕ X → ℝ) : Prop := ∀ t, t < N → ∀ c, |u t c - v t c| ≤ r

/-- Two initial states and two exogenous paths differ by at most `r`. -/
def DataClose (N : ℕ) (r : ℝ) (start' start : S → ℝ) (m' m : ℕ → E → ℝ) : Prop :=
  (∀ a, |start' a - start a| ≤ r) ∧ ∀ t, t < N → ∀ e, |m' t e - m t e| ≤ r

/-- The iterations started at `x0` stop without a warning after at most `n0` of them, as soon as `C r ρ ^ n0 < tol`; all
residuals are then below `tol` and the result is within `C tol` of the path `u`. -/
def PFStops {V J D : Type} (N : ℕ) (P : NewtonProblem ℝ (ℕ → S ⊕ X → ℝ) V J D)
    (res : (ℕ → S ⊕ X → ℝ) → ℕ → S ⊕ X → ℝ) (u : ℕ → S ⊕ X → ℝ) (C r ρ : ℝ) (x0 : ℕ → S ⊕ X → ℝ) : Prop :=
  ∀ tol, 0 < tol → ∀ n0 : ℕ, C * r * ρ ^ n0 < tol → ∀ maxit, n0 < maxit →
    (newton P tol maxit x0).warned = false ∧ (newton P tol maxit x0).it ≤ n0 ∧
    (∀ t, t < N → ∀ c, |res (newton P tol maxit x0).x t c| < tol) ∧ PFClose N (C * tol) (newton P tol maxit x0).x u

theorem PFClose.norm_le {N : ℕ} {r : ℝ} (hr : 0 ≤ r) {u v : ℕ → S ⊕ X → ℝ} (h : PFClose N r u v) :
    ‖piOf N u - piOf N v‖ ≤ r :=
  (pi_norm_le_iff_of_nonneg hr).2 fun ic => h ic.1 ic.1.2 ic.2

theorem pfClose_of_norm {N : ℕ} {r : ℝ} {u v : ℕ → S ⊕ X → ℝ} (h : ‖piOf N u - piOf N v‖ ≤ r) : PFClose N r u v :=
  fun t ht c => (norm_le_pi_norm (piOf N u - piOf N v) (⟨t, ht⟩, c)).trans h

theorem DataClose.norm_le {N : ℕ} {r : ℝ} (hr : 0 ≤ r) {start' start : S → ℝ} {m' m : ℕ → E → ℝ}
    (h : DataClose N r start' start m' m) : ‖dataOf N start' m' - dataOf N start m‖ ≤ r := by
  refine max_le ?_ ?_
  · exact (pi_norm_le_iff_of_nonneg hr).2 fun a => h.1 a
  · exact (pi_norm_le_iff_of_nonneg hr).2 fun t => (pi_norm_le_iff_of_nonneg hr).2 fun e => h.2 t t.2 e

theorem piOf_pathOf {N : ℕ} (z : PFVec N S X) : piOf N (pathOf N z) = z := by
  funext ⟨⟨i, hi⟩, c⟩
  simp [piOf, pathOf, hi]

/-- The common part of the two solvers. -/
theorem pf_core {J : Type} {N : ℕ} (Φ : PFVec N S X × PFData N S E → PFVec N S X)
    (A : PFVec N S X × PFData N S E →L[ℝ] PFVec N S X) (u : ℕ → S ⊕ X → ℝ) (start : S → ℝ) (m : ℕ → E → ℝ)
    (h0 : Φ (piOf N u, dataOf N start m) = 0) (hd : HasStrictFDerivAt Φ A (piOf N u, dataOf N start m))
    (hinj : ∀ v, A (v, 0) = 0 → v = 0) (B : PFVec N S X × PFData N S E → PFVec N S X →L[ℝ] PFVec N S X)
    (hB : ContinuousAt B (piOf N u, dataOf N start m)) (hB0 : ∀ v, B (piOf N u, dataOf N start m) v = A (v, 0))
    (P : (S → ℝ) → (ℕ → E → ℝ) → NewtonProblem ℝ (ℕ → S ⊕ X → ℝ) (ℕ → S ⊕ X → ℝ) J (ℕ → S ⊕ X → ℝ))
    (hnorm : ∀ start' m', (P start' m').norm = pfNorm N)
    (hsub : ∀ start' m' x dx t i c, (P start' m').sub x dx t i c = x i c - dx i c * t)
    (hf : ∀ start' m' x, piOf N ((P start' m').f x).1 = Φ (piOf N x, dataOf N start' m'))
    (hdir : ∃ ε1 > 0, ∀ start' m' y, ‖piOf N y - piOf N u‖ < ε1 → ‖dataOf N start' m' - dataOf N start m‖ < ε1 →
      (∀ v, B (piOf N y, dataOf N start' m') v = 0 → v = 0) →
      B (piOf N y, dataOf N start' m') (piOf N ((P start' m').dir y)) = Φ (piOf N y, dataOf N start' m'))
    {ρ : ℝ} (hρ0 : 0 < ρ) (hρ1 : ρ < 1) :
    ∃ C > 0, ∃ ε > 0, ∃ δ > 0, ∀ r, 0 ≤ r → r < δ → ∀ start' m', DataClose N r start' start m' m →
      ∃ u', Φ (piOf N u', dataOf N start' m') = 0 ∧ PFClose N (C * r) u' u ∧
        (∀ u'', Φ (piOf N u'', dataOf N start' m') = 0 → PFClose N ε u'' u → PFClose N 0 u'' u') ∧
        ∀ guess, PFClose N r guess u →
          (∀ b, PFClose N b guess u' → PFClose N (ρ * b) ((P start' m').next guess) u') ∧
          PFStops N (P start' m') (fun x => ((P start' m').f x).1) u' C r ρ guess := by
  obtain ⟨ε1, hε1, hdir⟩ := hdir
  obtain ⟨C, hC, ε0, hε0, hfam⟩ := family_local (X := ℕ → S ⊕ X → ℝ) (V := ℕ → S ⊕ X → ℝ) (J := J)
    (D := ℕ → S ⊕ X → ℝ) Φ A (piOf N u) (dataOf N start m) h0 hd hinj B hB hB0 hρ0 hρ1
  obtain ⟨δ, hδ, hδfam⟩ := hfam (min ε0 ε1) (lt_min hε0 hε1) (min_le_left _ _)
  have hε : 0 < min ε0 ε1 := lt_min hε0 hε1
  refine ⟨2 * C, by positivity, min ε0 ε1 / 2, by positivity, min δ ε1, lt_min hδ hε1,
    fun r hr0 hr start' m' hdata => ?_⟩
  have hq := hdata.norm_le hr0
  obtain ⟨z, hz0, hz, hzu, hnew⟩ := hδfam (dataOf N start' m') (hq.trans_lt (hr.trans_le (min_le_left _ _)))
  refine ⟨pathOf N z, by rw [piOf_pathOf]; exact hz0, ?_, ?_, ?_⟩
  · refine pfClose_of_norm ?_
    rw [piOf_pathOf]
    refine hz.trans ?_
    have := mul_le_mul_of_nonneg_left hq hC.le
    nlinarith [mul_nonneg hC.le hr0]
  · intro u'' hu'' hcl
    have h1 := hcl.norm_le (by positivity)
    have := hzu (piOf N u'') (by linarith) hu''
    refine pfClose_of_norm ?_
    rw [piOf_pathOf, this, sub_self, norm_zero]
  · intro guess hguess
    have hg := hguess.norm_le hr0
    have hview : NewtonView (P start' m') (fun w => Φ (w, dataOf N start' m')) (piOf N) (piOf N) := by
      constructor
      · intro x
        rw [hnorm, pfNorm_eq, hf]
      · intro x dx t
        funext ic
        simp only [piOf, hsub, Pi.sub_apply, Pi.smul_apply, smul_eq_mul]
        ring
    obtain ⟨n1, n2⟩ := hnew (P start' m') (piOf N) (piOf N) hview (fun y hy hinj' =>
      hdir start' m' y (hy.trans_le (min_le_right _ _)) (hq.trans_lt (hr.trans_le (min_le_right _ _))) hinj')
    have hgδ : ‖piOf N guess - piOf N u‖ < δ := hg.trans_lt (hr.trans_le (min_le_left _ _))
    constructor
    · intro b hb
      by_cases hb0 : 0 ≤ b
      · refine pfClose_of_norm ?_
        have h1 := n1 guess hgδ
        have h2 := hb.norm_le hb0
        rw [piOf_pathOf] at h2 ⊢
        exact h1.trans (mul_le_mul_of_nonneg_left h2 hρ0.le)
      · intro t ht c
        exact absurd ((abs_nonneg _).trans (hb t ht c)) hb0
    · intro tol htol n0 hn0 maxit hmax
      obtain ⟨a1, a2, a3, a4⟩ := n2 guess hgδ tol htol n0 (by
        refine lt_of_le_of_lt (mul_le_mul_of_nonneg_right ?_ (by positivity)) hn0
        have := mul_le_mul_of_nonneg_left (add_le_add hg hq) hC.le
        linarith) maxit hmax
      refine ⟨a1, a2, fun t ht c => ?_, pfClose_of_norm ?_⟩
      · rw [← hf] at a3
        exact (norm_le_pi_norm (piOf N ((P start' m').f (newton (P start' m') tol maxit guess).x).1) (⟨t, ht⟩, c)).trans_lt a3
      · rw [piOf_pathOf]
        refine a4.trans ?_
        have := mul_le_mul_of_nonneg_left a3.le hC.le
        nlinarith [mul_pos hC htol]

/-- The model functions are continuously differentiable at the points of the path where they are evaluated. -/
structure PFSmooth (M : PFModel ℝ S X E) (N : ℕ) (m : ℕ → E → ℝ) (u : ℕ → S ⊕ X → ℝ) : Prop where
  transition : ∀ t, t + 1 < N → ContDiffAt ℝ 1 (gAll M.g) (m t, stOf u t, ctOf u t, m (t + 1))
  arbitrage : ∀ t, t + 1 < N → ContDiffAt ℝ 1 (fAll M.f) (m t, stOf u t, ctOf u t, m (t + 1), stOf u (t + 1), ctOf u (t + 1))

/-- `v` solves the equations linearised along the path `u`: it starts at zero, follows the linearised transition, and
satisfies the linearised arbitrage equations, the last control repeating the previous one, except at the dates and for the
controls selected by `binds`, which do not move. -/
structure IsLinearPath (d : PFDiff S X E) (N : ℕ) (m : ℕ → E → ℝ) (u : ℕ → S ⊕ X → ℝ) (binds : ℕ → X → Prop)
    (v : ℕ → S ⊕ X → ℝ) : Prop where
  initial : ∀ a, v 0 (.inl a) = 0
  transition : ∀ t, t + 1 < N → ∀ a, v (t + 1) (.inl a) =
    ∑ b, d.g_s (m t) (stOf u t) (ctOf u t) (m (t + 1)) a b * v t (.inl b) +
      ∑ b, d.g_x (m t) (stOf u t) (ctOf u t) (m (t + 1)) a b * v t (.inr b)
  arbitrage : ∀ t, t + 1 < N → ∀ b, ¬ binds t b →
    ∑ a, d.f_s (m t) (stOf u t) (ctOf u t) (m (t + 1)) (stOf u (t + 1)) (ctOf u (t + 1)) b a * v t (.inl a) +
      ∑ a, d.f_x (m t) (stOf u t) (ctOf u t) (m (t + 1)) (stOf u (t + 1)) (ctOf u (t + 1)) b a * v t (.inr a) +
      (∑ a, d.f_S (m t) (stOf u t) (ctOf u t) (m (t + 1)) (stOf u (t + 1)) (ctOf u (t + 1)) b a * v (t + 1) (.inl a) +
      ∑ a, d.f_X (m t) (stOf u t) (ctOf u t) (m (t + 1)) (stOf u (t + 1)) (ctOf u (t + 1)) b a * v (t + 1) (.inr a)) = 0
  bound : ∀ t, t < N → ∀ b, binds t b → v t (.inr b) = 0
  terminal : ∀ b, ¬ binds (N - 1) b → v (N - 1) (.inr b) = v (N - 2) (.inr b)

/-- A regular perfect foresight path: the equations linearised along the path have no other solution than zero. -/
structure PFRegular (M : PFModel ℝ S X E) (d : PFDiff S X E) (N : ℕ) (start : S → ℝ) (m : ℕ → E → ℝ)
    (u : ℕ → S ⊕ X → ℝ) : Prop where
  path : IsPFPath M.g M.f N start m (stOf u) (ctOf u)
  smooth : PFSmooth M N m u
  regular : ∀ v, IsLinearPath d N m u (fun _ _ => False) v → ∀ t, t < N → ∀ c, v t c = 0

/-- The contract of `scipy.sparse.linalg.spsolve`: it solves systems that have no other solution than zero for a zero right
hand side. -/
def SpsolveExact (N : ℕ) (spsolve : (ℕ → S ⊕ X → ℕ → S ⊕ X → ℝ) → (ℕ → S ⊕ X → ℝ) → ℕ → S ⊕ X → ℝ) : Prop :=
  ∀ J b, (∀ w : Fin N × (S ⊕ X) → ℝ, (∀ ic : Fin N × (S ⊕ X), ∑ jc : Fin N × (S ⊕ X), J ic.1 ic.2 jc.1 jc.2 * w jc = 0) →
      w = 0) →
    ∀ ic : Fin N × (S ⊕ X), ∑ jc : Fin N × (S ⊕ X), J ic.1 ic.2 jc.1 jc.2 * spsolve J b jc.1 jc.2 = b ic.1 ic.2

theorem pfPhi_zero_iff (M : PFModel ℝ S X E) {N : ℕ} (hN : 2 ≤ N) (u : ℕ → S ⊕ X → ℝ) (start : S → ℝ) (m : ℕ → E → ℝ) :
    pfPhi M N (piOf N u, dataOf N start m) = 0 ↔ IsPFPath M.g M.f N start m (stOf u) (ctOf u) := by
  obtain ⟨res, e, h⟩ := C38_residual_zero_iff M.g M.f N hN u start m
  rw [pfPhi_of M hN]
  have : pfRes M N u start m = res := by rw [pfRes, e]
  rw [this]
  refine Iff.trans ⟨fun h0 i c hi => ?_, fun h0 => ?_⟩ h
  · exact congrFun h0 (⟨i, hi⟩, c)
  · funext ic
    exact h0 ic.1 ic.2 ic.1.2

/-- Near a path along which the model functions are smooth, the stacked system is differentiable and the stacked Jacobian
is its derivative. -/
theorem pf_near (M : PFModel ℝ S X E) (d : PFDiff S X E) (hd : d.IsDerivative M) {N : ℕ} (hN : 2 ≤ N) (start : S → ℝ)
    (m : ℕ → E → ℝ) (u : ℕ → S ⊕ X → ℝ) (hs : PFSmooth M N m u) :
    ContDiffAt ℝ 1 (pfPhi M N) (piOf N u, dataOf N start m) ∧
    ∃ ε1 > 0, ∀ start' m' y, ‖piOf N y - piOf N u‖ < ε1 → ‖dataOf N start' m' - dataOf N start m‖ < ε1 →
      ∀ (v : PFVec N S X) (ic : Fin N × (S ⊕ X)),
        fderiv ℝ (pfPhi M N) (piOf N y, dataOf N start' m') (v, 0) ic
          = ∑ jc : Fin N × (S ⊕ X), detJac (pfBlocks d y m') N ic.1 ic.2 jc.1 jc.2 * v jc := by
  have hg : ∀ i, i + 1 < N → ContDiffAt ℝ 1 (gAll M.g) (gPoint N i (piOf N u, dataOf N start m)) := fun i hi => by
    rw [gPoint_of u start m hi]; exact hs.transition i hi
  have hf : ∀ i, i + 1 < N → ContDiffAt ℝ 1 (fAll M.f) (fPoint N i (piOf N u, dataOf N start m)) := fun i hi => by
    rw [fPoint_of u start m hi]; exact hs.arbitrage i hi
  have hΦ := pfPhi_contDiffAt M N hN _ hg hf
  refine ⟨hΦ, ?_⟩
  have ev1 : ∀ᶠ w in 𝓝 (piOf N u, dataOf N start m), ∀ i : Fin N, (i : ℕ) + 1 < N →
      DifferentiableAt ℝ (gAll M.g) (gPoint N i w) := by
    rw [eventually_all]
    intro i
    by_cases hi : (i : ℕ) + 1 < N
    · have h1 := (hg i hi).eventually (by simp)
      have h2 := (gPoint_contDiff (S := S) (X := X) (E := E) (N := N) i).continuous.continuousAt.eventually h1
      filter_upwards [h2] with w hw _
      exact hw.differentiableAt (by norm_num)
    · exact Eventually.of_forall fun w h => absurd h hi
  have ev2 : ∀ᶠ w in 𝓝 (piOf N u, dataOf N start m), ∀ i : Fin N, (i : ℕ) + 1 < N →
      DifferentiableAt ℝ (fAll M.f) (fPoint N i w) := by
    rw [eventually_all]
    intro i
    by_cases hi : (i : ℕ) + 1 < N
    · have h1 := (hf i hi).eventually (by simp)
      have h2 := (fPoint_contDiff (S := S) (X := X) (E := E) (N := N) i).continuous.continuousAt.eventually h1
      filter_upwards [h2] with w hw _
      exact hw.differentiableAt (by norm_num)
    · exact Eventually.of_forall fun w h => absurd h hi
  have ev3 : ∀ᶠ w in 𝓝 (piOf N u, dataOf N start m), DifferentiableAt ℝ (pfPhi M N) w := by
    filter_upwards [hΦ.eventually (by simp)] with w hw
    exact hw.differentiableAt (by norm_num)
  obtain ⟨ε1, hε1, hball⟩ := Metric.eventually_nhds_iff.1 ((ev1.and ev2).and ev3)
  refine ⟨ε1, hε1, fun start' m' y hy hq v ic => ?_⟩
  obtain ⟨⟨b1, b2⟩, b3⟩ := hball (y := (piOf N y, dataOf N start' m')) (by
    rw [Prod.dist_eq]
    simp only [dist_eq_norm]
    exact max_lt hy hq)
  rw [pfPhi_jacobian M d hd N hN _ (fun i hi => b1 ⟨i, by omega⟩ hi) (fun i hi => b2 ⟨i, by omega⟩ hi) b3]
  exact Finset.sum_congr rfl fun jc _ => by rw [detJac_of d hN y start' m']

/-- **C126, without constraints.**  Near a regular perfect foresight path, for every initial state and every exogenous path
close to the given ones, there is exactly one perfect foresight path close by; from any guess close to the given path every
iteration of `newton` divides the distance to the new path by `1 / ρ`, and `newton` stops there.  The rate `ρ` is
arbitrary. -/
theorem C126_newton (M : PFModel ℝ S X E) (d : PFDiff S X E) (hd : d.IsDerivative M) {N : ℕ} (hN : 2 ≤ N) (start : S → ℝ)
    (m : ℕ → E → ℝ) (u : ℕ → S ⊕ X → ℝ) (hu : PFRegular M d N start m u)
    (spsolve : (ℕ → S ⊕ X → ℕ → S ⊕ X → ℝ) → (ℕ → S ⊕ X → ℝ) → ℕ → S ⊕ X → ℝ) (hsp : SpsolveExact N spsolve)
    {ρ : ℝ} (hρ0 : 0 < ρ) (hρ1 : ρ < 1) :
    ∃ C > 0, ∃ ε > 0, ∃ δ > 0, ∀ r, 0 ≤ r → r < δ → ∀ start' m', DataClose N r start' start m' m →
      ∃ u', IsPFPath M.g M.f N start' m' (stOf u') (ctOf u') ∧ PFClose N (C * r) u' u ∧
        (∀ u'', IsPFPath M.g M.f N start' m' (stOf u'') (ctOf u'') → PFClose N ε u'' u → PFClose N 0 u'' u') ∧
        ∀ guess, PFClose N r guess u →
          (∀ b, PFClose N b guess u' → PFClose N (ρ * b) ((pfNewton M d spsolve N start' m').next guess) u') ∧
          PFStops N (pfNewton M d spsolve N start' m') (fun x => pfRes M N x start' m') u' C r ρ guess := by
  obtain ⟨hC1, ε1, hε1, hjac⟩ := pf_near M d hd hN start m u hu.smooth
  have hstrict := hC1.hasStrictFDerivAt (by norm_num)
  have hcont : ContinuousAt (fun w => (fderiv ℝ (pfPhi M N) w).comp
      (ContinuousLinearMap.inl ℝ (PFVec N S X) (PFData N S E))) (piOf N u, dataOf N start m) :=
    ((hC1.fderiv_right (m := 0) (by norm_num)).continuousAt).clm_comp continuousAt_const
  have hcore := pf_core (pfPhi M N) (fderiv ℝ (pfPhi M N) (piOf N u, dataOf N start m)) u start m
    ((pfPhi_zero_iff M hN u start m).2 hu.path) hstrict (fun v hv => by
      have hz := fun ic => (hjac start m u (by simpa using hε1) (by simpa using hε1) v ic).symm.trans (congrFun hv ic)
      have hrow := jac_rows (pfBlocks d u m) N hN (pathOf N v)
      have hv' : ∀ jc : Fin N × (S ⊕ X), pathOf N v jc.1 jc.2 = v jc := fun jc => congrFun (piOf_pathOf v) jc
      simp only [hv'] at hrow
      obtain ⟨r1, r2, r3, r4⟩ := hrow
      have := hu.regular (pathOf N v) ⟨fun a => ?_, fun t ht a => ?_, fun t ht b _ => ?_, fun t ht b hb => hb.elim, fun b _ => ?_⟩
      · funext ic
        rw [← hv' ic]
        exact this ic.1 ic.1.2 ic.2
      · have := hz (⟨0, by omega⟩, .inl a)
        rw [r1 a] at this
        exact neg_eq_zero.1 this
      · have := hz (⟨t + 1, ht⟩, .inl a)
        rw [r2 t ht a] at this
        exact (sub_eq_zero.1 this).symm
      · have := hz (⟨t, by omega⟩, .inr b)
        rw [r3 t ht b] at this
        exact this
      · have := hz (⟨N - 1, by omega⟩, .inr b)
        rw [r4 b] at this
        exact (sub_eq_zero.1 this).symm)
    _ hcont (fun v => rfl) (pfNewton M d spsolve N) (fun _ _ => rfl) (fun _ _ _ _ _ _ _ => rfl)
    (fun start' m' x => (pfPhi_of M hN x start' m').symm)
    ⟨ε1, hε1, fun start' m' y hy hq hinj => by
      funext ic
      have hns := hsp (detJac (pfBlocks d y m') N) (pfRes M N y start' m') (fun w hw => hinj w (by
        funext ic
        exact (hjac start' m' y hy hq w ic).trans (hw ic))) ic
      refine (hjac start' m' y hy hq _ ic).trans (hns.trans ?_)
      exact (congrFun (pfPhi_of M hN y start' m') ic).symm⟩ hρ0 hρ1
  obtain ⟨C, hC, ε, hε, δ, hδ, h⟩ := hcore
  refine ⟨C, hC, ε, hε, δ, hδ, fun r hr0 hr start' m' hdata => ?_⟩
  obtain ⟨u', h1, h2, h3, h4⟩ := h r hr0 hr start' m' hdata
  exact ⟨u', (pfPhi_zero_iff M hN u' start' m').1 h1, h2,
    fun u'' hu'' => h3 u'' ((pfPhi_zero_iff M hN u'' start' m').2 hu''), h4⟩

/-! ### With constraints -/

/-- A perfect foresight path under bounds on the controls: the transition equations hold, and the arbitrage equations in
the complementarity sense.  The condition on the last control holds in the same sense. -/
structure IsPFMcpPath (M : PFModel ℝ S X E) (N : ℕ) (start : S → ℝ) (m : ℕ → E → ℝ) (lb ub : ℕ → X → Option ℝ)
    (u : ℕ → S ⊕ X → ℝ) : Prop where
  initial : ∀ a, u 0 (.inl a) = start a
  transition : ∀ t, t + 1 < N → ∀ a, u (t + 1) (.inl a) = M.g (m t) (stOf u t) (ctOf u t) (m (t + 1)) a
  arbitrage : ∀ t, t + 1 < N → ∀ b, SolvesMCP (lb t b) (ub t b) (u t (.inr b))
    (M.f (m t) (stOf u t) (ctOf u t) (m (t + 1)) (stOf u (t + 1)) (ctOf u (t + 1)) b)
  terminal : ∀ b, SolvesMCP (lb (N - 1) b) (ub (N - 1) b) (u (N - 1) (.inr b)) (u (N - 2) (.inr b) - u (N - 1) (.inr b))

/-- The equation of a control at date `t`: the arbitrage equation, and at the last date the terminal condition. -/
def controlRes (M : PFModel ℝ S X E) (N : ℕ) (m : ℕ → E → ℝ) (u : ℕ → S ⊕ X → ℝ) (t : ℕ) (b : X) : ℝ :=
  if t + 1 < N then M.f (m t) (stOf u t) (ctOf u t) (m (t + 1)) (stOf u (t + 1)) (ctOf u (t + 1)) b
  else u (N - 2) (.inr b) - u (N - 1) (.inr b)

/-- A regular path under bounds: where a bound is reached the corresponding equation is slack (at the last date, the
terminal condition), and the equations linearised along the path, the controls at a bound being kept there, have no other
solution than zero. -/
structure PFMcpRegular (M : PFModel ℝ S X E) (d : PFDiff S X E) (N : ℕ) (start : S → ℝ) (m : ℕ → E → ℝ)
    (lb ub : ℕ → X → Option ℝ) (u : ℕ → S ⊕ X → ℝ) : Prop where
  initial : ∀ a, u 0 (.inl a) = start a
  transition : ∀ t, t + 1 < N → ∀ a, u (t + 1) (.inl a) = M.g (m t) (stOf u t) (ctOf u t) (m (t + 1)) a
  arbitrage : ∀ t, t < N → ∀ b, StrictMCP (lb t b) (ub t b) (u t (.inr b)) (controlRes M N m u t b)
  smooth : PFSmooth M N m u
  regular : ∀ v, IsLinearPath d N m u (fun t b => controlRes M N m u t b ≠ 0) v → ∀ t, t < N → ∀ c, v t c = 0

/-- Consistent bounds, none of them beyond the value `1e20` that `ncpsolve` takes for infinite. -/
structure PFBounds (N : ℕ) (lb ub : ℕ → X → Option ℝ) : Prop where
  le : ∀ t, t < N → ∀ b, BoundsOK (lb t b) (ub t b)
  lower : ∀ t, t < N → ∀ b, ∀ l ∈ lb t b, -(10 ^ 20 : ℝ) < l
  upper : ∀ t, t < N → ∀ b, ∀ h ∈ ub t b, h < (10 ^ 20 : ℝ)

theorem ncpLower_of {a : Option ℝ} (h : ∀ l ∈ a, -(10 ^ 20 : ℝ) < l) : ncpLower a = a := by
  cases a with
  | none => rfl
  | some l =>
    have := h l rfl
    simp only [ncpLower]
    rw [Option.filter_eq_some_iff]
    exact ⟨rfl, by simpa using this⟩

theorem ncpUpper_of {a : Option ℝ} (h : ∀ l ∈ a, l < (10 ^ 20 : ℝ)) : ncpUpper a = a := by
  cases a with
  | none => rfl
  | some l =>
    have := h l rfl
    simp only [ncpUpper]
    rw [Option.filter_eq_some_iff]
    exact ⟨rfl, by simpa using this⟩

/-- The smoothed stacked system. -/
noncomputable def pfPhiC (M : PFModel ℝ S X E) (N : ℕ) (lo hi : ℕ → S ⊕ X → Option ℝ) :
    PFVec N S X × PFData N S E → PFVec N S X :=
  fun w ic => ncpFxnew (w.1 ic) (ncpPval (w.1 ic) (-(pfPhi M N w ic)) (lo ic.1 ic.2)) (hi ic.1 ic.2)

theorem pfPhiC_zero_iff (M : PFModel ℝ S X E) {N : ℕ} (hN : 2 ≤ N) (lb ub : ℕ → X → Option ℝ) (hb : PFBounds N lb ub)
    (u : ℕ → S ⊕ X → ℝ) (start : S → ℝ) (m : ℕ → E → ℝ) :
    pfPhiC M N (pfBoundRows lb) (pfBoundRows ub) (piOf N u, dataOf N start m) = 0 ↔ IsPFMcpPath M N start m lb ub u := by
  obtain ⟨e1, e2, e3, e4⟩ := pfRes_entries M N hN u start m
  have key : ∀ (t : ℕ) (ht : t < N) (c : S ⊕ X),
      pfPhiC M N (pfBoundRows lb) (pfBoundRows ub) (piOf N u, dataOf N start m) (⟨t, ht⟩, c) = 0 ↔
        SolvesMCP (pfBoundRows lb t c) (pfBoundRows ub t c) (u t c) (pfRes M N u start m t c) := by
    intro t ht c
    have h1 : ncpLower (pfBoundRows (S := S) lb t c) = pfBoundRows lb t c := by
      rcases c with a | b
      · rfl
      · exact ncpLower_of (hb.lower t ht b)
    have h2 : ncpUpper (pfBoundRows (S := S) ub t c) = pfBoundRows ub t c := by
      rcases c with a | b
      · rfl
      · exact ncpUpper_of (hb.upper t ht b)
    have h3 : BoundsOK (pfBoundRows (S := S) lb t c) (pfBoundRows ub t c) := by
      rcases c with a | b
      · intro l hl
        simp [pfBoundRows] at hl
      · exact hb.le t ht b
    have := ncp_eq (u t c) (-pfRes M N u start m t c) _ _ h3
    rw [h1, h2, neg_neg] at this
    rw [← this]
    change ncpFxnew (u t c) (ncpPval (u t c) (-(pfPhi M N (piOf N u, dataOf N start m) (⟨t, ht⟩, c))) _) _ = 0 ↔ _
    rw [pfPhi_of M hN]
    rfl
  have hfree : ∀ x f : ℝ, SolvesMCP none none x f ↔ f = 0 := by
    intro x f
    simp only [SolvesMCP, Option.mem_def, reduceCtorEq, false_imp_iff, implies_true, true_and, imp_false, not_lt]
    exact ⟨fun h => le_antisymm h.1 h.2, fun h => by rw [h]; exact ⟨le_rfl, le_rfl⟩⟩
  constructor
  · intro h
    have h' := fun t ht c => (key t ht c).1 (congrFun h _)
    refine ⟨fun a => ?_, fun t ht a => ?_, fun t ht b => ?_, fun b => ?_⟩
    · have := (hfree _ _).1 (h' 0 (by omega) (.inl a))
      rw [e1] at this
      exact (sub_eq_zero.1 this).symm
    · have := (hfree _ _).1 (h' (t + 1) ht (.inl a))
      rw [e2 t a ht] at this
      exact (sub_eq_zero.1 this).symm
    · have := h' t (by omega) (.inr b)
      rw [e3 t b ht] at this
      exact this
    · have := h' (N - 1) (by omega) (.inr b)
      rw [e4] at this
      exact this
  · intro h
    funext ⟨⟨t, ht⟩, c⟩
    refine (key t ht c).2 ?_
    rcases c with a | b
    · refine (hfree _ _).2 ?_
      rcases t with _ | t
      · rw [e1, h.initial, sub_self]
      · rw [e2 t a ht, h.transition t ht, sub_self]
    · by_cases c : t + 1 < N
      · rw [e3 t b c]
        exact h.arbitrage t c b
      · obtain rfl : t = N - 1 := by omega
        rw [e4]
        exact h.terminal b

/-- **C126, with constraints.**  The same for `ncpsolve`, which is called when the model has bounds: near a regular path
there is, for all data close to the given ones, exactly one path under the bounds, and `ncpsolve` finds it. -/
theorem C126_ncpsolve (M : PFModel ℝ S X E) (d : PFDiff S X E) (hd : d.IsDerivative M) {N : ℕ} (hN : 2 ≤ N) (start : S → ℝ)
    (m : ℕ → E → ℝ) (lb ub : ℕ → X → Option ℝ) (hb : PFBounds N lb ub) (u : ℕ → S ⊕ X → ℝ)
    (hu : PFMcpRegular M d N start m lb ub u)
    (spsolve : (ℕ → S ⊕ X → ℕ → S ⊕ X → ℝ) → (ℕ → S ⊕ X → ℝ) → ℕ → S ⊕ X → ℝ) (hsp : SpsolveExact N spsolve)
    {ρ : ℝ} (hρ0 : 0 < ρ) (hρ1 : ρ < 1) :
    ∃ C > 0, ∃ ε > 0, ∃ δ > 0, ∀ r, 0 ≤ r → r < δ → ∀ start' m', DataClose N r start' start m' m →
      ∃ u', IsPFMcpPath M N start' m' lb ub u' ∧ PFClose N (C * r) u' u ∧
        (∀ u'', IsPFMcpPath M N start' m' lb ub u'' → PFClose N ε u'' u → PFClose N 0 u'' u') ∧
        ∀ guess, PFClose N r guess u →
          (∀ b, PFClose N b guess u' →
            PFClose N (ρ * b) ((pfNcp M d spsolve N start' m' (pfBoundRows lb) (pfBoundRows ub)).next guess) u') ∧
          PFStops N (pfNcp M d spsolve N start' m' (pfBoundRows lb) (pfBoundRows ub))
            (fun x => (pfFcmp M d N start' m' (pfBoundRows lb) (pfBoundRows ub) x).1) u' C r ρ guess := by
  obtain ⟨hC1, ε1, hε1, hjac⟩ := pf_near M d hd hN start m u hu.smooth
  have hstrict := hC1.hasStrictFDerivAt (by norm_num)
  set w0 : PFVec N S X × PFData N S E := (piOf N u, dataOf N start m) with hw0
  set lo : ℕ → S ⊕ X → Option ℝ := pfBoundRows lb with hlo
  set hi : ℕ → S ⊕ X → Option ℝ := pfBoundRows ub with hhi
  set A0 := fderiv ℝ (pfPhi M N) w0 with hA0
  obtain ⟨e1, e2, e3, e4⟩ := pfRes_entries M N hN u start m
  have hval : ∀ ic, pfPhi M N w0 ic = pfRes M N u start m ic.1 ic.2 := fun ic => congrFun (pfPhi_of M hN u start m) ic
  have hcr : ∀ t, t < N → ∀ b, pfRes M N u start m t (.inr b) = controlRes M N m u t b := by
    intro t ht b
    unfold controlRes
    by_cases c : t + 1 < N
    · rw [if_pos c, e3 t b c]
    · obtain rfl : t = N - 1 := by omega
      rw [if_neg c, e4 b]
  -- strict complementarity everywhere
  have hmcp : ∀ ic : Fin N × (S ⊕ X), StrictMCP (ncpLower (lo ic.1 ic.2)) (ncpUpper (hi ic.1 ic.2)) (w0.1 ic)
      (pfPhi M N w0 ic) := by
    rintro ⟨⟨t, ht⟩, c⟩
    rw [hval]
    rcases c with a | b
    · refine .inl ⟨?_, fun l hl => ?_, fun l hl => ?_⟩
      · rcases t with _ | t
        · exact (e1 a).trans (by rw [hu.initial, sub_self])
        · exact (e2 t a ht).trans (by rw [hu.transition t ht, sub_self])
      · simp [hlo, pfBoundRows, ncpLower] at hl
      · simp [hhi, pfBoundRows, ncpUpper] at hl
    · have h1 : ncpLower (lo t (.inr b)) = lb t b := ncpLower_of (hb.lower t ht b)
      have h2 : ncpUpper (hi t (.inr b)) = ub t b := ncpUpper_of (hb.upper t ht b)
      change StrictMCP (ncpLower (lo t (.inr b))) (ncpUpper (hi t (.inr b))) (u t (.inr b)) (pfRes M N u start m t (.inr b))
      rw [h1, h2]
      rw [hcr t ht b]
      exact hu.arbitrage t ht b
  -- strict derivative
  set r' : Fin N × (S ⊕ X) → (PFVec N S X × PFData N S E →L[ℝ] ℝ) := fun ic =>
    (ContinuousLinearMap.proj (R := ℝ) (φ := fun _ : Fin N × (S ⊕ X) => ℝ) ic).comp A0 with hr'
  set x' : Fin N × (S ⊕ X) → (PFVec N S X × PFData N S E →L[ℝ] ℝ) := fun ic =>
    (ContinuousLinearMap.proj (R := ℝ) (φ := fun _ : Fin N × (S ⊕ X) => ℝ) ic).comp
      (ContinuousLinearMap.fst ℝ (PFVec N S X) (PFData N S E)) with hx'
  set A : PFVec N S X × PFData N S E →L[ℝ] PFVec N S X :=
    ContinuousLinearMap.pi fun ic => if pfPhi M N w0 ic = 0 then -r' ic else -x' ic with hA
  have hstrictC : HasStrictFDerivAt (pfPhiC M N lo hi) A w0 := by
    rw [hasStrictFDerivAt_pi']
    intro ic
    have h1 : HasStrictFDerivAt (fun w => pfPhi M N w ic) (r' ic) w0 := hasStrictFDerivAt_pi'.1 hstrict ic
    have h2 : HasStrictFDerivAt (fun w : PFVec N S X × PFData N S E => w.1 ic) (x' ic) w0 := (x' ic).hasStrictFDerivAt
    exact strict_strict h1 h2 _ _ (hmcp ic)
  have hAapp : ∀ v ic, A (v, 0) ic = if pfPhi M N w0 ic = 0 then -(A0 (v, 0) ic) else -(v ic) := by
    intro v ic
    change (if pfPhi M N w0 ic = 0 then -r' ic else -x' ic) (v, 0) = _
    split_ifs <;> rfl
  -- the Jacobian of the code
  set B : PFVec N S X × PFData N S E → PFVec N S X →L[ℝ] PFVec N S X := fun w =>
    ContinuousLinearMap.pi fun ic =>
      (-(ncpFf (lo ic.1 ic.2) (hi ic.1 ic.2) (w.1 ic) (pfPhi M N w ic))) •
        ((ContinuousLinearMap.proj (R := ℝ) (φ := fun _ : Fin N × (S ⊕ X) => ℝ) ic).comp
          ((fderiv ℝ (pfPhi M N) w).comp (ContinuousLinearMap.inl ℝ (PFVec N S X) (PFData N S E)))) -
      (ncpXx (lo ic.1 ic.2) (hi ic.1 ic.2) (w.1 ic) (pfPhi M N w ic)) •
        (ContinuousLinearMap.proj (R := ℝ) (φ := fun _ : Fin N × (S ⊕ X) => ℝ) ic) with hB
  have hBapp : ∀ w v ic, B w v ic = -(ncpFf (lo ic.1 ic.2) (hi ic.1 ic.2) (w.1 ic) (pfPhi M N w ic)) *
      (fderiv ℝ (pfPhi M N) w (v, 0) ic) - ncpXx (lo ic.1 ic.2) (hi ic.1 ic.2) (w.1 ic) (pfPhi M N w ic) * v ic :=
    fun w v ic => rfl
  have hBcont : ContinuousAt B w0 := by
    rw [continuousAt_clm_apply]
    intro v
    rw [continuousAt_pi]
    intro ic
    simp only [hBapp]
    have c1 : ContinuousAt (fun w => pfPhi M N w ic) w0 := (continuous_apply ic).continuousAt.comp hC1.continuousAt
    have c2 : ContinuousAt (fun w : PFVec N S X × PFData N S E => w.1 ic) w0 := (x' ic).continuous.continuousAt
    obtain ⟨c3, c4⟩ := strict_continuousAt c1 c2 (lo ic.1 ic.2) (hi ic.1 ic.2) (hmcp ic)
    have c5 : ContinuousAt (fun w => fderiv ℝ (pfPhi M N) w (v, 0)) w0 :=
      ((hC1.fderiv_right (m := 0) (by norm_num)).continuousAt).clm_apply continuousAt_const
    exact (c3.neg.mul ((continuous_apply ic).continuousAt.comp c5)).sub (c4.mul continuousAt_const)
  have hB0 : ∀ v, B w0 v = A (v, 0) := by
    intro v
    funext ic
    obtain ⟨-, -, -, f1, f2⟩ := strict_values (lo ic.1 ic.2) (hi ic.1 ic.2) _ _ (hmcp ic)
    rw [hBapp, hAapp, f1, f2]
    split_ifs <;> simp [hA0]
  have hcore := pf_core (pfPhiC M N lo hi) A u start m
    (by
      funext ic
      exact (strict_values (lo ic.1 ic.2) (hi ic.1 ic.2) _ _ (hmcp ic)).2.2.1) hstrictC (fun v hv => by
      have hz : ∀ ic, pfPhi M N w0 ic = 0 →
          ∑ jc : Fin N × (S ⊕ X), detJac (pfBlocks d u m) N ic.1 ic.2 jc.1 jc.2 * v jc = 0 := by
        intro ic h
        have h1 := congrFun hv ic
        rw [hAapp, if_pos h] at h1
        exact (hjac start m u (by simpa using hε1) (by simpa using hε1) v ic).symm.trans (neg_eq_zero.1 h1)
      have hn : ∀ ic, pfPhi M N w0 ic ≠ 0 → v ic = 0 := by
        intro ic h
        have h1 := congrFun hv ic
        rw [hAapp, if_neg h] at h1
        exact neg_eq_zero.1 h1
      have hrow := jac_rows (pfBlocks d u m) N hN (pathOf N v)
      have hv' : ∀ jc : Fin N × (S ⊕ X), pathOf N v jc.1 jc.2 = v jc := fun jc => congrFun (piOf_pathOf v) jc
      simp only [hv'] at hrow
      obtain ⟨r1, r2, r3, r4⟩ := hrow
      have := hu.regular (pathOf N v) ⟨fun a => ?_, fun t ht a => ?_, fun t ht b hb' => ?_, fun t ht b hb' => ?_, fun b hb' => ?_⟩
      · funext ic
        rw [← hv' ic]
        exact this ic.1 ic.1.2 ic.2
      · have := hz (⟨0, by omega⟩, .inl a) ((hval _).trans ((e1 a).trans (by rw [hu.initial, sub_self])))
        rw [r1 a] at this
        exact neg_eq_zero.1 this
      · have := hz (⟨t + 1, ht⟩, .inl a) ((hval _).trans ((e2 t a ht).trans (by rw [hu.transition t ht, sub_self])))
        rw [r2 t ht a] at this
        exact (sub_eq_zero.1 this).symm
      · have := hz (⟨t, by omega⟩, .inr b) ((hval _).trans ((hcr t (by omega) b).trans (by simpa using hb')))
        rw [r3 t ht b] at this
        exact this
      · have := hn (⟨t, ht⟩, .inr b) (fun h => hb' ((hcr t ht b).symm.trans ((hval _).symm.trans h)))
        exact (hv' (⟨t, ht⟩, .inr b)).trans this
      · have := hz (⟨N - 1, by omega⟩, .inr b) ((hval _).trans ((hcr _ (by omega) b).trans (by simpa using hb')))
        rw [r4 b] at this
        exact (sub_eq_zero.1 this).symm)
    B hBcont hB0 (fun start' m' => pfNcp M d spsolve N start' m' lo hi) (fun _ _ => rfl) (fun _ _ _ _ _ _ _ => rfl)
    (fun start' m' x => by
      funext ic
      have := congrFun (pfPhi_of M hN x start' m') ic
      change ncpFxnew (x ic.1 ic.2) (ncpPval (x ic.1 ic.2) (-(pfRes M N x start' m' ic.1 ic.2)) (lo ic.1 ic.2)) (hi ic.1 ic.2)
        = ncpFxnew (x ic.1 ic.2) (ncpPval (x ic.1 ic.2) (-(pfPhi M N (piOf N x, dataOf N start' m') ic)) (lo ic.1 ic.2))
          (hi ic.1 ic.2)
      rw [this]
      rfl)
    ⟨ε1, hε1, fun start' m' y hy hq hinj => by
      have hsum : ∀ (v : PFVec N S X) (ic : Fin N × (S ⊕ X)), B (piOf N y, dataOf N start' m') v ic
          = ∑ jc : Fin N × (S ⊕ X), (pfFcmp M d N start' m' lo hi y).2 ic.1 ic.2 jc.1 jc.2 * v jc := by
        intro v ic
        rw [hBapp, hjac start' m' y hy hq v ic, congrFun (pfPhi_of M hN y start' m') ic]
        have hone : ∑ jc : Fin N × (S ⊕ X), (if (ic.1 : ℕ) = jc.1 ∧ ic.2 = jc.2 then
            ncpXx (lo ic.1 ic.2) (hi ic.1 ic.2) (y ic.1 ic.2) (pfRes M N y start' m' ic.1 ic.2) else 0) * v jc
            = ncpXx (lo ic.1 ic.2) (hi ic.1 ic.2) (y ic.1 ic.2) (pfRes M N y start' m' ic.1 ic.2) * v ic := by
          rw [Finset.sum_eq_single ic]
          · simp
          · intro jc _ hne
            rw [if_neg, zero_mul]
            rintro ⟨h1, h2⟩
            exact hne (Prod.ext (Fin.ext h1.symm) h2.symm)
          · intro h
            exact absurd (Finset.mem_univ _) h
        change _ * _ - ncpXx (lo ic.1 ic.2) (hi ic.1 ic.2) (y ic.1 ic.2) (pfRes M N y start' m' ic.1 ic.2) * v ic = _
        rw [← hone, Finset.mul_sum, ← Finset.sum_sub_distrib]
        refine Finset.sum_congr rfl fun jc _ => ?_
        rw [← mul_assoc, ← sub_mul]
        refine congrArg (· * v jc) ?_
        rw [neg_mul_comm]
        rfl
      funext ic
      have hns := hsp (pfFcmp M d N start' m' lo hi y).2 (pfFcmp M d N start' m' lo hi y).1 (fun w hw => hinj w (by
        funext ic
        exact (hsum w ic).trans (hw ic))) ic
      refine (hsum _ ic).trans (hns.trans ?_)
      change ncpFxnew (y ic.1 ic.2) (ncpPval (y ic.1 ic.2) (-(pfRes M N y start' m' ic.1 ic.2)) (lo ic.1 ic.2)) (hi ic.1 ic.2)
        = ncpFxnew (y ic.1 ic.2) (ncpPval (y ic.1 ic.2) (-(pfPhi M N (piOf N y, dataOf N start' m') ic)) (lo ic.1 ic.2))
          (hi ic.1 ic.2)
      rw [congrFun (pfPhi_of M hN y start' m') ic]
      rfl⟩ hρ0 hρ1
  obtain ⟨C, hC, ε, hε, δ, hδ, h⟩ := hcore
  refine ⟨C, hC, ε, hε, δ, hδ, fun r hr0 hr start' m' hdata => ?_⟩
  obtain ⟨u', h1, h2, h3, h4⟩ := h r hr0 hr start' m' hdata
  exact ⟨u', (pfPhiC_zero_iff M hN lb ub hb u' start' m').1 h1, h2,
    fun u'' hu'' => h3 u'' ((pfPhiC_zero_iff M hN lb ub hb u'' start' m').2 hu''), h4⟩

end

end Dolo
