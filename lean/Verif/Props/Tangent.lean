import Mathlib.Analysis.Calculus.FDeriv.Comp
import Mathlib.Analysis.Calculus.FDeriv.Prod
import Mathlib.Analysis.Calculus.FDeriv.Add
import Mathlib.Analysis.Calculus.ContDiff.Basic
import Mathlib.Analysis.Calculus.MeanValue
import Mathlib.Analysis.Calculus.ContDiff.RCLike
import Mathlib.Topology.Algebra.Module.FiniteDimension
import Mathlib.LinearAlgebra.Matrix.ToLin
import Verif.Props.SaddlePath
import Verif.Props.BlanchardKahn
import Verif.Props.Stability
import Verif.Props.Simulation

/-!
# C160: the first-order rule is tangent to the solution of the model
-/

set_option linter.unusedSectionVars false

namespace Dolo

open Matrix Filter Topology Asymptotics

section
variable {nm ns nx : ℕ}

/-- Multiplication by a matrix. -/
noncomputable def linMap {m n : ℕ} (A : Matrix (Fin m) (Fin n) ℝ) : (Fin n → ℝ) →L[ℝ] Fin m → ℝ :=
  LinearMap.toContinuousLinearMap A.mulVecLin

@[simp] theorem linMap_apply {m n : ℕ} (A : Matrix (Fin m) (Fin n) ℝ) (v : Fin n → ℝ) : linMap A v = A *ᵥ v := rfl

/-- `dv` holds the derivatives of the transition `g` and of the arbitrage equations `f` with respect to states and
controls, at the steady state. -/
structure DerivativesAt (dv : Derivs nm ns nx ℝ) (g : (Fin nm → ℝ) → (Fin ns → ℝ) → (Fin nx → ℝ) → (Fin nm → ℝ) → Fin ns → ℝ)
    (f : (Fin nm → ℝ) → (Fin ns → ℝ) → (Fin nx → ℝ) → (Fin nm → ℝ) → (Fin ns → ℝ) → (Fin nx → ℝ) → Fin nx → ℝ)
    (mb : Fin nm → ℝ) (sb : Fin ns → ℝ) (xb : Fin nx → ℝ) : Prop where
  transition : HasFDerivAt (fun p : (Fin ns → ℝ) × (Fin nx → ℝ) => g mb p.1 p.2 mb)
    ((linMap dv.g_s).comp (.fst ℝ _ _) + (linMap dv.g_x).comp (.snd ℝ _ _)) (sb, xb)
  arbitrage : HasFDerivAt
    (fun p : ((Fin ns → ℝ) × (Fin nx → ℝ)) × ((Fin ns → ℝ) × (Fin nx → ℝ)) => f mb p.1.1 p.1.2 mb p.2.1 p.2.2)
    (((linMap dv.f_s).comp (.fst ℝ _ _) + (linMap dv.f_x).comp (.snd ℝ _ _)).comp (.fst ℝ _ _)
      + ((linMap dv.f_S).comp (.fst ℝ _ _) + (linMap dv.f_X).comp (.snd ℝ _ _)).comp (.snd ℝ _ _)) ((sb, xb), (sb, xb))

/-- `φ` solves the model without shocks near the steady state, and the states stay within a multiple of the initial
displacement: at every date, for all states close enough. -/
structure StableSolution (g : (Fin nm → ℝ) → (Fin ns → ℝ) → (Fin nx → ℝ) → (Fin nm → ℝ) → Fin ns → ℝ)
    (f : (Fin nm → ℝ) → (Fin ns → ℝ) → (Fin nx → ℝ) → (Fin nm → ℝ) → (Fin ns → ℝ) → (Fin nx → ℝ) → Fin nx → ℝ)
    (mb : Fin nm → ℝ) (sb : Fin ns → ℝ) (xb : Fin nx → ℝ) (φ : (Fin ns → ℝ) → Fin nx → ℝ) : Prop where
  steady : φ sb = xb
  solves : ∀ᶠ s in 𝓝 sb, f mb s (φ s) mb (g mb s (φ s) mb) (φ (g mb s (φ s) mb)) = 0
  stable : ∃ c : ℝ, ∀ t : ℕ, ∀ᶠ s in 𝓝 sb, ‖(fun s => g mb s (φ s) mb)^[t] s - sb‖ ≤ c * ‖s - sb‖

variable {dv : Derivs nm ns nx ℝ} {g : (Fin nm → ℝ) → (Fin ns → ℝ) → (Fin nx → ℝ) → (Fin nm → ℝ) → Fin ns → ℝ}
  {f : (Fin nm → ℝ) → (Fin ns → ℝ) → (Fin nx → ℝ) → (Fin nm → ℝ) → (Fin ns → ℝ) → (Fin nx → ℝ) → Fin nx → ℝ}
  {mb : Fin nm → ℝ} {sb : Fin ns → ℝ} {xb : Fin nx → ℝ}

theorem step_deriv (hd : DerivativesAt dv g f mb sb xb) {φ : (Fin ns → ℝ) → Fin nx → ℝ} (h0 : φ sb = xb)
    {D : (Fin ns → ℝ) →L[ℝ] Fin nx → ℝ} (hφ : HasFDerivAt φ D sb) :
    HasFDerivAt (fun s => g mb s (φ s) mb) (linMap dv.g_s + (linMap dv.g_x).comp D) sb := by
  have h1 : HasFDerivAt (fun s => (s, φ s)) ((ContinuousLinearMap.id ℝ _).prod D) sb := (hasFDerivAt_id sb).prodMk hφ
  have ht := hd.transition
  rw [← h0] at ht
  have := HasFDerivAt.comp sb ht h1
  refine this.congr_fderiv ?_
  ext v
  simp

/-- **C160, the derivative.**  Every solution of the model that is differentiable at the steady state and stable has the
saddle path `C` of the linearised model as its derivative. -/
theorem C160_derivative (hd : DerivativesAt dv g f mb sb xb) (hg : g mb sb xb mb = sb) {C : Matrix (Fin nx) (Fin ns) ℝ}
    (hC : SaddlePath dv.g_s dv.g_x dv.f_s dv.f_x dv.f_S dv.f_X C) {φ : (Fin ns → ℝ) → Fin nx → ℝ}
    (hs : StableSolution g f mb sb xb φ) (hφ : DifferentiableAt ℝ φ sb) : HasFDerivAt φ (linMap C) sb := by
  obtain ⟨D, hD⟩ := hφ
  have hψ := step_deriv hd hs.steady hD
  set A := linMap dv.g_s + (linMap dv.g_x).comp D with hA
  have hψ0 : g mb sb (φ sb) mb = sb := by rw [hs.steady, hg]
  have hφψ : HasFDerivAt (fun s => φ (g mb s (φ s) mb)) (D.comp A) sb :=
    HasFDerivAt.comp (g := φ) (f := fun s => g mb s (φ s) mb) sb (by rw [hψ0]; exact hD) hψ
  have hres : linMap dv.f_s + (linMap dv.f_x).comp D + ((linMap dv.f_S).comp A + (linMap dv.f_X).comp (D.comp A)) = 0 := by
    have h1 : HasFDerivAt (fun s => ((s, φ s), (g mb s (φ s) mb, φ (g mb s (φ s) mb))))
        (((ContinuousLinearMap.id ℝ _).prod D).prod (A.prod (D.comp A))) sb :=
      ((hasFDerivAt_id sb).prodMk hD).prodMk (hψ.prodMk hφψ)
    have ha := hd.arbitrage
    have e : ((sb, xb), (sb, xb)) = ((sb, φ sb), (g mb sb (φ sb) mb, φ (g mb sb (φ sb) mb))) := by
      rw [hψ0, hs.steady]
    rw [e] at ha
    have h2 := HasFDerivAt.comp sb ha h1
    have h3 : HasFDerivAt (fun _ : Fin ns → ℝ => (0 : Fin nx → ℝ)) (0 : (Fin ns → ℝ) →L[ℝ] Fin nx → ℝ) sb :=
      hasFDerivAt_const _ _
    have h4 := (h2.congr_of_eventuallyEq (f₁ := fun _ : Fin ns → ℝ => (0 : Fin nx → ℝ))
      (by filter_upwards [hs.solves] with s hs' using hs'.symm)).unique h3
    rw [← h4]
    ext v
    simp
  obtain ⟨c, hc⟩ := hs.stable
  have hpow : ∀ t, ‖A ^ t‖ ≤ max c 0 := by
    intro t
    refine (hψ.iterate hψ0 t).le_of_lip' (le_max_right _ _) ?_
    filter_upwards [hc t] with s h
    have e : (fun s => g mb s (φ s) mb)^[t] sb = sb := Function.iterate_fixed hψ0 t
    rw [e]
    exact h.trans (mul_le_mul_of_nonneg_right (le_max_left _ _) (norm_nonneg _))
  have key : ∀ v, D v = C *ᵥ v := by
    intro v
    have hstep : ∀ t, (A ^ (t + 1)) v = A ((A ^ t) v) := fun t => by rw [pow_succ']; rfl
    have hb : ∀ t, ‖(A ^ t) v‖ ≤ max c 0 * ‖v‖ := fun t =>
      ((A ^ t).le_opNorm v).trans (mul_le_mul_of_nonneg_right (hpow t) (norm_nonneg _))
    have := (hC (fun t => (A ^ t) v) (fun t => D ((A ^ t) v))).1 ⟨⟨fun t => ?_, fun t => ?_⟩, ?_, ?_⟩ 0
    · simpa using this.1
    · change (A ^ (t + 1)) v = _
      rw [hstep, hA]
      simp
    · have := congrArg (fun L => L ((A ^ t) v)) hres
      change dv.f_s *ᵥ (A ^ t) v + dv.f_x *ᵥ D ((A ^ t) v) + dv.f_S *ᵥ (A ^ (t + 1)) v + dv.f_X *ᵥ D ((A ^ (t + 1)) v) = 0
      rw [hstep]
      simpa [add_assoc] using this
    · exact ⟨max c 0 * ‖v‖, fun t i => (norm_le_pi_norm ((A ^ t) v) i).trans (hb t)⟩
    · refine ⟨‖D‖ * (max c 0 * ‖v‖), fun t i => (norm_le_pi_norm (D ((A ^ t) v)) i).trans ?_⟩
      exact (D.le_opNorm _).trans (mul_le_mul_of_nonneg_left (hb t) (norm_nonneg _))
  have : D = linMap C := by
    ext v
    rw [key, linMap_apply]
  rwa [this] at hD

/-- **C160, uniqueness.**  All differentiable stable solutions have the same slopes at the steady state. -/
theorem C160_unique (hd : DerivativesAt dv g f mb sb xb) (hg : g mb sb xb mb = sb) {C : Matrix (Fin nx) (Fin ns) ℝ}
    (hC : SaddlePath dv.g_s dv.g_x dv.f_s dv.f_x dv.f_S dv.f_X C) {φ φ' : (Fin ns → ℝ) → Fin nx → ℝ}
    (hs : StableSolution g f mb sb xb φ) (hφ : DifferentiableAt ℝ φ sb)
    (hs' : StableSolution g f mb sb xb φ') (hφ' : DifferentiableAt ℝ φ' sb) :
    (fun s => φ s - φ' s) =o[𝓝 sb] fun s => s - sb := by
  have h := ((C160_derivative hd hg hC hs hφ).sub (C160_derivative hd hg hC hs' hφ')).isLittleO
  refine h.congr_left fun s => ?_
  simp [hs.steady, hs'.steady]

end

section perturb
variable {nm ns nx : ℕ} {dv : Derivs nm ns nx ℝ}
  {g : (Fin nm → ℝ) → (Fin ns → ℝ) → (Fin nx → ℝ) → (Fin nm → ℝ) → Fin ns → ℝ}
  {f : (Fin nm → ℝ) → (Fin ns → ℝ) → (Fin nx → ℝ) → (Fin nm → ℝ) → (Fin ns → ℝ) → (Fin nx → ℝ) → Fin nx → ℝ}
  {mb : Fin nm → ℝ} {sb : Fin ns → ℝ} {xb : Fin nx → ℝ}

/-- `perturb` returned the rule `dr` for the model, by a decomposition with real eigenvalues that satisfy the conditions
of Blanchard and Kahn, or for a model that satisfies these conditions with real or complex roots that `ordqz` sorts and
`select` tells apart (see C154). -/
structure PerturbReturns (dv : Derivs nm ns nx ℝ) (mb : Fin nm → ℝ) (sb : Fin ns → ℝ) (xb : Fin nx → ℝ)
    (dr : (Fin nm → ℝ) → (Fin ns → ℝ) → Fin nx → ℝ) : Prop where
  run : ∃ (solve : MatSolver ℝ) (qz : ∀ ns nx : ℕ, Matrix (Fin ns ⊕ Fin nx) (Fin ns ⊕ Fin nx) ℝ →
      Matrix (Fin ns ⊕ Fin nx) (Fin ns ⊕ Fin nx) ℝ → ℝ → QZ (Fin ns ⊕ Fin nx) ℝ) (cut : WithTop ℝ → WithTop ℝ → ℝ)
      (t : BiTaylor nm ns nx ℝ) (d : QZ (Fin ns ⊕ Fin nx) ℝ), solve.Correct ∧
    qz ns nx (pencilA dv.f_S dv.f_X) (pencilB dv.g_s dv.g_x dv.f_s dv.f_x) (1 - 1 / 10 ^ 8) = d ∧
    d.Correct (pencilA dv.f_S dv.f_X) (pencilB dv.g_s dv.g_x dv.f_s dv.f_x) ∧
    ((d.Triangular ∧ (∀ i, 1 < genEig d (.inl i)) ∧ ∀ j, genEig d (.inr j) < 1) ∨
      (BlanchardKahn dv.g_s dv.g_x dv.f_s dv.f_x dv.f_S dv.f_X ∧ d.Ordered (1 - 1 / 10 ^ 8) ∧
        SelectsStable (1 - 1 / 10 ^ 8) (pencilA dv.f_S dv.f_X) (pencilB dv.g_s dv.g_x dv.f_s dv.f_x))) ∧
    perturb1 solve qz cut .iid dv mb sb xb = .ok t ∧ ∀ m s, t.evalMS (.vec m) (.vec s) = .ok (.vec (dr m s))

theorem perturb_saddle {dr : (Fin nm → ℝ) → (Fin ns → ℝ) → Fin nx → ℝ} (h : PerturbReturns dv mb sb xb dr) :
    ∃ C, SaddlePath dv.g_s dv.g_x dv.f_s dv.f_x dv.f_S dv.f_X C ∧
      (∀ z, IsEigenvalue (dv.g_s + dv.g_x * C) z → ‖z‖ < 1) ∧ ∀ m s, dr m s = xb + C *ᵥ (s - sb) := by
  obtain ⟨solve, qz, cut, t, d, hsolve, rfl, hd, hsplit, hp, hdr⟩ := h.run
  obtain ⟨r, hr, hrule, -⟩ := perturb_rule hsolve qz cut dv mb sb xb t hp dr hdr
  rcases hsplit with ⟨ht, hst, hun⟩ | ⟨hbk, ho, hsel⟩
  · exact ⟨r.C, fun s x => C137_saddle_path hsolve hd ht hst hun cut r hr s x,
      C116_stable hsolve hd cut r hr ht hst, hrule⟩
  · obtain ⟨-, h1, h2⟩ := C154_saddle_path_partial hsolve hbk hd ho hsel cut r hr
    exact ⟨r.C, h2, h1, hrule⟩

theorem rule_deriv {C : Matrix (Fin nx) (Fin ns) ℝ} (mb : Fin nm → ℝ)
    {dr : (Fin nm → ℝ) → (Fin ns → ℝ) → Fin nx → ℝ} (h : ∀ m s, dr m s = xb + C *ᵥ (s - sb)) :
    HasFDerivAt (dr mb) (linMap C) sb := by
  have e : dr mb = fun s => xb + linMap C (s - sb) := by
    funext s
    rw [h, linMap_apply]
  rw [e]
  exact (HasFDerivAt.comp (g := linMap C) (f := fun s => s - sb) sb (linMap C).hasFDerivAt
    ((hasFDerivAt_id sb).sub_const sb)).const_add xb

/-- **C160.**  The rule that `perturb` returns is tangent, at the steady state, to every differentiable stable solution of
the nonlinear model: the error is small compared with the distance to the steady state. -/
theorem C160_tangent (hd : DerivativesAt dv g f mb sb xb) (hg : g mb sb xb mb = sb)
    {dr : (Fin nm → ℝ) → (Fin ns → ℝ) → Fin nx → ℝ} (h : PerturbReturns dv mb sb xb dr)
    {φ : (Fin ns → ℝ) → Fin nx → ℝ} (hs : StableSolution g f mb sb xb φ) (hφ : DifferentiableAt ℝ φ sb) :
    (fun s => φ s - dr mb s) =o[𝓝 sb] fun s => s - sb := by
  obtain ⟨C, hC, -, hr⟩ := perturb_saddle h
  have h1 := (C160_derivative hd hg hC hs hφ).isLittleO
  refine h1.congr_left fun s => ?_
  rw [hr, hs.steady, linMap_apply]
  abel

/-- **C160, quadratic error.**  When the solution is twice continuously differentiable at the steady state, the error is
at most a multiple of the squared distance. -/
theorem C160_quadratic (hd : DerivativesAt dv g f mb sb xb) (hg : g mb sb xb mb = sb)
    {dr : (Fin nm → ℝ) → (Fin ns → ℝ) → Fin nx → ℝ} (h : PerturbReturns dv mb sb xb dr)
    {φ : (Fin ns → ℝ) → Fin nx → ℝ} (hs : StableSolution g f mb sb xb φ) (hφ : ContDiffAt ℝ 2 φ sb) :
    ∃ L : ℝ, ∀ᶠ s in 𝓝 sb, ‖φ s - dr mb s‖ ≤ L * ‖s - sb‖ ^ 2 := by
  obtain ⟨C, hC, -, hr⟩ := perturb_saddle h
  have h1 := C160_derivative hd hg hC hs (hφ.differentiableAt (by norm_num))
  have h2 : ContDiffAt ℝ 1 (fderiv ℝ φ) sb := hφ.fderiv_right (by norm_num)
  obtain ⟨L, hL⟩ := ((h2.differentiableAt (by norm_num)).hasFDerivAt.isBigO_sub).bound
  have h3 : ∀ᶠ s in 𝓝 sb, DifferentiableAt ℝ φ s :=
    (hφ.eventually (by simp)).mono fun s hs => hs.differentiableAt (by norm_num)
  refine ⟨L, ?_⟩
  obtain ⟨r, hr0, hball⟩ := Metric.eventually_nhds_iff_ball.1 (hL.and h3)
  filter_upwards [Metric.ball_mem_nhds sb hr0] with s hsb
  have hseg : ∀ z ∈ segment ℝ sb s, z ∈ Metric.ball sb r ∧ ‖z - sb‖ ≤ ‖s - sb‖ := by
    intro z hz
    refine ⟨(convex_ball sb r).segment_subset (Metric.mem_ball_self hr0) hsb hz, ?_⟩
    have := (convex_closedBall sb ‖s - sb‖).segment_subset (Metric.mem_closedBall_self (norm_nonneg _))
      (by rw [Metric.mem_closedBall, dist_eq_norm]) hz
    rwa [Metric.mem_closedBall, dist_eq_norm] at this
  have hL0 : 0 ≤ L * ‖s - sb‖ := (norm_nonneg _).trans (hball s hsb).1
  have := (convex_segment sb s).norm_image_sub_le_of_norm_hasFDerivWithin_le' (𝕜 := ℝ) (f := φ) (f' := fderiv ℝ φ)
    (φ := linMap C) (C := L * ‖s - sb‖) (x := sb) (y := s)
    (fun z hz => (hball z (hseg z hz).1).2.hasFDerivAt.hasFDerivWithinAt)
    (fun z hz => by
      rw [← h1.fderiv]
      refine (hball z (hseg z hz).1).1.trans ?_
      rcases le_or_gt 0 L with hl | hl
      · exact mul_le_mul_of_nonneg_left (hseg z hz).2 hl
      · have : ‖s - sb‖ = 0 := by
          by_contra hne
          have : 0 < ‖s - sb‖ := lt_of_le_of_ne (norm_nonneg _) (Ne.symm hne)
          nlinarith
        have h5 := (hseg z hz).2
        rw [this] at h5 ⊢
        rw [le_antisymm h5 (norm_nonneg _)])
    (left_mem_segment ℝ sb s) (right_mem_segment ℝ sb s)
  have e : φ s - dr mb s = φ s - φ sb - linMap C (s - sb) := by
    rw [hr, hs.steady, linMap_apply]
    abel
  rw [e, pow_two, ← mul_assoc]
  exact this

theorem simLoop_iterate {M S X : Type} (g : M → S → X → M → S) (dr : M → S → X) (m : M) :
    ∀ (T t : ℕ) (s : S) (p : S × X), (simLoop g dr m s (List.replicate T m))[t]? = some p →
      p.1 = (fun s => g m s (dr m s) m)^[t] s ∧ p.2 = dr m p.1 := by
  intro T
  induction T with
  | zero => intro t s p h; simp [simLoop] at h
  | succ T ih =>
    intro t s p h
    rw [List.replicate_succ, simLoop] at h
    cases t with
    | zero =>
      simp only [List.getElem?_cons_zero, Option.some.injEq] at h
      subst h
      exact ⟨rfl, rfl⟩
    | succ t =>
      rw [List.getElem?_cons_succ] at h
      exact ih t _ p h

/-- **C160, simulations.**  Without shocks, `simulate` with the rule of `perturb` and with the solution give, from states near
the steady state, states and controls that differ by little compared with the initial distance, at every date. -/
theorem C160_paths (hd : DerivativesAt dv g f mb sb xb) (hg : g mb sb xb mb = sb)
    {dr : (Fin nm → ℝ) → (Fin ns → ℝ) → Fin nx → ℝ} (h : PerturbReturns dv mb sb xb dr)
    {φ : (Fin ns → ℝ) → Fin nx → ℝ} (hs : StableSolution g f mb sb xb φ) (hφ : DifferentiableAt ℝ φ sb) (T t : ℕ)
    (ε : ℝ) (hε : 0 < ε) :
    ∀ᶠ s0 in 𝓝 sb, ∀ sim sim' p p', simulateDriven g dr s0 T (List.replicate T mb) = .ok sim →
      simulateDriven g (fun _ => φ) s0 T (List.replicate T mb) = .ok sim' → sim[t]? = some p → sim'[t]? = some p' →
      ‖p.1 - p'.1‖ ≤ ε * ‖s0 - sb‖ ∧ ‖p.2 - p'.2‖ ≤ ε * ‖s0 - sb‖ := by
  obtain ⟨C, hC, -, hr⟩ := perturb_saddle h
  have h1 := C160_derivative hd hg hC hs hφ
  have h2 := rule_deriv mb hr
  have h2s : dr mb sb = xb := by rw [hr, sub_self, mulVec_zero, add_zero]
  have f1 : g mb sb (φ sb) mb = sb := by rw [hs.steady, hg]
  have f2 : g mb sb (dr mb sb) mb = sb := by rw [h2s, hg]
  have i1 := (step_deriv hd hs.steady h1).iterate f1 t
  have i2 := (step_deriv hd h2s h2).iterate f2 t
  have e1 : (fun s => g mb s (φ s) mb)^[t] sb = sb := Function.iterate_fixed f1 t
  have e2 : (fun s => g mb s (dr mb s) mb)^[t] sb = sb := Function.iterate_fixed f2 t
  have j1 := HasFDerivAt.comp (g := φ) (f := (fun s => g mb s (φ s) mb)^[t]) sb (by rw [e1]; exact h1) i1
  have j2 := HasFDerivAt.comp (g := dr mb) (f := (fun s => g mb s (dr mb s) mb)^[t]) sb (by rw [e2]; exact h2) i2
  have k1 := ((i2.sub i1).isLittleO).def hε
  have k2 := ((j2.sub j1).isLittleO).def hε
  filter_upwards [k1, k2] with s0 a1 a2 sim sim' p p' hsim hsim' hp hp'
  have run : ∀ (dr : (Fin nm → ℝ) → (Fin ns → ℝ) → Fin nx → ℝ) sim,
      simulateDriven g dr s0 T (List.replicate T mb) = .ok sim → sim = simLoop g dr mb s0 (List.replicate T mb) := by
    intro dr sim hsim
    cases T with
    | zero => simp [simulateDriven] at hsim
    | succ T =>
      simp only [simulateDriven, List.replicate_succ, firstRows, List.length_cons, List.length_replicate, lt_irrefl,
        if_false, Nat.add_eq_zero_iff, one_ne_zero, and_false, Bind.bind, Except.bind, pure, Except.pure, Except.ok.injEq,
        List.take_succ_cons] at hsim
      rw [← hsim, List.replicate_succ, List.take_of_length_le (by simp)]
  rw [run dr sim hsim] at hp
  rw [run _ sim' hsim'] at hp'
  obtain ⟨p1, p2⟩ := simLoop_iterate g dr mb T t s0 p hp
  obtain ⟨q1, q2⟩ := simLoop_iterate g (fun _ => φ) mb T t s0 p' hp'
  rw [p2, q2, p1, q1]
  simp only [Pi.sub_apply, e1, e2, sub_self, Function.comp_apply, h2s, hs.steady, sub_zero, ContinuousLinearMap.sub_apply,
    ContinuousLinearMap.zero_apply] at a1 a2
  exact ⟨a1, a2⟩

/-! ### All dates at once -/

private theorem linear_path (F : (Fin ns → ℝ) → Fin ns → ℝ) (A : Matrix (Fin ns) (Fin ns) ℝ) (hfix : F sb = sb)
    (hF : HasFDerivAt F (linMap A) sb) (hA : ∀ z, IsEigenvalue A z → ‖z‖ < 1) :
    ∃ C > 0, ∃ q, 0 < q ∧ q < 1 ∧ (∀ᶠ s in 𝓝 sb, ∀ n, ‖F^[n] s - sb‖ ≤ C * q ^ n * ‖s - sb‖) ∧
      ∀ r, q < r → ∀ ε > 0, ∀ᶠ s in 𝓝 sb, ∀ n, ‖F^[n] s - sb - A ^ n *ᵥ (s - sb)‖ ≤ ε * r ^ n * ‖s - sb‖ := by
  obtain ⟨c, hc, r2, hr2, hr2', hpow⟩ := powers_decay A hA
  obtain ⟨δ, hδ, C, hC, r1, hr1, hr1', hrate⟩ : ∃ δ > 0, ∃ C > 0, ∃ r, 0 < r ∧ r < 1 ∧ ∀ s, dist s sb < δ → ∀ n,
      dist (F^[n] s) sb ≤ C * r ^ n * dist s sb := by
    rcases isEmpty_or_nonempty (Fin ns) with h | h
    · refine ⟨1, one_pos, 1, one_pos, 1 / 2, by norm_num, by norm_num, fun s _ n => ?_⟩
      rw [Subsingleton.elim (F^[n] s) sb, Subsingleton.elim s sb]
      simp
    · obtain ⟨k, hk, hn⟩ := exists_pow_norm_lt_one A hA
      exact local_rate F A sb hfix hF hk hn
  have hq0 : 0 < max r1 r2 := lt_max_of_lt_left hr1
  have hrate' : ∀ s, dist s sb < δ → ∀ n, ‖F^[n] s - sb‖ ≤ C * max r1 r2 ^ n * ‖s - sb‖ := by
    intro s hs n
    rw [← dist_eq_norm, ← dist_eq_norm]
    refine (hrate s hs n).trans (mul_le_mul_of_nonneg_right (mul_le_mul_of_nonneg_left ?_ hC.le) dist_nonneg)
    exact pow_le_pow_left₀ hr1.le (le_max_left _ _) n
  have hpow' : ∀ (n : ℕ) v, ‖A ^ n *ᵥ v‖ ≤ c * max r1 r2 ^ n * ‖v‖ := by
    intro n v
    refine (hpow n v).trans (mul_le_mul_of_nonneg_right (mul_le_mul_of_nonneg_left ?_ hc.le) (norm_nonneg _))
    exact pow_le_pow_left₀ hr2.le (le_max_right _ _) n
  refine ⟨C, hC, max r1 r2, hq0, max_lt hr1' hr2', ?_, fun r hr ε hε => ?_⟩
  · filter_upwards [Metric.ball_mem_nhds sb hδ] with s hs
    exact hrate' s hs
  have hqle : max r1 r2 ≤ 1 := (max_lt hr1' hr2').le
  generalize max r1 r2 = q at *
  -- the rest of the expansion of `F` is at most `η` times the distance
  have hη : 0 < ε * (r - q) / (c * C) := div_pos (mul_pos hε (sub_pos.2 hr)) (mul_pos hc hC)
  obtain ⟨δ', hδ', hball⟩ := Metric.eventually_nhds_iff_ball.1 (hF.isLittleO.def hη)
  generalize hηe : ε * (r - q) / (c * C) = η at *
  have hq1 : ∀ n : ℕ, q ^ n * (r - q) * n ≤ q * r ^ n := by
    intro n
    induction n with
    | zero => simpa using hq0.le
    | succ n ih =>
      have h1 : q ^ n ≤ r ^ n := pow_le_pow_left₀ hq0.le hr.le n
      have h2 : 0 ≤ q * (r - q) := mul_nonneg hq0.le (sub_pos.2 hr).le
      push_cast
      have h3 := mul_le_mul_of_nonneg_left ih hq0.le
      have h4 := mul_le_mul_of_nonneg_left h1 h2
      rw [pow_succ, pow_succ]
      nlinarith
  have hmin : 0 < min δ (δ' / C) := lt_min hδ (div_pos hδ' hC)
  filter_upwards [Metric.ball_mem_nhds sb (lt_min hmin hδ')] with s hs n
  have hs1 : dist s sb < min δ (δ' / C) := lt_of_lt_of_le hs (min_le_left _ _)
  have hsδ : dist s sb < δ := lt_of_lt_of_le hs1 (min_le_left _ _)
  have hnear : ∀ n, F^[n] s ∈ Metric.ball sb δ' := by
    intro n
    have h1 := hrate' s hsδ n
    rw [Metric.mem_ball, dist_eq_norm]
    refine lt_of_le_of_lt h1 ?_
    have h2 : ‖s - sb‖ < δ' / C := by rw [← dist_eq_norm]; exact lt_of_lt_of_le hs1 (min_le_right _ _)
    have h3 : q ^ n ≤ 1 := pow_le_one₀ hq0.le hqle
    rw [lt_div_iff₀ hC] at h2
    nlinarith [norm_nonneg (s - sb), mul_nonneg hC.le (norm_nonneg (s - sb))]
  have key : ∀ n m, q * ‖A ^ m *ᵥ (F^[n] s - sb - A ^ n *ᵥ (s - sb))‖ ≤ n * (c * η * C * ‖s - sb‖) * q ^ (m + n) := by
    intro n
    induction n with
    | zero => intro m; simp
    | succ n ih =>
      intro m
      have e : A ^ m *ᵥ (F^[n + 1] s - sb - A ^ (n + 1) *ᵥ (s - sb))
          = A ^ (m + 1) *ᵥ (F^[n] s - sb - A ^ n *ᵥ (s - sb))
            + A ^ m *ᵥ (F (F^[n] s) - F sb - linMap A (F^[n] s - sb)) := by
        rw [Function.iterate_succ_apply', hfix, linMap_apply, pow_succ A m, ← mulVec_mulVec, ← mulVec_add]
        congr 1
        rw [mulVec_sub A (F^[n] s - sb), mulVec_mulVec, ← pow_succ']
        abel
      have h1 := ih (m + 1)
      have h2 := hpow' m (F (F^[n] s) - F sb - linMap A (F^[n] s - sb))
      have h3 := hball _ (hnear n)
      have h4 := hrate' s hsδ n
      have hqm := pow_pos hq0 m
      have hqn := pow_pos hq0 n
      rw [e]
      calc q * ‖A ^ (m + 1) *ᵥ (F^[n] s - sb - A ^ n *ᵥ (s - sb)) + A ^ m *ᵥ (F (F^[n] s) - F sb - linMap A (F^[n] s - sb))‖
          ≤ q * ‖A ^ (m + 1) *ᵥ (F^[n] s - sb - A ^ n *ᵥ (s - sb))‖
            + q * ‖A ^ m *ᵥ (F (F^[n] s) - F sb - linMap A (F^[n] s - sb))‖ := by
            rw [← mul_add]; exact mul_le_mul_of_nonneg_left (norm_add_le _ _) hq0.le
        _ ≤ n * (c * η * C * ‖s - sb‖) * q ^ (m + 1 + n) + q * (c * q ^ m * (η * (C * q ^ n * ‖s - sb‖))) := by
            refine add_le_add h1 (mul_le_mul_of_nonneg_left (h2.trans ?_) hq0.le)
            refine mul_le_mul_of_nonneg_left (h3.trans ?_) (by positivity)
            exact mul_le_mul_of_nonneg_left h4 hη.le
        _ = ((n + 1 : ℕ) : ℝ) * (c * η * C * ‖s - sb‖) * q ^ (m + (n + 1)) := by
            push_cast; ring
  have h0 := key n 0
  rw [pow_zero, one_mulVec, zero_add] at h0
  have hcη : c * η * C = ε * (r - q) := by
    rw [← hηe]; field_simp
  rw [hcη] at h0
  have h5 := mul_le_mul_of_nonneg_left (hq1 n) (mul_nonneg hε.le (norm_nonneg (s - sb)))
  refine le_of_mul_le_mul_left (h0.trans ?_) hq0
  nlinarith

theorem driven_run {g : (Fin nm → ℝ) → (Fin ns → ℝ) → (Fin nx → ℝ) → (Fin nm → ℝ) → Fin ns → ℝ}
    {dr : (Fin nm → ℝ) → (Fin ns → ℝ) → Fin nx → ℝ} {s0 : Fin ns → ℝ} {T : ℕ} {sim}
    (hsim : simulateDriven g dr s0 T (List.replicate T mb) = .ok sim) {t : ℕ} {p} (hp : sim[t]? = some p) :
    p.1 = (fun s => g mb s (dr mb s) mb)^[t] s0 ∧ p.2 = dr mb p.1 := by
  have e : sim = simLoop g dr mb s0 (List.replicate T mb) := by
    cases T with
    | zero => simp [simulateDriven] at hsim
    | succ T =>
      simp only [simulateDriven, List.replicate_succ, firstRows, List.length_cons, List.length_replicate, lt_irrefl,
        if_false, Nat.add_eq_zero_iff, one_ne_zero, and_false, Bind.bind, Except.bind, pure, Except.pure, Except.ok.injEq,
        List.take_succ_cons] at hsim
      rw [← hsim, List.replicate_succ, List.take_of_length_le (by simp)]
  rw [e] at hp
  exact simLoop_iterate g dr mb T t s0 p hp

private theorem uniform_core {A : Matrix (Fin ns) (Fin ns) ℝ} (hA : ∀ z, IsEigenvalue A z → ‖z‖ < 1)
    {g g' : (Fin nm → ℝ) → (Fin ns → ℝ) → (Fin nx → ℝ) → (Fin nm → ℝ) → Fin ns → ℝ}
    {dr dr' : (Fin nm → ℝ) → (Fin ns → ℝ) → Fin nx → ℝ} {C : Matrix (Fin nx) (Fin ns) ℝ}
    (h1 : g mb sb (dr mb sb) mb = sb) (h1' : g' mb sb (dr' mb sb) mb = sb) (h2 : dr mb sb = xb) (h2' : dr' mb sb = xb)
    (h3 : HasFDerivAt (fun s => g mb s (dr mb s) mb) (linMap A) sb)
    (h3' : HasFDerivAt (fun s => g' mb s (dr' mb s) mb) (linMap A) sb)
    (h4 : HasFDerivAt (dr mb) (linMap C) sb) (h4' : HasFDerivAt (dr' mb) (linMap C) sb) :
    ∃ r, 0 < r ∧ r < 1 ∧ ∀ ε > 0, ∀ᶠ s0 in 𝓝 sb, ∀ T t sim sim' p p',
      simulateDriven g dr s0 T (List.replicate T mb) = .ok sim →
      simulateDriven g' dr' s0 T (List.replicate T mb) = .ok sim' → sim[t]? = some p → sim'[t]? = some p' →
      ‖p.1 - p'.1‖ ≤ ε * r ^ t * ‖s0 - sb‖ ∧ ‖p.2 - p'.2‖ ≤ ε * r ^ t * ‖s0 - sb‖ := by
  obtain ⟨D, hD, q, hq0, hq1, hb, hl⟩ := linear_path _ A h1 h3 hA
  obtain ⟨D', hD', q', hq0', hq1', hb', hl'⟩ := linear_path _ A h1' h3' hA
  obtain ⟨r, hr, hr1⟩ := exists_between (max_lt hq1 hq1')
  have hqr := lt_of_le_of_lt (le_max_left _ _) hr
  have hqr' := lt_of_le_of_lt (le_max_right _ _) hr
  have hr0 : 0 < r := hq0.trans hqr
  refine ⟨r, hr0, hr1, fun ε hε => ?_⟩
  obtain ⟨κ, hκ0, hκ⟩ : ∃ κ : ℝ, 0 < κ ∧ ∀ v, ‖C *ᵥ v‖ ≤ κ * ‖v‖ :=
    ⟨‖linMap C‖ + 1, by positivity, fun v => ((linMap C).le_opNorm v).trans
      (mul_le_mul_of_nonneg_right (by linarith) (norm_nonneg _))⟩
  -- the states differ by `θ`, the rules by `η` and `η'` times the distance
  obtain ⟨θ, hθ0, hθ1, hθ2⟩ : ∃ θ : ℝ, 0 < θ ∧ 2 * θ ≤ ε ∧ κ * (2 * θ) ≤ ε / 3 := by
    refine ⟨min (ε / 2) (ε / (6 * κ)), lt_min (by positivity) (by positivity), ?_, ?_⟩
    · linarith [min_le_left (ε / 2) (ε / (6 * κ))]
    · have := mul_le_mul_of_nonneg_left (min_le_right (ε / 2) (ε / (6 * κ))) hκ0.le
      have e : κ * (ε / (6 * κ)) = ε / 6 := by field_simp
      linarith
  have hη : 0 < ε / (3 * D) := by positivity
  have hη' : 0 < ε / (3 * D') := by positivity
  obtain ⟨δ, hδ, k⟩ := Metric.eventually_nhds_iff_ball.1 (h4.isLittleO.def hη)
  obtain ⟨δ', hδ', k'⟩ := Metric.eventually_nhds_iff_ball.1 (h4'.isLittleO.def hη')
  filter_upwards [hb, hb', hl r hqr θ hθ0, hl' r hqr' θ hθ0, Metric.ball_mem_nhds sb (div_pos hδ hD),
    Metric.ball_mem_nhds sb (div_pos hδ' hD')] with s0 a a' b b' c c' T t sim sim' p p' hsim hsim' hp hp'
  obtain ⟨p1, p2⟩ := driven_run hsim hp
  obtain ⟨p1', p2'⟩ := driven_run hsim' hp'
  have hn := norm_nonneg (s0 - sb)
  have small : ∀ (D q δ : ℝ), 0 < D → 0 < q → q < 1 → s0 ∈ Metric.ball sb (δ / D) → ∀ y : Fin ns → ℝ,
      ‖y - sb‖ ≤ D * q ^ t * ‖s0 - sb‖ → y ∈ Metric.ball sb δ := by
    intro D q δ hD hq hq1 hs y hy
    rw [Metric.mem_ball, dist_eq_norm] at hs ⊢
    rw [lt_div_iff₀ hD] at hs
    have h5 : q ^ t ≤ 1 := pow_le_one₀ hq.le hq1.le
    have h6 := mul_le_mul_of_nonneg_left h5 (mul_nonneg hD.le hn)
    nlinarith
  have w := k p.1 (small D q δ hD hq0 hq1 c p.1 (by rw [p1]; exact a t))
  have w' := k' p'.1 (small D' q' δ' hD' hq0' hq1' c' p'.1 (by rw [p1']; exact a' t))
  have aa : ‖p.1 - sb‖ ≤ D * r ^ t * ‖s0 - sb‖ := by
    rw [p1]
    exact (a t).trans (mul_le_mul_of_nonneg_right (mul_le_mul_of_nonneg_left (pow_le_pow_left₀ hq0.le hqr.le t) hD.le) hn)
  have aa' : ‖p'.1 - sb‖ ≤ D' * r ^ t * ‖s0 - sb‖ := by
    rw [p1']
    exact (a' t).trans (mul_le_mul_of_nonneg_right (mul_le_mul_of_nonneg_left (pow_le_pow_left₀ hq0'.le hqr'.le t) hD'.le) hn)
  have hrt := pow_pos hr0 t
  have hz : 0 ≤ r ^ t * ‖s0 - sb‖ := mul_nonneg hrt.le hn
  have st : ‖p.1 - p'.1‖ ≤ 2 * θ * (r ^ t * ‖s0 - sb‖) := by
    have e : p.1 - p'.1 = (p.1 - sb - A ^ t *ᵥ (s0 - sb)) - (p'.1 - sb - A ^ t *ᵥ (s0 - sb)) := by abel
    have u := b t
    have u' := b' t
    rw [← p1] at u
    rw [← p1'] at u'
    rw [e]
    refine (norm_sub_le _ _).trans ?_
    linarith
  refine ⟨st.trans ?_, ?_⟩
  · have := mul_le_mul_of_nonneg_right hθ1 hz
    linarith
  · have e : p.2 - p'.2 = (dr mb p.1 - dr mb sb - linMap C (p.1 - sb)) - (dr' mb p'.1 - dr' mb sb - linMap C (p'.1 - sb))
        + C *ᵥ (p.1 - p'.1) := by
      have e' : C *ᵥ (p.1 - p'.1) = C *ᵥ (p.1 - sb) - C *ᵥ (p'.1 - sb) := by
        rw [← mulVec_sub, sub_sub_sub_cancel_right]
      rw [p2, p2', h2, h2', linMap_apply, linMap_apply, e']
      abel
    have v1 : ε / (3 * D) * (D * r ^ t * ‖s0 - sb‖) = ε / 3 * (r ^ t * ‖s0 - sb‖) := by field_simp
    have v2 : ε / (3 * D') * (D' * r ^ t * ‖s0 - sb‖) = ε / 3 * (r ^ t * ‖s0 - sb‖) := by field_simp
    have x1 := w.trans ((mul_le_mul_of_nonneg_left aa hη.le).trans_eq v1)
    have x2 := w'.trans ((mul_le_mul_of_nonneg_left aa' hη'.le).trans_eq v2)
    have x3 := (hκ (p.1 - p'.1)).trans (mul_le_mul_of_nonneg_left st hκ0.le)
    have x4 := mul_le_mul_of_nonneg_right hθ2 hz
    rw [e]
    refine (norm_add_le _ _).trans ?_
    have x5 := norm_sub_le (dr mb p.1 - dr mb sb - linMap C (p.1 - sb)) (dr' mb p'.1 - dr' mb sb - linMap C (p'.1 - sb))
    linarith

private theorem loop_matrix (C : Matrix (Fin nx) (Fin ns) ℝ) :
    linMap dv.g_s + (linMap dv.g_x).comp (linMap C) = linMap (dv.g_s + dv.g_x * C) := by
  ext v : 1
  simp [add_mulVec, mulVec_mulVec]

/-- **C160, simulations of any length.**  The two simulations, with the rule of `perturb` and with the solution, approach each
other again: from states near the steady state they differ, at all dates of simulations of all lengths, by at most
`ε r^t` times the initial distance, where `r < 1` depends on the model only and `ε` is as small as one likes. -/
theorem C160_all_dates (hd : DerivativesAt dv g f mb sb xb) (hg : g mb sb xb mb = sb)
    {dr : (Fin nm → ℝ) → (Fin ns → ℝ) → Fin nx → ℝ} (h : PerturbReturns dv mb sb xb dr)
    {φ : (Fin ns → ℝ) → Fin nx → ℝ} (hs : StableSolution g f mb sb xb φ) (hφ : DifferentiableAt ℝ φ sb) :
    ∃ r, 0 < r ∧ r < 1 ∧ ∀ ε > 0, ∀ᶠ s0 in 𝓝 sb, ∀ T t sim sim' p p',
      simulateDriven g dr s0 T (List.replicate T mb) = .ok sim →
      simulateDriven g (fun _ => φ) s0 T (List.replicate T mb) = .ok sim' → sim[t]? = some p → sim'[t]? = some p' →
      ‖p.1 - p'.1‖ ≤ ε * r ^ t * ‖s0 - sb‖ ∧ ‖p.2 - p'.2‖ ≤ ε * r ^ t * ‖s0 - sb‖ := by
  obtain ⟨C, hC, hA, hr⟩ := perturb_saddle h
  have h1 := C160_derivative hd hg hC hs hφ
  have h2 := rule_deriv mb hr
  have h2s : dr mb sb = xb := by rw [hr, sub_self, mulVec_zero, add_zero]
  refine uniform_core hA (by rw [h2s, hg]) (by rw [hs.steady, hg]) h2s hs.steady ?_ ?_ h2 h1
  · rw [← loop_matrix]; exact step_deriv hd h2s h2
  · rw [← loop_matrix]; exact step_deriv hd hs.steady h1

/-- **C160, linear responses.**  From states near the steady state, simulations of the model under the rule of `perturb`
differ from those of the linearised model by at most `ε r^t` times the initial distance, at all dates of simulations of all
lengths: responses to small displacements are those of the linearised model. -/
theorem C160_linearised (hd : DerivativesAt dv g f mb sb xb) (hg : g mb sb xb mb = sb)
    {dr : (Fin nm → ℝ) → (Fin ns → ℝ) → Fin nx → ℝ} (h : PerturbReturns dv mb sb xb dr) :
    ∃ r, 0 < r ∧ r < 1 ∧ ∀ ε > 0, ∀ᶠ s0 in 𝓝 sb, ∀ T t sim sim' p p',
      simulateDriven g dr s0 T (List.replicate T mb) = .ok sim →
      simulateDriven (fun _ s x _ => sb + dv.g_s *ᵥ (s - sb) + dv.g_x *ᵥ (x - xb)) dr s0 T (List.replicate T mb) = .ok sim' →
      sim[t]? = some p → sim'[t]? = some p' →
      ‖p.1 - p'.1‖ ≤ ε * r ^ t * ‖s0 - sb‖ ∧ ‖p.2 - p'.2‖ ≤ ε * r ^ t * ‖s0 - sb‖ := by
  obtain ⟨C, hC, hA, hr⟩ := perturb_saddle h
  have h2 := rule_deriv mb hr
  have h2s : dr mb sb = xb := by rw [hr, sub_self, mulVec_zero, add_zero]
  refine uniform_core hA (by rw [h2s, hg]) (by simp [h2s]) h2s h2s ?_ ?_ h2 h2
  · rw [← loop_matrix]; exact step_deriv hd h2s h2
  · have e : (fun s => sb + dv.g_s *ᵥ (s - sb) + dv.g_x *ᵥ (dr mb s - xb))
        = fun s => sb + linMap (dv.g_s + dv.g_x * C) (s - sb) := by
      funext s
      rw [hr, add_sub_cancel_left, linMap_apply, add_mulVec, mulVec_mulVec, add_assoc]
    rw [e]
    exact (HasFDerivAt.comp (g := linMap (dv.g_s + dv.g_x * C)) (f := fun s => s - sb) sb
      (linMap (dv.g_s + dv.g_x * C)).hasFDerivAt ((hasFDerivAt_id sb).sub_const sb)).const_add sb

end perturb

/-! ### A model meeting the hypotheses -/

section instances

/-- The price of an asset whose dividend halves every period, `s' = s / 2` and `2 x = 2 s - s ^ 2 + x'`: the solution is
`x = 4 / 3 s - 4 / 7 s ^ 2`, the rule of `perturb` `x = 4 / 3 s`. -/
theorem asset_case :
    let g : (Fin 1 → ℝ) → (Fin 1 → ℝ) → (Fin 1 → ℝ) → (Fin 1 → ℝ) → Fin 1 → ℝ := fun _ s _ _ => (1 / 2 : ℝ) • s
    let f : (Fin 1 → ℝ) → (Fin 1 → ℝ) → (Fin 1 → ℝ) → (Fin 1 → ℝ) → (Fin 1 → ℝ) → (Fin 1 → ℝ) → Fin 1 → ℝ :=
      fun _ s x _ _ X => (-2 : ℝ) • s + (2 : ℝ) • x - X + s * s
    let φ : (Fin 1 → ℝ) → Fin 1 → ℝ := fun s => (4 / 3 : ℝ) • s - (4 / 7 : ℝ) • (s * s)
    DerivativesAt dvH g f 0 0 0 ∧ StableSolution g f 0 0 0 φ ∧ ContDiffAt ℝ 2 φ 0 ∧
      PerturbReturns dvH 0 0 0 fun _ s => (4 / 3 : ℝ) • s := by
  intro g f φ
  have hsq : HasFDerivAt (fun s : Fin 1 → ℝ => s * s) (0 : (Fin 1 → ℝ) →L[ℝ] Fin 1 → ℝ) 0 := by
    have := (hasFDerivAt_id (𝕜 := ℝ) (0 : Fin 1 → ℝ)).mul' (hasFDerivAt_id (𝕜 := ℝ) (0 : Fin 1 → ℝ))
    refine this.congr_fderiv ?_
    ext v
    simp
  refine ⟨⟨?_, ?_⟩, ⟨?_, Eventually.of_forall fun s => ?_, 1, fun t => Eventually.of_forall fun s => ?_⟩, ?_, ⟨?_⟩⟩
  · have h1 : HasFDerivAt (fun p : (Fin 1 → ℝ) × (Fin 1 → ℝ) => (1 / 2 : ℝ) • p.1)
        ((1 / 2 : ℝ) • ContinuousLinearMap.fst ℝ (Fin 1 → ℝ) (Fin 1 → ℝ)) (0, 0) := hasFDerivAt_fst.fun_const_smul _
    refine h1.congr_fderiv ?_
    refine ContinuousLinearMap.ext fun v => ?_
    funext i
    fin_cases i
    simp [dvH, Matrix.mulVec, dotProduct]
  · have h0 : HasFDerivAt (fun p : ((Fin 1 → ℝ) × (Fin 1 → ℝ)) × ((Fin 1 → ℝ) × (Fin 1 → ℝ)) => p.1.1)
        ((ContinuousLinearMap.fst ℝ (Fin 1 → ℝ) (Fin 1 → ℝ)).comp (.fst ℝ _ _)) ((0, 0), (0, 0)) :=
      hasFDerivAt_fst.fst
    have h1 : HasFDerivAt (fun p : ((Fin 1 → ℝ) × (Fin 1 → ℝ)) × ((Fin 1 → ℝ) × (Fin 1 → ℝ)) => p.1.1 * p.1.1)
        ((0 : (Fin 1 → ℝ) →L[ℝ] Fin 1 → ℝ).comp ((ContinuousLinearMap.fst ℝ _ _).comp (.fst ℝ _ _))) ((0, 0), (0, 0)) :=
      HasFDerivAt.comp (g := fun s : Fin 1 → ℝ => s * s) ((0, 0), (0, 0)) hsq h0
    have h2 : HasFDerivAt (fun p : ((Fin 1 → ℝ) × (Fin 1 → ℝ)) × ((Fin 1 → ℝ) × (Fin 1 → ℝ)) =>
        (-2 : ℝ) • p.1.1 + (2 : ℝ) • p.1.2 - p.2.2)
        ((-2 : ℝ) • ((ContinuousLinearMap.fst ℝ (Fin 1 → ℝ) (Fin 1 → ℝ)).comp (.fst ℝ _ _))
          + (2 : ℝ) • ((ContinuousLinearMap.snd ℝ (Fin 1 → ℝ) (Fin 1 → ℝ)).comp (.fst ℝ _ _))
          - (ContinuousLinearMap.snd ℝ (Fin 1 → ℝ) (Fin 1 → ℝ)).comp (.snd ℝ _ _)) ((0, 0), (0, 0)) :=
      ((hasFDerivAt_fst.fst.fun_const_smul _).fun_add (hasFDerivAt_fst.snd.fun_const_smul _)).fun_sub hasFDerivAt_snd.snd
    refine (h2.add h1).congr_fderiv ?_
    refine ContinuousLinearMap.ext fun v => ?_
    funext i
    fin_cases i
    simp [dvH, Matrix.mulVec, dotProduct]
    ring
  · funext i; simp [φ]
  · funext i
    simp [f, g, φ]
    ring
  · have e : ∀ t : ℕ, (fun s => g 0 s (φ s) 0)^[t] s = ((1 / 2 : ℝ) ^ t) • s := by
      intro t
      induction t with
      | zero => simp
      | succ t ih => rw [Function.iterate_succ_apply', ih, pow_succ', mul_smul]
    rw [e, sub_zero, sub_zero, norm_smul, norm_pow, Real.norm_of_nonneg (by norm_num)]
    exact mul_le_mul_of_nonneg_right (pow_le_one₀ (by norm_num) (by norm_num)) (norm_nonneg _)
  · exact (contDiffAt_id.const_smul _).sub ((contDiffAt_id.mul contDiffAt_id).const_smul _)
  · have e : qzH 1 1 = fun _ _ _ => dS := by funext A B c; simp [qzH]
    obtain ⟨r, h, hC⟩ := approxS
    have hr : approximate1stOrder solverR (qzH 1 1) (fun _ _ => 0) dvH.g_s dvH.g_x dvH.f_s dvH.f_x dvH.f_S dvH.f_X = .ok r := by
      rw [e]; exact h
    refine ⟨solverR, qzH, fun _ _ => 0, ⟨0, 0, 0, none, .of fun _ _ => 4 / 3⟩, dS, solverR_correct, by rw [e], dS_correct,
      .inl ⟨dS_triangular, fun i => ?_, fun j => ?_⟩, ?_, fun m s => ?_⟩
    · rw [Subsingleton.elim i 0, dS_eig.1]
      exact_mod_cast (by norm_num : (1 : ℝ) < 2)
    · rw [Subsingleton.elim j 0, dS_eig.2]
      exact_mod_cast (by norm_num : (1 / 2 : ℝ) < 1)
    · simp [perturb1, hr, Bind.bind, Except.bind, pure, Except.pure, hC]
    · have e2 : (4 / 3 : ℝ) • s = 0 + (.of fun _ _ => 4 / 3 : Matrix (Fin 1) (Fin 1) ℝ) *ᵥ (s - 0) := by
        funext i
        fin_cases i
        simp [Matrix.mulVec, dotProduct]
      rw [e2]
      simp [BiTaylor.evalMS, BiTaylor.evalRows, firstRow, pyGet, Bind.bind, Except.bind, pure, Except.pure, vecMul_transpose]

end instances

end Dolo
