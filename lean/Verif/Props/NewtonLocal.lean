import Mathlib.Analysis.Calculus.ContDiff.Basic
import Mathlib.Analysis.Calculus.ContDiff.RCLike
import Mathlib.Analysis.Calculus.MeanValue
import Mathlib.Data.Fintype.Order
import Verif.Lemmas.NewtonLocal
import Verif.Lemmas.NcpLocal
import Verif.Props.NumDiff

/-!
# C124: Newton's method converges near a regular solution

`N` points, each with `n` unknowns and its own equations `F p : ℝⁿ → ℝⁿ`; `cut N n x` reads the entries of an array.
-/

set_option linter.unusedSectionVars false

namespace Dolo

open Filter Topology

variable {N n : ℕ}

/-- A regular solution: at every point the equations hold, are continuously differentiable, and have an invertible
derivative. -/
structure RowsRegular (F : Fin N → (Fin n → ℝ) → Fin n → ℝ) (xs : Fin N → Fin n → ℝ) : Prop where
  root : ∀ p, F p (xs p) = 0
  smooth : ∀ p, ContDiffAt ℝ 1 (F p) (xs p)
  invertible : ∀ p v, fderiv ℝ (F p) (xs p) v = 0 → v = 0

/-- Partial derivative of equation `k` with respect to unknown `i`. -/
noncomputable def partialOf (φ : (Fin n → ℝ) → Fin n → ℝ) (v : Fin n → ℝ) (k i : Fin n) : ℝ :=
  fderiv ℝ φ v (Pi.single i 1) k

/-- Started less than `δ` away from `xs` with a tolerance `tol`, the solver stops without a warning after at most `n0`
iterations, as soon as `C ρ ^ n0 < tol`; at the point returned all residuals are below `tol`, and the point is within
`C tol` of the solution. -/
def StopsNear (N n : ℕ) (solver : ℝ → ℕ → (ℕ → ℕ → ℝ) → NewtonResult (ℕ → ℕ → ℝ)) (res : (ℕ → ℕ → ℝ) → ℕ → ℕ → ℝ)
    (xs : Fin N → Fin n → ℝ) (δ C ρ : ℝ) : Prop :=
  ∀ x0, dist (cut N n x0) xs < δ → ∀ tol, 0 < tol → ∀ n0 : ℕ, C * ρ ^ n0 < tol → ∀ maxit, n0 < maxit →
    (solver tol maxit x0).warned = false ∧ (solver tol maxit x0).it ≤ n0 ∧
    ∀ (p : Fin N) (k : Fin n), |res (solver tol maxit x0).x p k| < tol ∧ |(solver tol maxit x0).x p k - xs p k| ≤ C * tol

private theorem entry_le (u : Fin N → Fin n → ℝ) (p : Fin N) (k : Fin n) : |u p k| ≤ ‖u‖ :=
  (norm_le_pi_norm (u p) k).trans (norm_le_pi_norm u p)

private theorem stopsNear_of (f : (ℕ → ℕ → ℝ) → (ℕ → ℕ → ℝ) × (ℕ → ℕ → ℕ → ℝ)) (xs : Fin N → Fin n → ℝ) {δ C ρ : ℝ}
    (hC : 0 < C) (hδ : 0 < δ) (hρ : 0 < ρ)
    (h : ∀ x0, dist (cut N n x0) xs < δ → ∀ tol, 0 < tol → ∀ n0 : ℕ, C * δ * ρ ^ n0 < tol → ∀ maxit, n0 < maxit →
          (newton (serialProblem N n f) tol maxit x0).warned = false ∧
          (newton (serialProblem N n f) tol maxit x0).it ≤ n0 ∧
          ‖cut N n (f (newton (serialProblem N n f) tol maxit x0).x).1‖ < tol ∧
          dist (cut N n (newton (serialProblem N n f) tol maxit x0).x) xs
            ≤ C * ‖cut N n (f (newton (serialProblem N n f) tol maxit x0).x).1‖) :
    StopsNear N n (newton (serialProblem N n f)) (fun x => (f x).1) xs δ (C * (δ + 1)) ρ := by
  intro x0 hx0 tol htol n0 hn0 maxit hmax
  have hpow : 0 < ρ ^ n0 := by positivity
  obtain ⟨h1, h2, h3, h4⟩ := h x0 hx0 tol htol n0 (by nlinarith [mul_pos hC hpow]) maxit hmax
  refine ⟨h1, h2, fun p k => ⟨(entry_le (cut N n _) p k).trans_lt h3, ?_⟩⟩
  rw [dist_eq_norm] at h4
  refine (entry_le (cut N n _ - xs) p k).trans (h4.trans ?_)
  have : 0 < C * δ := mul_pos hC hδ
  nlinarith

/-- **C124, approximate Jacobians.**  Near a regular solution `newton` with serial storage converges at any linear rate
`ρ` that one cares to ask for, provided that the Jacobians it is given are close enough to the derivative at the
solution.  The radius, the constant and the accuracy do not depend on the function that computes the residuals and
the Jacobians. -/
theorem C124_approximate_jacobian (F : Fin N → (Fin n → ℝ) → Fin n → ℝ) (xs : Fin N → Fin n → ℝ)
    (hF : RowsRegular F xs) {ρ : ℝ} (hρ0 : 0 < ρ) (hρ1 : ρ < 1) :
    ∃ η > 0, ∃ δ1 > 0, ∃ C > 0, ∀ δ, 0 < δ → δ ≤ δ1 → ∀ f : (ℕ → ℕ → ℝ) → (ℕ → ℕ → ℝ) × (ℕ → ℕ → ℕ → ℝ),
      (∀ x (p : Fin N) (k : Fin n), (f x).1 p k = F p (cut N n x p) k) →
      (∀ x, dist (cut N n x) xs < δ → ∀ (p : Fin N) (k i : Fin n), |(f x).2 p k i - partialOf (F p) (xs p) k i| ≤ η) →
      (∀ x, dist (cut N n x) xs < δ →
        dist (cut N n ((serialProblem N n f).next x)) xs ≤ ρ * dist (cut N n x) xs) ∧
      StopsNear N n (newton (serialProblem N n f)) (fun x => (f x).1) xs δ C ρ := by
  obtain ⟨η, hη, C, hC, δ1, hδ1, h⟩ := serial_local F (fun p => fderiv ℝ (F p) (xs p)) xs hF.root
    (fun p => ((hF.smooth p).differentiableAt (by norm_num)).hasFDerivAt) hF.invertible hρ0 hρ1
  refine ⟨η, hη, min δ1 1, lt_min hδ1 one_pos, C * 2, by positivity, fun δ hδ hδ1' f hf hJ => ?_⟩
  obtain ⟨h1, h2⟩ := h δ hδ (hδ1'.trans (min_le_left _ _)) f hf hJ
  refine ⟨fun x hx => (h1 x hx).1, ?_⟩
  have h3 := stopsNear_of f xs hC hδ hρ0 h2
  have hle : C * (δ + 1) ≤ C * 2 := mul_le_mul_of_nonneg_left (by linarith [hδ1'.trans (min_le_right δ1 1)]) hC.le
  intro x0 hx0 tol htol n0 hn0 maxit hmax
  have hpow : 0 < ρ ^ n0 := by positivity
  obtain ⟨s1, s2, s3⟩ := h3 x0 hx0 tol htol n0 (lt_of_le_of_lt (mul_le_mul_of_nonneg_right hle hpow.le) hn0) maxit hmax
  exact ⟨s1, s2, fun p k => ⟨(s3 p k).1, (s3 p k).2.trans (mul_le_mul_of_nonneg_right hle htol.le)⟩⟩

private theorem exists_pos_lt {f : Fin N → ℝ} (h : ∀ p, 0 < f p) : ∃ δ > 0, ∀ p, δ < f p := by
  obtain ⟨M, hM⟩ := Finite.exists_le fun p => 1 / f p
  refine ⟨1 / (|M| + 1), by positivity, fun p => ?_⟩
  have h1 := (hM p).trans (le_abs_self M)
  rw [div_le_iff₀ (h p)] at h1
  rw [div_lt_iff₀ (by positivity)]
  nlinarith [h p]

private theorem exists_radius (P : Fin N → (Fin n → ℝ) → Prop) (xs : Fin N → Fin n → ℝ)
    (h : ∀ p, ∀ᶠ v in 𝓝 (xs p), P p v) : ∃ δ > 0, ∀ u : Fin N → Fin n → ℝ, dist u xs < δ → ∀ p, P p (u p) := by
  choose r hr0 hr using fun p => Metric.eventually_nhds_iff.1 (h p)
  obtain ⟨δ, hδ, hle⟩ := exists_pos_lt hr0
  exact ⟨δ, hδ, fun u hu p => hr p (((dist_le_pi_dist u xs p).trans_lt hu).trans (hle p))⟩

private theorem partial_continuousAt (φ : (Fin n → ℝ) → Fin n → ℝ) (v : Fin n → ℝ) (h : ContDiffAt ℝ 1 φ v) (k i : Fin n) :
    ContinuousAt (fun w => partialOf φ w k i) v := by
  have h1 : ContinuousAt (fderiv ℝ φ) v := (h.fderiv_right (m := 0) (by norm_num)).continuousAt
  have h2 : ContinuousAt (fun w => fderiv ℝ φ w (Pi.single i 1)) v := h1.clm_apply continuousAt_const
  exact (continuous_apply k).continuousAt.comp h2

/-- **C124, exact Jacobians.**  With the derivative as Jacobian, convergence is superlinear: whatever the rate `ρ`, close
enough to the solution every iteration divides the distance to the solution by `1 / ρ`. -/
theorem C124_newton (F : Fin N → (Fin n → ℝ) → Fin n → ℝ) (xs : Fin N → Fin n → ℝ) (hF : RowsRegular F xs)
    (f : (ℕ → ℕ → ℝ) → (ℕ → ℕ → ℝ) × (ℕ → ℕ → ℕ → ℝ))
    (hf : ∀ x (p : Fin N) (k : Fin n), (f x).1 p k = F p (cut N n x p) k)
    (hJ : ∀ x (p : Fin N) (k i : Fin n), (f x).2 p k i = partialOf (F p) (cut N n x p) k i)
    {ρ : ℝ} (hρ0 : 0 < ρ) (hρ1 : ρ < 1) :
    ∃ δ > 0, ∃ C > 0,
      (∀ x, dist (cut N n x) xs < δ →
        dist (cut N n ((serialProblem N n f).next x)) xs ≤ ρ * dist (cut N n x) xs) ∧
      StopsNear N n (newton (serialProblem N n f)) (fun x => (f x).1) xs δ C ρ := by
  obtain ⟨η, hη, δ1, hδ1, C, hC, h⟩ := C124_approximate_jacobian F xs hF hρ0 hρ1
  obtain ⟨δ2, hδ2, hnear⟩ := exists_radius
    (fun p v => ∀ k i, |partialOf (F p) v k i - partialOf (F p) (xs p) k i| ≤ η) xs (fun p => by
      rw [eventually_all]; intro k
      rw [eventually_all]; intro i
      have := Metric.tendsto_nhds.1 (partial_continuousAt (F p) (xs p) (hF.smooth p) k i) η hη
      filter_upwards [this] with v hv
      rw [Real.dist_eq] at hv
      exact hv.le)
  refine ⟨min δ1 δ2, lt_min hδ1 hδ2, C, hC, h (min δ1 δ2) (lt_min hδ1 hδ2) (min_le_left _ _) f hf fun x hx p k i => ?_⟩
  rw [hJ]
  exact hnear _ (hx.trans_le (min_le_right _ _)) p k i

/-- **C124, quadratic convergence.**  If the derivatives are Lipschitz near the solution, the error is squared at every
iteration, up to a constant. -/
theorem C124_quadratic (F : Fin N → (Fin n → ℝ) → Fin n → ℝ) (xs : Fin N → Fin n → ℝ) (hF : RowsRegular F xs)
    (f : (ℕ → ℕ → ℝ) → (ℕ → ℕ → ℝ) × (ℕ → ℕ → ℕ → ℝ))
    (hf : ∀ x (p : Fin N) (k : Fin n), (f x).1 p k = F p (cut N n x p) k)
    (hJ : ∀ x (p : Fin N) (k i : Fin n), (f x).2 p k i = partialOf (F p) (cut N n x p) k i)
    (L r : ℝ) (hr : 0 < r) (hL : ∀ p v w, dist v (xs p) < r → dist w (xs p) < r →
      DifferentiableAt ℝ (F p) v ∧ ‖fderiv ℝ (F p) v - fderiv ℝ (F p) w‖ ≤ L * dist v w) :
    ∃ δ > 0, ∃ Q, ∀ x, dist (cut N n x) xs < δ →
      dist (cut N n ((serialProblem N n f).next x)) xs ≤ Q * dist (cut N n x) xs ^ 2 := by
  obtain ⟨η, hη, C, hC, δ1, hδ1, h⟩ := serial_local F (fun p => fderiv ℝ (F p) (xs p)) xs hF.root
    (fun p => ((hF.smooth p).differentiableAt (by norm_num)).hasFDerivAt) hF.invertible (ρ := 1 / 2)
    (by norm_num) (by norm_num)
  obtain ⟨δ2, hδ2, hnear⟩ := exists_radius
    (fun p v => ∀ k i, |partialOf (F p) v k i - partialOf (F p) (xs p) k i| ≤ η) xs (fun p => by
      rw [eventually_all]; intro k
      rw [eventually_all]; intro i
      have := Metric.tendsto_nhds.1 (partial_continuousAt (F p) (xs p) (hF.smooth p) k i) η hη
      filter_upwards [this] with v hv
      rw [Real.dist_eq] at hv
      exact hv.le)
  -- lower bounds on the derivatives
  have hlow : ∀ p, ∃ c > 0, ∃ ε > 0, ∀ v, ‖v - xs p‖ < ε → ∀ w, ‖w‖ ≤ c * ‖fderiv ℝ (F p) v w‖ := by
    intro p
    obtain ⟨Ai, hAi⟩ := exists_left_inverse (fderiv ℝ (F p) (xs p)) (hF.invertible p)
    exact lower_near (fderiv ℝ (F p)) (xs p) ((hF.smooth p).fderiv_right (m := 0) (by norm_num)).continuousAt Ai hAi
  choose c hc0 ε hε0 hc using hlow
  obtain ⟨M, hM⟩ := Finite.exists_le c
  obtain ⟨δ3, hδ3, hδ3le⟩ := exists_pos_lt hε0
  set δ := min (min δ1 δ2) (min δ3 r) with hδ
  have hδ0 : 0 < δ := lt_min (lt_min hδ1 hδ2) (lt_min hδ3 hr)
  obtain ⟨h1, -⟩ := h δ hδ0 ((min_le_left _ _).trans (min_le_left _ _)) f hf fun x hx p k i => by
    rw [hJ]
    exact hnear _ (hx.trans_le ((min_le_left _ _).trans (min_le_right _ _))) p k i
  refine ⟨δ, hδ0, |M| * |L|, fun x hx => ?_⟩
  obtain ⟨-, s2, s3⟩ := h1 x hx
  set d := cut N n (serialStep N n (f x).2 (f x).1) with hd
  have hb : 0 ≤ |M| * |L| * dist (cut N n x) xs ^ 2 := by positivity
  rw [s2]
  refine (dist_pi_le_iff hb).2 fun p => ?_
  set u := cut N n x p with hu
  have hud : dist u (xs p) ≤ dist (cut N n x) xs := dist_le_pi_dist (cut N n x) xs p
  have hudr : dist u (xs p) < r := (hud.trans_lt hx).trans_le ((min_le_right _ _).trans (min_le_right _ _))
  have hsol : fderiv ℝ (F p) u (d p) = F p u := by
    funext k
    have := congrFun (congrFun s3 p) k
    rw [blockCLM_apply] at this
    have e : fderiv ℝ (F p) u (d p) k = ∑ i, clmEntry (fderiv ℝ (F p) u) k i * d p i := clmEntry_sum _ _ _
    rw [e, ← hf x p k]
    refine Eq.trans (Finset.sum_congr rfl fun i _ => ?_) this
    rw [hJ]
    rfl
  have hmv : ‖F p u - F p (xs p) - fderiv ℝ (F p) u (u - xs p)‖ ≤ (|L| * dist u (xs p)) * ‖u - xs p‖ := by
    have hseg : ∀ w ∈ segment ℝ (xs p) u, dist w (xs p) ≤ dist u (xs p) ∧ dist w u ≤ dist u (xs p) := by
      intro w hw
      obtain ⟨s, t, hs, ht, hst, rfl⟩ := hw
      constructor
      · have : s • xs p + t • u - xs p = t • (u - xs p) := by
          rw [show s = 1 - t by linarith]; module
        rw [dist_eq_norm, this, norm_smul, Real.norm_of_nonneg ht, dist_eq_norm]
        exact mul_le_of_le_one_left (norm_nonneg _) (by linarith)
      · have : s • xs p + t • u - u = -(s • (u - xs p)) := by
          rw [show t = 1 - s by linarith]; module
        rw [dist_eq_norm, this, norm_neg, norm_smul, Real.norm_of_nonneg hs, dist_eq_norm]
        exact mul_le_of_le_one_left (norm_nonneg _) (by linarith)
    refine (convex_segment (xs p) u).norm_image_sub_le_of_norm_hasFDerivWithin_le'
      (f' := fun w => fderiv ℝ (F p) w) (fun w hw => ?_) (fun w hw => ?_)
      (left_mem_segment ℝ _ _) (right_mem_segment ℝ _ _)
    · exact (hL p w w ((hseg w hw).1.trans_lt hudr) ((hseg w hw).1.trans_lt hudr)).1.hasFDerivAt.hasFDerivWithinAt
    · refine (hL p w u ((hseg w hw).1.trans_lt hudr) hudr).2.trans ?_
      exact mul_le_mul (le_abs_self L) (hseg w hw).2 dist_nonneg (abs_nonneg _)
  have hlowp := hc p u (by
    rw [← dist_eq_norm]
    exact (hud.trans_lt hx).trans ((lt_of_le_of_lt ((min_le_right _ _).trans (min_le_left _ _)) (hδ3le p))))
    (u - xs p - d p)
  have e : fderiv ℝ (F p) u (u - xs p - d p) = -(F p u - F p (xs p) - fderiv ℝ (F p) u (u - xs p)) := by
    rw [map_sub, hsol, hF.root p]
    abel
  rw [e, norm_neg] at hlowp
  have e2 : (cut N n x - d) p - xs p = u - xs p - d p := by
    rw [Pi.sub_apply]
    abel
  rw [dist_eq_norm, e2]
  have hcM : c p ≤ |M| := (hM p).trans (le_abs_self M)
  rw [← dist_eq_norm u] at hmv
  calc ‖u - xs p - d p‖ ≤ c p * ‖F p u - F p (xs p) - fderiv ℝ (F p) u (u - xs p)‖ := hlowp
    _ ≤ |M| * ((|L| * dist u (xs p)) * dist u (xs p)) := mul_le_mul hcM hmv (norm_nonneg _) (abs_nonneg _)
    _ ≤ |M| * ((|L| * dist (cut N n x) xs) * dist (cut N n x) xs) := by gcongr
    _ = _ := by ring

/-! ### Numerical derivatives -/

private theorem shiftCol_rowsOf (x : ℕ → ℕ → ℝ) (i : ℕ) (eps : ℝ) :
    shiftCol i eps (rowsOf N n x) = rowsOf N n fun p j => if j = i then x p j + eps else x p j := by
  unfold shiftCol rowsOf
  rw [List.map_map]
  refine List.map_congr_left fun p _ => ?_
  refine List.ext_getElem (by simp) fun j h1 h2 => ?_
  simp only [Function.comp_apply, List.getElem_modify, List.getElem_map, List.getElem_range]
  by_cases h : i = j
  · simp [h]
  · simp [h, Ne.symm h]

/-- The residual function `g`, on lists of rows, computes the equations `F`. -/
def ComputesRows (F : Fin N → (Fin n → ℝ) → Fin n → ℝ) (g : List (List ℝ) → List (List ℝ)) : Prop :=
  ∀ x, (g (rowsOf N n x)).length = N ∧ ∀ (p : Fin N) (k : Fin n), rowAt (g (rowsOf N n x)) p k = F p (cut N n x p) k

theorem diffFun_entries (F : Fin N → (Fin n → ℝ) → Fin n → ℝ) (g : List (List ℝ) → List (List ℝ))
    (hg : ComputesRows F g) (eps : ℝ) (x : ℕ → ℕ → ℝ) (p : Fin N) (k : Fin n) :
    (diffFun N n g eps x).1 p k = F p (cut N n x p) k ∧
    ∀ i : Fin n, (diffFun N n g eps x).2 p k i
      = (F p (cut N n x p + eps • Pi.single i 1) k - F p (cut N n x p) k) / eps := by
  have hlen : (rowsOf N n x).length = (g (rowsOf N n x)).length := by rw [(hg x).1]; simp [rowsOf]
  have hnx : ((rowsOf N n x).getD 0 []).length = n := by
    have hN : 0 < N := p.pos
    simp [rowsOf, hN]
  have e : diffFun N n g eps x = (rowAt (g (rowsOf N n x)),
      (serialDiffLoop g eps (rowsOf N n x) (g (rowsOf N n x)) (List.range ((rowsOf N n x).getD 0 []).length)
        ⟨(g (rowsOf N n x)).length, ((g (rowsOf N n x)).getD 0 []).length, ((rowsOf N n x).getD 0 []).length,
          fun _ _ _ => 0⟩).val) := by
    unfold diffFun serialDiff
    rw [if_pos hlen]
    rfl
  rw [e]
  refine ⟨(hg x).2 p k, fun i => ?_⟩
  obtain ⟨-, -, -, h4⟩ := serialDiffLoop_spec g eps (rowsOf N n x) (g (rowsOf N n x))
    (List.range ((rowsOf N n x).getD 0 []).length)
    ⟨(g (rowsOf N n x)).length, ((g (rowsOf N n x)).getD 0 []).length, ((rowsOf N n x).getD 0 []).length,
          fun _ _ _ => 0⟩
  simp only
  rw [h4, if_pos (by rw [hnx]; exact List.mem_range.2 i.2), shiftCol_rowsOf, (hg _).2 p k, (hg x).2 p k]
  have : cut N n (fun p j => if j = (i : ℕ) then x p j + eps else x p j) p = cut N n x p + eps • Pi.single i 1 := by
    funext j
    by_cases h : j = i
    · subst h; simp [cut]
    · have h' : ¬ (j : ℕ) = i := fun h'' => h (Fin.ext h'')
      simp [cut, h, h']
  rw [this]

private theorem difference_error (φ : (Fin n → ℝ) → Fin n → ℝ) (v : Fin n → ℝ) (h : ContDiffAt ℝ 1 φ v) {η : ℝ}
    (hη : 0 < η) : ∃ h0 > 0, ∀ᶠ w in 𝓝 v, ∀ eps : ℝ, eps ≠ 0 → |eps| < h0 → ∀ k i,
      |(φ (w + eps • Pi.single i 1) k - φ w k) / eps - partialOf φ v k i| ≤ η := by
  have hs : HasStrictFDerivAt φ (fderiv ℝ φ v) v := h.hasStrictFDerivAt (by norm_num)
  have h1 := hs.isLittleO.bound hη
  rw [nhds_prod_eq] at h1
  obtain ⟨r, hr, hball⟩ := Metric.eventually_nhds_iff.1 (nhds_prod_eq (x := v) (y := v) ▸ h1)
  refine ⟨r / 2, by positivity, ?_⟩
  filter_upwards [Metric.ball_mem_nhds v (half_pos hr)] with w hw eps hne heps k i
  rw [Metric.mem_ball] at hw
  have hnorm : ‖eps • (Pi.single i (1 : ℝ) : Fin n → ℝ)‖ = |eps| := by
    rw [norm_smul, Pi.norm_single]
    simp
  have h2 := hball (y := (w + eps • Pi.single i 1, w)) (by
    rw [Prod.dist_eq]
    refine max_lt ?_ (by simp only; linarith)
    simp only
    refine lt_of_le_of_lt (dist_triangle _ w _) ?_
    rw [dist_eq_norm (w + _) w, add_sub_cancel_left, hnorm]
    linarith)
  simp only [add_sub_cancel_left, hnorm] at h2
  have h3 := (norm_le_pi_norm _ k).trans h2
  simp only [Pi.sub_apply, map_smul, Pi.smul_apply, smul_eq_mul, Real.norm_eq_abs] at h3
  have e : (φ (w + eps • Pi.single i 1) k - φ w k) / eps - partialOf φ v k i
      = (φ (w + eps • Pi.single i 1) k - φ w k - eps * fderiv ℝ φ v (Pi.single i 1) k) / eps := by
    unfold partialOf
    field_simp
  rw [e, abs_div, div_le_iff₀ (abs_pos.2 hne)]
  exact h3

private theorem diffFun_close (F : Fin N → (Fin n → ℝ) → Fin n → ℝ) (xs : Fin N → Fin n → ℝ)
    (hs : ∀ p, ContDiffAt ℝ 1 (F p) (xs p)) {η : ℝ} (hη : 0 < η) :
    ∃ h0 > 0, ∃ δ > 0, ∀ g, ComputesRows F g → ∀ eps : ℝ, eps ≠ 0 → |eps| < h0 →
      ∀ x, dist (cut N n x) xs < δ → ∀ (p : Fin N) (k i : Fin n),
        |(diffFun N n g eps x).2 p k i - partialOf (F p) (xs p) k i| ≤ η := by
  choose h0 hh0 hh using fun p => difference_error (F p) (xs p) (hs p) hη
  obtain ⟨h1, hh1, hle⟩ := exists_pos_lt hh0
  obtain ⟨δ, hδ, hnear⟩ := exists_radius _ xs hh
  refine ⟨h1, hh1, δ, hδ, fun g hg eps hne heps x hx p k i => ?_⟩
  rw [(diffFun_entries F g hg eps x p k).2 i]
  exact hnear _ hx p eps hne (heps.trans (hle p)) k i

/-- **C124, numerical derivatives.**  `newton(SerialDifferentiableFunction(g, eps), x0)`, as `time_iteration` calls it: for
any rate `ρ` there is a bound on the step of the differences below which the iterations converge at that rate, from
all starting points in a neighbourhood that does not depend on the step. -/
theorem C124_differences (F : Fin N → (Fin n → ℝ) → Fin n → ℝ) (xs : Fin N → Fin n → ℝ) (hF : RowsRegular F xs)
    (g : List (List ℝ) → List (List ℝ)) (hg : ComputesRows F g) {ρ : ℝ} (hρ0 : 0 < ρ) (hρ1 : ρ < 1) :
    ∃ h0 > 0, ∃ δ > 0, ∃ C > 0, ∀ eps : ℝ, eps ≠ 0 → |eps| < h0 →
      (∀ x, dist (cut N n x) xs < δ →
        dist (cut N n ((serialProblem N n (diffFun N n g eps)).next x)) xs ≤ ρ * dist (cut N n x) xs) ∧
      StopsNear N n (newton (serialProblem N n (diffFun N n g eps))) (fun x => rowAt (g (rowsOf N n x))) xs δ C ρ := by
  obtain ⟨η, hη, δ1, hδ1, C, hC, h⟩ := C124_approximate_jacobian F xs hF hρ0 hρ1
  obtain ⟨h0, hh0, δ2, hδ2, hclose⟩ := diffFun_close F xs hF.smooth hη
  refine ⟨h0, hh0, min δ1 δ2, lt_min hδ1 hδ2, C, hC, fun eps hne heps => ?_⟩
  obtain ⟨r1, r2⟩ := h (min δ1 δ2) (lt_min hδ1 hδ2) (min_le_left _ _) (diffFun N n g eps)
    (fun x p k => (diffFun_entries F g hg eps x p k).1)
    (fun x hx => hclose g hg eps hne heps x (hx.trans_le (min_le_right _ _)))
  refine ⟨r1, fun x0 hx0 tol htol n0 hn0 maxit hmax => ?_⟩
  obtain ⟨s1, s2, s3⟩ := r2 x0 hx0 tol htol n0 hn0 maxit hmax
  refine ⟨s1, s2, fun p k => ⟨?_, (s3 p k).2⟩⟩
  have h1 := (s3 p k).1
  simp only at h1
  rw [(diffFun_entries F g hg eps _ p k).1] at h1
  simp only
  rwa [(hg _).2 p k]

/-! ### Bounds -/

/-- A regular solution of the complementarity problems of all points: strict complementarity, and the equations of the
unknowns that are not at a bound determine those unknowns, to first order. -/
structure RowsMcpRegular (F : Fin N → (Fin n → ℝ) → Fin n → ℝ) (lb ub : Fin N → Fin n → Option ℝ)
    (xs : Fin N → Fin n → ℝ) : Prop where
  strict : ∀ p k, StrictMCP (lb p k) (ub p k) (xs p k) (F p (xs p) k)
  smooth : ∀ p, ContDiffAt ℝ 1 (F p) (xs p)
  invertible : ∀ p v, (∀ k, F p (xs p) k ≠ 0 → v k = 0) →
    (∀ k, F p (xs p) k = 0 → fderiv ℝ (F p) (xs p) v k = 0) → v = 0

/-- The smoothed equations. -/
private noncomputable def smoothed (F : Fin N → (Fin n → ℝ) → Fin n → ℝ) (a b : ℕ → ℕ → Option ℝ) (p : Fin N)
    (v : Fin n → ℝ) (k : Fin n) : ℝ :=
  ncpFxnew (v k) (ncpPval (v k) (-F p v k) (a p k)) (b p k)

private noncomputable def smoothedD (F : Fin N → (Fin n → ℝ) → Fin n → ℝ) (xs : Fin N → Fin n → ℝ) (p : Fin N) :
    (Fin n → ℝ) →L[ℝ] (Fin n → ℝ) :=
  ContinuousLinearMap.pi fun k =>
    if F p (xs p) k = 0 then -((ContinuousLinearMap.proj (R := ℝ) (φ := fun _ : Fin n => ℝ) k).comp (fderiv ℝ (F p) (xs p)))
    else -(ContinuousLinearMap.proj (R := ℝ) (φ := fun _ : Fin n => ℝ) k)

private theorem smoothedD_apply (F : Fin N → (Fin n → ℝ) → Fin n → ℝ) (xs : Fin N → Fin n → ℝ) (p : Fin N)
    (v : Fin n → ℝ) (k : Fin n) :
    smoothedD F xs p v k = if F p (xs p) k = 0 then -fderiv ℝ (F p) (xs p) v k else -v k := by
  unfold smoothedD
  rw [ContinuousLinearMap.pi_apply]
  split_ifs <;> rfl

/-- **C124, bounds.**  `ncpsolve` with serial storage, near a regular solution of the complementarity problem (bounds
beyond `1e20` in absolute value being ignored), with Jacobians close to those at the solution. -/
theorem C124_ncpsolve (F : Fin N → (Fin n → ℝ) → Fin n → ℝ) (a b : ℕ → ℕ → Option ℝ) (xs : Fin N → Fin n → ℝ)
    (hF : RowsMcpRegular F (fun p k => ncpLower (a p k)) (fun p k => ncpUpper (b p k)) xs)
    {ρ : ℝ} (hρ0 : 0 < ρ) (hρ1 : ρ < 1) :
    ∃ η > 0, ∃ δ1 > 0, ∃ C > 0, ∀ δ, 0 < δ → δ ≤ δ1 → ∀ f : (ℕ → ℕ → ℝ) → (ℕ → ℕ → ℝ) × (ℕ → ℕ → ℕ → ℝ),
      (∀ x (p : Fin N) (k : Fin n), (f x).1 p k = F p (cut N n x p) k) →
      (∀ x, dist (cut N n x) xs < δ → ∀ (p : Fin N) (k i : Fin n), |(f x).2 p k i - partialOf (F p) (xs p) k i| ≤ η) →
      (∀ x, dist (cut N n x) xs < δ →
        dist (cut N n ((serialProblem N n (serialFcmp f a b)).next x)) xs ≤ ρ * dist (cut N n x) xs) ∧
      StopsNear N n (serialNcpsolve N n f a b) (fun x => (serialFcmp f a b x).1) xs δ C ρ := by
  obtain ⟨η, hη, C, hC, δ1, hδ1, h⟩ := serial_local (smoothed F a b) (smoothedD F xs) xs
    (fun p => by
      funext k
      exact (strict_values (a p k) (b p k) (xs p k) (F p (xs p) k) (hF.strict p k)).2.2.1)
    (fun p => by
      rw [hasFDerivAt_pi']
      intro k
      have hd : HasFDerivAt (F p) (fderiv ℝ (F p) (xs p)) (xs p) :=
        ((hF.smooth p).differentiableAt (by norm_num)).hasFDerivAt
      have h1 : HasFDerivAt (fun v => F p v k)
          ((ContinuousLinearMap.proj (R := ℝ) (φ := fun _ : Fin n => ℝ) k).comp (fderiv ℝ (F p) (xs p))) (xs p) :=
        (hasFDerivAt_pi'.1 hd) k
      have h2 : HasFDerivAt (fun v : Fin n → ℝ => v k) (ContinuousLinearMap.proj (R := ℝ) (φ := fun _ : Fin n => ℝ) k)
          (xs p) := (ContinuousLinearMap.proj (R := ℝ) (φ := fun _ : Fin n => ℝ) k).hasFDerivAt
      refine (strict_fderiv h1 h2 (a p k) (b p k) (hF.strict p k)).congr_fderiv ?_
      ext v
      change _ = smoothedD F xs p v k
      rw [smoothedD_apply]
      split_ifs <;> rfl)
    (fun p v hv => by
      refine hF.invertible p v (fun k hk => ?_) (fun k hk => ?_)
      · have := congrFun hv k
        rw [smoothedD_apply, if_neg hk] at this
        simpa using this
      · have := congrFun hv k
        rw [smoothedD_apply, if_pos hk] at this
        simpa using this)
    hρ0 hρ1
  -- a bound on the derivatives
  obtain ⟨M, hM⟩ := Finite.exists_le fun q : Fin N × Fin n × Fin n => |partialOf (F q.1) (xs q.1) q.2.1 q.2.2|
  have hM0 : ∀ p k i, |partialOf (F p) (xs p) k i| ≤ |M| := fun p k i => (hM (p, k, i)).trans (le_abs_self M)
  set θ := min 1 (η / (4 * (|M| + 1))) with hθ
  have hθ0 : 0 < θ := lt_min one_pos (by positivity)
  -- the coefficients near the solution
  obtain ⟨δ2, hδ2, hnear⟩ := exists_radius (fun p v => ∀ k : Fin n,
      |ncpFf (a p k) (b p k) (v k) (F p v k) - (if F p (xs p) k = 0 then 1 else 0)| ≤ θ ∧
      |ncpXx (a p k) (b p k) (v k) (F p v k) - (if F p (xs p) k = 0 then 0 else 1)| ≤ θ) xs (fun p => by
    rw [eventually_all]
    intro k
    have hcF : ContinuousAt (fun v => F p v k) (xs p) :=
      (continuous_apply k).continuousAt.comp (hF.smooth p).continuousAt
    have hcx : ContinuousAt (fun v : Fin n → ℝ => v k) (xs p) := (continuous_apply k).continuousAt
    obtain ⟨c1, c2⟩ := strict_continuousAt hcF hcx (a p k) (b p k) (hF.strict p k)
    obtain ⟨-, -, -, e1, e2⟩ := strict_values (a p k) (b p k) (xs p k) (F p (xs p) k) (hF.strict p k)
    filter_upwards [Metric.tendsto_nhds.1 c1 θ hθ0, Metric.tendsto_nhds.1 c2 θ hθ0] with v h1 h2
    rw [Real.dist_eq, e1] at h1
    rw [Real.dist_eq, e2] at h2
    exact ⟨h1.le, h2.le⟩)
  refine ⟨η / 4, by positivity, min (min δ1 δ2) 1, lt_min (lt_min hδ1 hδ2) one_pos, C * 2, by positivity,
    fun δ hδ hδle f hf hJ => ?_⟩
  obtain ⟨r1, r2⟩ := h δ hδ (hδle.trans ((min_le_left _ _).trans (min_le_left _ _))) (serialFcmp f a b)
    (fun x p k => by
      change ncpFxnew (x p k) (ncpPval (x p k) (-(f x).1 p k) (a p k)) (b p k) = _
      rw [hf]
      rfl)
    (fun x hx p k i => by
      obtain ⟨n1, n2⟩ := hnear _ (hx.trans_le (hδle.trans ((min_le_left _ _).trans (min_le_right _ _)))) p k
      have hj := hJ x hx p k i
      have e : (serialFcmp f a b x).2 p k i
          = ncpFf (a p k) (b p k) (cut N n x p k) (F p (cut N n x p) k) * -(f x).2 p k i
            - if k = i then ncpXx (a p k) (b p k) (cut N n x p k) (F p (cut N n x p) k) else 0 := by
        rw [← hf x p k]
        simp only [serialFcmp, ncpFf, ncpXx, cut, Fin.ext_iff]
      rw [e]
      have e2 : clmEntry (smoothedD F xs p) k i
          = if F p (xs p) k = 0 then -partialOf (F p) (xs p) k i else -(if k = i then 1 else 0) := by
        unfold clmEntry
        rw [smoothedD_apply, Pi.single_apply]
        rfl
      rw [e2]
      set ff := ncpFf (a p k) (b p k) (cut N n x p k) (F p (cut N n x p) k)
      set xx := ncpXx (a p k) (b p k) (cut N n x p k) (F p (cut N n x p) k)
      set Jx := (f x).2 p k i
      set D := partialOf (F p) (xs p) k i with hD
      set c1 : ℝ := if F p (xs p) k = 0 then 1 else 0 with hc1
      set c2 : ℝ := if F p (xs p) k = 0 then 0 else 1 with hc2
      set dl : ℝ := if k = i then 1 else 0 with hdl
      have e3 : (if F p (xs p) k = 0 then -D else -dl) = -(c1 * D) - c2 * dl := by
        rw [hc1, hc2]; split_ifs <;> simp
      have e4 : (if k = i then xx else 0) = xx * dl := by
        rw [hdl]; split_ifs <;> simp
      rw [e3, e4]
      have hdl1 : |dl| ≤ 1 := by rw [hdl]; split_ifs <;> simp
      have hc1' : |c1| ≤ 1 := by rw [hc1]; split_ifs <;> simp
      have hDM : |D| ≤ |M| := hM0 p k i
      have e5 : ff * -Jx - xx * dl - (-(c1 * D) - c2 * dl) = -(ff * (Jx - D)) - (ff - c1) * D - (xx - c2) * dl := by ring
      have hff : |ff| ≤ 2 := by
        have : |ff| ≤ |ff - c1| + |c1| := by
          have := abs_add_le (ff - c1) c1
          simpa using this
        have hθ1 : θ ≤ 1 := min_le_left _ _
        linarith
      have b1 : |ff * (Jx - D)| ≤ 2 * (η / 4) := by
        rw [abs_mul]
        exact mul_le_mul hff hj (abs_nonneg _) (by norm_num)
      have b2 : |(ff - c1) * D| ≤ θ * |M| := by
        rw [abs_mul]
        exact mul_le_mul n1 hDM (abs_nonneg _) hθ0.le
      have b3 : |(xx - c2) * dl| ≤ θ := by
        rw [abs_mul]
        calc |xx - c2| * |dl| ≤ θ * 1 := mul_le_mul n2 hdl1 (abs_nonneg _) hθ0.le
          _ = θ := mul_one _
      have b4 : θ * (|M| + 1) ≤ η / 4 := by
        have h1 : θ ≤ η / (4 * (|M| + 1)) := min_le_right _ _
        rw [le_div_iff₀ (by positivity)] at h1
        linarith
      rw [e5]
      have t1 := abs_sub (-(ff * (Jx - D)) - (ff - c1) * D) ((xx - c2) * dl)
      have t2 := abs_sub (-(ff * (Jx - D))) ((ff - c1) * D)
      rw [abs_neg] at t2
      linarith)
  refine ⟨fun x hx => (r1 x hx).1, ?_⟩
  have h3 := stopsNear_of (serialFcmp f a b) xs hC hδ hρ0 r2
  have hle : C * (δ + 1) ≤ C * 2 := mul_le_mul_of_nonneg_left (by linarith [hδle.trans (min_le_right _ _)]) hC.le
  intro x0 hx0 tol htol n0 hn0 maxit hmax
  have hpow : 0 < ρ ^ n0 := by positivity
  obtain ⟨s1, s2, s3⟩ := h3 x0 hx0 tol htol n0 (lt_of_le_of_lt (mul_le_mul_of_nonneg_right hle hpow.le) hn0) maxit hmax
  exact ⟨s1, s2, fun p k => ⟨(s3 p k).1, (s3 p k).2.trans (mul_le_mul_of_nonneg_right hle htol.le)⟩⟩

/-- **C124, bounds and numerical derivatives.**  `ncpsolve(SerialDifferentiableFunction(g, eps), a, b, x0)`. -/
theorem C124_ncpsolve_differences (F : Fin N → (Fin n → ℝ) → Fin n → ℝ) (a b : ℕ → ℕ → Option ℝ)
    (xs : Fin N → Fin n → ℝ)
    (hF : RowsMcpRegular F (fun p k => ncpLower (a p k)) (fun p k => ncpUpper (b p k)) xs)
    (g : List (List ℝ) → List (List ℝ)) (hg : ComputesRows F g) {ρ : ℝ} (hρ0 : 0 < ρ) (hρ1 : ρ < 1) :
    ∃ h0 > 0, ∃ δ > 0, ∃ C > 0, ∀ eps : ℝ, eps ≠ 0 → |eps| < h0 →
      StopsNear N n (serialNcpsolve N n (diffFun N n g eps) a b)
        (fun x => (serialFcmp (diffFun N n g eps) a b x).1) xs δ C ρ := by
  obtain ⟨η, hη, δ1, hδ1, C, hC, h⟩ := C124_ncpsolve F a b xs hF hρ0 hρ1
  obtain ⟨h0, hh0, δ2, hδ2, hclose⟩ := diffFun_close F xs hF.smooth hη
  refine ⟨h0, hh0, min δ1 δ2, lt_min hδ1 hδ2, C, hC, fun eps hne heps => ?_⟩
  exact (h (min δ1 δ2) (lt_min hδ1 hδ2) (min_le_left _ _) (diffFun N n g eps)
    (fun x p k => (diffFun_entries F g hg eps x p k).1)
    (fun x hx => hclose g hg eps hne heps x (hx.trans_le (min_le_right _ _)))).2

/-! ### Examples -/

section examples

/-- Two points: `x² = 4` at the first, `x² = 9` at the second. -/
private noncomputable def exF (p : Fin 2) (v : Fin 1 → ℝ) : Fin 1 → ℝ := fun k => v k ^ 2 - (p.val + 2 : ℝ) ^ 2

private noncomputable def exXs (p : Fin 2) : Fin 1 → ℝ := fun _ => p.val + 2

private theorem exF_fderiv (p : Fin 2) (w : Fin 1 → ℝ) : HasFDerivAt (exF p)
    (ContinuousLinearMap.pi fun k => (2 * w k) • ContinuousLinearMap.proj (R := ℝ) (φ := fun _ : Fin 1 => ℝ) k) w := by
  rw [hasFDerivAt_pi']
  intro k
  have h := (ContinuousLinearMap.proj (R := ℝ) (φ := fun _ : Fin 1 => ℝ) k).hasFDerivAt (x := w)
  refine ((h.pow 2).sub_const ((p.val + 2 : ℝ) ^ 2)).congr_fderiv ?_
  ext v
  simp

private theorem ex_regular : RowsRegular exF exXs where
  root p := by funext k; simp [exF, exXs]
  smooth p := by
    unfold exF
    fun_prop
  invertible p v hv := by
    rw [(exF_fderiv p (exXs p)).fderiv] at hv
    funext k
    have h1 := congrFun hv k
    have h2 : (2 * (p.val + 2 : ℝ)) * v k = 0 := h1
    rcases mul_eq_zero.1 h2 with h3 | h3
    · have : (0 : ℝ) ≤ p.val := Nat.cast_nonneg _
      linarith
    · exact h3

/-- The hypotheses of `C124_newton` and `C124_approximate_jacobian` are met. -/
example : ∃ δ > 0, ∃ C > 0, StopsNear 2 1
    (newton (serialProblem 2 1 fun x => (fun p k => x p k ^ 2 - (p + 2 : ℝ) ^ 2, fun p k _ => 2 * x p k)))
    (fun x p k => x p k ^ 2 - (p + 2 : ℝ) ^ 2) exXs δ C (1 / 10) := by
  obtain ⟨δ, hδ, C, hC, -, h⟩ := C124_newton exF exXs ex_regular
    (fun x => (fun p k => x p k ^ 2 - (p + 2 : ℝ) ^ 2, fun p k _ => 2 * x p k)) (fun x p k => rfl)
    (fun x p k i => by
      unfold partialOf
      rw [(exF_fderiv p _).fderiv]
      have : k = i := Subsingleton.elim _ _
      subst this
      simp [cut]) (ρ := 1 / 10) (by norm_num) (by norm_num)
  exact ⟨δ, hδ, C, hC, h⟩

/-- So is the Lipschitz condition of `C124_quadratic`. -/
example : ∀ p v w, dist v (exXs p) < 1 → dist w (exXs p) < 1 →
    DifferentiableAt ℝ (exF p) v ∧ ‖fderiv ℝ (exF p) v - fderiv ℝ (exF p) w‖ ≤ 2 * dist v w := by
  intro p v w _ _
  refine ⟨(exF_fderiv p v).differentiableAt, ?_⟩
  rw [(exF_fderiv p v).fderiv, (exF_fderiv p w).fderiv]
  refine ContinuousLinearMap.opNorm_le_bound _ (by positivity) fun z => ?_
  refine (pi_norm_le_iff_of_nonneg (by positivity)).2 fun k => ?_
  have e : ((ContinuousLinearMap.pi fun k => (2 * v k) • ContinuousLinearMap.proj (R := ℝ) (φ := fun _ : Fin 1 => ℝ) k)
      - ContinuousLinearMap.pi fun k => (2 * w k) • ContinuousLinearMap.proj (R := ℝ) (φ := fun _ : Fin 1 => ℝ) k) z k
      = 2 * (v k - w k) * z k := by
    change 2 * v k * z k - 2 * w k * z k = _
    ring
  rw [e, norm_mul, norm_mul, dist_eq_norm]
  refine mul_le_mul (mul_le_mul (by norm_num) (norm_le_pi_norm (v - w) k) (norm_nonneg _) (by norm_num))
    (norm_le_pi_norm z k) (norm_nonneg _) (by positivity)

/-- `x² = 4`, `x² = 9` on lists of rows. -/
private noncomputable def exG (X : List (List ℝ)) : List (List ℝ) :=
  X.mapIdx fun p row => row.map fun t => t ^ 2 - (p + 2 : ℝ) ^ 2

private theorem exG_rows : ComputesRows exF exG := by
  intro x
  refine ⟨by simp [exG, rowsOf], fun p k => ?_⟩
  have hp : (List.range 2)[(p : ℕ)]? = some (p : ℕ) := by rw [List.getElem?_range p.2]
  simp [exG, rowsOf, rowAt, exF, cut, hp]

example : ∃ h0 > 0, ∃ δ > 0, ∃ C > 0, ∀ eps : ℝ, eps ≠ 0 → |eps| < h0 →
    StopsNear 2 1 (newton (serialProblem 2 1 (diffFun 2 1 exG eps))) (fun x => rowAt (exG (rowsOf 2 1 x))) exXs δ C
      (1 / 10) := by
  obtain ⟨h0, hh0, δ, hδ, C, hC, h⟩ := C124_differences exF exXs ex_regular exG exG_rows (ρ := 1 / 10)
    (by norm_num) (by norm_num)
  exact ⟨h0, hh0, δ, hδ, C, hC, fun eps h1 h2 => (h eps h1 h2).2⟩

/-- With a lower bound of 3: it binds at the first point, where the residual is positive, and not at the second,
where the solution 3 is replaced by 4 (`x² = 16`). -/
private noncomputable def exF2 (p : Fin 2) (v : Fin 1 → ℝ) : Fin 1 → ℝ := fun k => v k ^ 2 - (if p = 0 then 4 else 16)

private noncomputable def exXs2 (p : Fin 2) : Fin 1 → ℝ := fun _ => if p = 0 then 3 else 4

private theorem exF2_fderiv (p : Fin 2) (w : Fin 1 → ℝ) : HasFDerivAt (exF2 p)
    (ContinuousLinearMap.pi fun k => (2 * w k) • ContinuousLinearMap.proj (R := ℝ) (φ := fun _ : Fin 1 => ℝ) k) w := by
  rw [hasFDerivAt_pi']
  intro k
  have h := (ContinuousLinearMap.proj (R := ℝ) (φ := fun _ : Fin 1 => ℝ) k).hasFDerivAt (x := w)
  refine ((h.pow 2).sub_const (if p = 0 then 4 else 16)).congr_fderiv ?_
  ext v
  simp

example : RowsMcpRegular exF2 (fun _ _ => ncpLower (some 3)) (fun _ _ => ncpUpper none) exXs2 where
  strict p k := by
    have hl : ncpLower (some 3) = some 3 := by
      unfold ncpLower
      simp only [Option.filter_some]
      norm_num
    rw [hl]
    fin_cases p
    · right; left
      refine ⟨by norm_num [exF2, exXs2], by simp [exXs2], fun u hu => by simp [ncpUpper] at hu⟩
    · left
      refine ⟨by norm_num [exF2, exXs2], fun l hl => ?_, fun u hu => by simp [ncpUpper] at hu⟩
      simp only [Option.mem_def, Option.some.injEq] at hl
      subst hl
      norm_num [exXs2]
  smooth p := by
    unfold exF2
    fun_prop
  invertible p v h1 h2 := by
    funext k
    by_cases h : exF2 p (exXs2 p) k = 0
    · have := h2 k h
      rw [(exF2_fderiv p (exXs2 p)).fderiv] at this
      have h3 : (2 * exXs2 p k) * v k = 0 := this
      rcases mul_eq_zero.1 h3 with h4 | h4
      · exfalso
        unfold exXs2 at h4
        split_ifs at h4 <;> norm_num at h4
      · exact h4
    · exact h1 k h

end examples

end Dolo
