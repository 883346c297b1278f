import Mathlib.Analysis.Calculus.ContDiff.Basic
import Mathlib.Analysis.Calculus.ContDiff.RCLike
import Mathlib.Data.Fintype.Order
import Verif.Lemmas.TILocal
import Verif.Lemmas.NcpLocal
import Verif.Lemmas.ItiConv
import Verif.Props.NewtonLocal
import Verif.Model.TISerial

/-!
# Time iteration with serial Newton steps: lemmas
-/

set_option linter.unusedSectionVars false

namespace Dolo

open Filter Topology

variable {R n : ℕ}

/-- Arrays with `R` rows and `n` columns. -/
abbrev Rows (R n : ℕ) := Fin R → Fin n → ℝ

/-- The derivative with respect to the controls at the point itself. -/
noncomputable def ownPart (A : (Fin n → ℝ) × Rows R n →L[ℝ] (Fin n → ℝ)) : (Fin n → ℝ) →L[ℝ] (Fin n → ℝ) :=
  A.comp (ContinuousLinearMap.inl ℝ (Fin n → ℝ) (Rows R n))

theorem rows_strict (F : Fin R → (Fin n → ℝ) × Rows R n → Fin n → ℝ)
    (A : Fin R → (Fin n → ℝ) × Rows R n →L[ℝ] (Fin n → ℝ)) (xs : Rows R n)
    (hd : ∀ r, HasStrictFDerivAt (F r) (A r) (xs r, xs)) :
    HasStrictFDerivAt (fun q : Rows R n × Rows R n => fun r => F r (q.1 r, q.2))
      (ContinuousLinearMap.pi fun r => (A r).comp
        (((ContinuousLinearMap.proj (R := ℝ) (φ := fun _ : Fin R => Fin n → ℝ) r).comp
          (ContinuousLinearMap.fst ℝ (Rows R n) (Rows R n))).prod (ContinuousLinearMap.snd ℝ (Rows R n) (Rows R n))))
      (xs, xs) := by
  rw [hasStrictFDerivAt_pi']
  intro r
  have h1 : HasStrictFDerivAt (fun q : Rows R n × Rows R n => (q.1 r, q.2))
      (((ContinuousLinearMap.proj (R := ℝ) (φ := fun _ : Fin R => Fin n → ℝ) r).comp
          (ContinuousLinearMap.fst ℝ (Rows R n) (Rows R n))).prod (ContinuousLinearMap.snd ℝ (Rows R n) (Rows R n)))
      (xs, xs) := ContinuousLinearMap.hasStrictFDerivAt
        (((ContinuousLinearMap.proj (R := ℝ) (φ := fun _ : Fin R => Fin n → ℝ) r).comp
          (ContinuousLinearMap.fst ℝ (Rows R n) (Rows R n))).prod (ContinuousLinearMap.snd ℝ (Rows R n) (Rows R n)))
  exact (hd r).comp (xs, xs) h1

/-- One iteration of time iteration near a regular solution. -/
theorem serial_update (F : Fin R → (Fin n → ℝ) × Rows R n → Fin n → ℝ)
    (A : Fin R → (Fin n → ℝ) × Rows R n →L[ℝ] (Fin n → ℝ)) (xs : Rows R n) (h0 : ∀ r, F r (xs r, xs) = 0)
    (hd : ∀ r, HasStrictFDerivAt (F r) (A r) (xs r, xs)) (hinj : ∀ r v, A r (v, 0) = 0 → v = 0)
    (L : Rows R n →L[ℝ] Rows R n) (hL : ∀ u r, A r (L u r, u) = 0) {p : Rows R n → ℝ} {cl cu q ρ : ℝ}
    (hp : AdaptedNorm p cl cu) (hq : ∀ v, p (L v) ≤ q * p v) (hqρ : q < ρ) (hρ1 : ρ < 1) :
    ∃ η > 0, ∃ K > 0, ∃ ε0 > 0, ∀ ε', 0 < ε' → ε' ≤ ε0 → ∃ δ > 0, δ ≤ ε' ∧
      ∀ f : (ℕ → ℕ → ℝ) → (ℕ → ℕ → ℝ) → (ℕ → ℕ → ℝ) × (ℕ → ℕ → ℕ → ℝ),
        (∀ x z (r : Fin R) (k : Fin n), (f x z).1 r k = F r (cut R n z r, cut R n x) k) →
        (∀ x z, dist (cut R n z) xs < ε' → dist (cut R n x) xs < ε' → ∀ (r : Fin R) (k i : Fin n),
          |(f x z).2 r k i - clmEntry (ownPart (A r)) k i| ≤ η) →
        ∀ tin, 0 < tin → ∀ maxit, 1 ≤ maxit → ∀ x, ‖cut R n x - xs‖ < δ →
          ((newton (serialProblem R n (f x)) tin maxit x).x = x ∧ ‖cut R n x - xs‖ ≤ K * tin) ∨
          p (cut R n (newton (serialProblem R n (f x)) tin maxit x).x - xs) ≤ ρ * p (cut R n x - xs) := by
  set Φ : Rows R n × Rows R n → Rows R n := fun q => fun r => F r (q.1 r, q.2) with hΦ
  set AA := (ContinuousLinearMap.pi fun r => (A r).comp
        (((ContinuousLinearMap.proj (R := ℝ) (φ := fun _ : Fin R => Fin n → ℝ) r).comp
          (ContinuousLinearMap.fst ℝ (Rows R n) (Rows R n))).prod (ContinuousLinearMap.snd ℝ (Rows R n) (Rows R n))))
    with hAA
  have hΦd : HasStrictFDerivAt Φ AA (xs, xs) := rows_strict F A xs hd
  have hΦ0 : Φ (xs, xs) = 0 := by funext r; exact h0 r
  set A1 := blockCLM fun r => clmEntry (ownPart (A r)) with hA1
  have eAA : ∀ u w r, AA (u, w) r = A r (u r, w) := fun u w r => rfl
  have eA1 : ∀ v, AA (v, 0) = A1 v := by
    intro v
    funext r k
    rw [eAA, hA1, blockCLM_apply, ← clmEntry_sum]
    rfl
  have eL : ∀ u, A1 (L u) = -AA (0, u) := by
    intro u
    rw [← eA1]
    funext r
    rw [Pi.neg_apply, eAA, eAA]
    have := hL u r
    have e : ((L u r, u) : (Fin n → ℝ) × Rows R n) = (L u r, 0) + (0, u) := by simp
    rw [e, map_add] at this
    exact eq_neg_of_add_eq_zero_left this
  have hA1inj : ∀ u, A1 u = 0 → u = 0 := by
    intro u hu
    rw [← eA1] at hu
    funext r
    refine hinj r (u r) ?_
    have := congrFun hu r
    rwa [eAA] at this
  obtain ⟨Ai, hAi⟩ := exists_left_inverse A1 hA1inj
  have hcl := hp.cl_pos
  have hcu := hp.cu_pos
  obtain ⟨η, hη, ε, hε, C, hC, hker, hacc, hrun⟩ := param_newton (X := ℕ → ℕ → ℝ) (V := ℕ → ℕ → ℝ)
    (J := ℕ → ℕ → ℕ → ℝ) (D := ℕ → ℕ → ℝ) Φ AA xs hΦ0 hΦd A1 Ai L eA1 hAi eL
    (κ := (ρ - q) * cl / cu) (by have : 0 < ρ - q := by linarith
                                 positivity)
  set κ := (ρ - q) * cl / cu with hκ
  have hκp : ∀ v : Rows R n, cu * (κ * ‖v‖) ≤ (ρ - q) * p v := by
    intro v
    have e : cu * (κ * ‖v‖) = (ρ - q) * (cl * ‖v‖) := by rw [hκ]; field_simp
    rw [e]
    exact mul_le_mul_of_nonneg_left (hp.lower v) (by linarith)
  have hρ' : 0 < 1 - ρ := by linarith
  refine ⟨η / (n + 1), by positivity, cu * C / (cl * (1 - ρ)), by positivity, ε, hε, fun ε' hε' hle => ?_⟩
  obtain ⟨δ, hδ, hδε, hgo⟩ := hrun ε' hε' hle
  refine ⟨δ, hδ, hδε, fun f hf hJ tin htin maxit hmax x hx => ?_⟩
  have hview : NewtonView (serialProblem R n (f x)) (fun z => Φ (z, cut R n x)) (cut R n) (cut R n) := by
    refine ⟨fun z => ?_, fun z d t => ?_⟩
    · change maxAbs R n (f x z).1 = _
      rw [maxAbs_eq_norm]
      congr 1
      funext r k
      exact hf x z r k
    · funext r k
      change z r k - d r k * t = z r k - t * d r k
      ring
  have hx' : dist (cut R n x) xs < ε' := by rw [dist_eq_norm]; exact hx.trans_le hδε
  obtain ⟨g1, g2, g3⟩ := hgo (cut R n x) hx (serialProblem R n (f x)) (cut R n) (cut R n) hview
    (fun z hz => by
      have hz' : dist (cut R n z) xs < ε' := by rwa [dist_eq_norm]
      refine ⟨blockCLM (fun (r : Fin R) (k i : Fin n) => (f x z).2 r k i), ?_, ?_⟩
      · rw [hA1, blockCLM_sub]
        refine (blockCLM_norm_le _ (η := η / (n + 1)) (by positivity) fun r k i => hJ x z hz' hx' r k i).trans ?_
        rw [mul_div_assoc', div_le_iff₀ (by positivity)]
        nlinarith
      · have h1 := serialStep_solves (f x z).2 (f x z).1 (hker _ (by
          rw [hA1, blockCLM_sub]
          refine (blockCLM_norm_le _ (η := η / (n + 1)) (by positivity) fun r k i => hJ x z hz' hx' r k i).trans ?_
          rw [mul_div_assoc', div_le_iff₀ (by positivity)]
          nlinarith))
        have e : cut R n (f x z).1 = Φ (cut R n z, cut R n x) := by
          funext r k
          exact hf x z r k
        rw [e] at h1
        exact h1) tin htin maxit x rfl
  rcases Nat.eq_zero_or_pos (newton (serialProblem R n (f x)) tin maxit x).it with hit | hit
  · left
    refine ⟨g1 hit, ?_⟩
    have h1 := g2 hmax hit
    have h2 := hacc (cut R n x) (hx.trans_le (hδε.trans hle))
    set v := cut R n x - xs with hv
    have h3 : p v ≤ p (L v) + p (v - L v) := by
      have := hp.add (L v) (v - L v)
      simpa using this
    have h4 := (hp.upper (v - L v)).trans (mul_le_mul_of_nonneg_left h2 hcu.le)
    have h5 := hκp v
    have h6 : C * ‖Φ (cut R n x, cut R n x)‖ ≤ C * tin := mul_le_mul_of_nonneg_left h1.le hC.le
    have h7 := hq v
    have h8 := hp.lower v
    have h9 : cu * (C * ‖Φ (cut R n x, cut R n x)‖) ≤ cu * (C * tin) := mul_le_mul_of_nonneg_left h6 hcu.le
    have h10 : (1 - ρ) * p v ≤ cu * (C * tin) := by
      rw [mul_add] at h4
      linarith
    rw [div_mul_eq_mul_div, le_div_iff₀ (by positivity)]
    calc ‖v‖ * (cl * (1 - ρ)) = (1 - ρ) * (cl * ‖v‖) := by ring
      _ ≤ (1 - ρ) * p v := mul_le_mul_of_nonneg_left h8 hρ'.le
      _ ≤ cu * (C * tin) := h10
      _ = _ := by ring
  · right
    have h1 := g3 hit
    set v := cut R n x - xs with hv
    set w := cut R n (newton (serialProblem R n (f x)) tin maxit x).x - xs with hw
    have h2 : p w ≤ p (L v) + p (w - L v) := by
      have := hp.add (L v) (w - L v)
      simpa using this
    have h3 := (hp.upper (w - L v)).trans (mul_le_mul_of_nonneg_left h1 hcu.le)
    have h4 := hκp v
    have h5 := hq v
    linarith

/-- Rates faster than `ρ`. -/
theorem exists_adapted_rate {E : Type} [NormedAddCommGroup E] [NormedSpace ℝ E] (L : E →L[ℝ] E) {ρ : ℝ} (hρ : 0 < ρ)
    {k : ℕ} (hk : 1 ≤ k) (hL : ‖L ^ k‖ < ρ ^ k) :
    ∃ (p : E → ℝ) (cl cu q : ℝ), AdaptedNorm p cl cu ∧ q < ρ ∧ ∀ v, p (L v) ≤ q * p v := by
  have h1 : ‖(ρ⁻¹ • L) ^ k‖ < 1 := by
    rw [smul_pow, norm_smul, norm_pow, norm_inv, Real.norm_of_nonneg hρ.le, inv_pow, inv_mul_lt_iff₀ (by positivity),
      mul_one]
    exact hL
  obtain ⟨p, cl, cu, q, hp, hq0, hq1, h⟩ := exists_adapted (ρ⁻¹ • L) hk h1
  refine ⟨p, cl, cu, ρ * q, hp, by nlinarith, fun v => ?_⟩
  have := h v
  rw [_root_.smul_apply, hp.smul, abs_of_pos (inv_pos.2 hρ), inv_mul_le_iff₀ hρ] at this
  linarith

/-- The whole loop with serial Newton steps. -/
theorem serial_ti (F : Fin R → (Fin n → ℝ) × Rows R n → Fin n → ℝ)
    (A : Fin R → (Fin n → ℝ) × Rows R n →L[ℝ] (Fin n → ℝ)) (xs : Rows R n) (h0 : ∀ r, F r (xs r, xs) = 0)
    (hd : ∀ r, HasStrictFDerivAt (F r) (A r) (xs r, xs)) (hinj : ∀ r v, A r (v, 0) = 0 → v = 0)
    (L : Rows R n →L[ℝ] Rows R n) (hL : ∀ u r, A r (L u r, u) = 0) {ρ : ℝ} (hρ0 : 0 < ρ) (hρ1 : ρ < 1) {k : ℕ}
    (hk : 1 ≤ k) (hLk : ‖L ^ k‖ < ρ ^ k) :
    ∃ η > 0, ∃ C > 0, ∃ ε0 > 0, ∀ ε', 0 < ε' → ε' ≤ ε0 → ∃ δ > 0,
      ∀ f : (ℕ → ℕ → ℝ) → (ℕ → ℕ → ℝ) → (ℕ → ℕ → ℝ) × (ℕ → ℕ → ℕ → ℝ),
        (∀ x z (r : Fin R) (k : Fin n), (f x z).1 r k = F r (cut R n z r, cut R n x) k) →
        (∀ x z, dist (cut R n z) xs < ε' → dist (cut R n x) xs < ε' → ∀ (r : Fin R) (k i : Fin n),
          |(f x z).2 r k i - clmEntry (ownPart (A r)) k i| ≤ η) →
        ∀ tin, 0 < tin → ∀ inner, 1 ≤ inner → ∀ x0, ‖cut R n x0 - xs‖ < δ → ∀ tol, 0 < tol → tol < 10 →
          ∀ n0 : ℕ, C * ρ ^ n0 < tol → ∀ maxit, n0 < maxit →
          ∃ res, timeIteration (fun x => (newton (serialProblem R n (f x)) tin inner x).x)
              (fun a b => maxAbs R n fun r k => a r k - b r k) tol maxit x0 = .ok res ∧
            res.iterations ≤ n0 + 1 ∧ res.err ≤ tol ∧ (res.converged = true ↔ res.err < tol) ∧
            ‖cut R n res.controls - xs‖ ≤ C * max tol tin := by
  obtain ⟨p, cl, cu, q, hp, hqρ, hq⟩ := exists_adapted_rate L hρ0 hk hLk
  obtain ⟨η, hη, K, hK, ε0, hε0, h⟩ := serial_update F A xs h0 hd hinj L hL hp hq hqρ hρ1
  have hcl := hp.cl_pos
  have hcu := hp.cu_pos
  have hρ' : 0 < 1 - ρ := by linarith
  set C := max (max K (cu / cl * (1 / (1 - ρ)))) (2 * ε0) with hC
  have hCK : K ≤ C := (le_max_left _ _).trans (le_max_left _ _)
  have hCc : cu / cl * (1 / (1 - ρ)) ≤ C := (le_max_right _ _).trans (le_max_left _ _)
  have hCe : 2 * ε0 ≤ C := le_max_right _ _
  refine ⟨η, hη, C, hK.trans_le hCK, ε0, hε0, fun ε' hε' hle => ?_⟩
  obtain ⟨δ, hδ, hδε, hgo⟩ := h ε' hε' hle
  refine ⟨cl / cu * δ, by positivity, fun f hf hJ tin htin inner hinner x0 hx0 tol htol htol10 n0 hn0 maxit hmax => ?_⟩
  have hpow : 0 < ρ ^ n0 := by positivity
  obtain ⟨res, r1, r2, r3, r4, r5⟩ := ti_run (fun x => (newton (serialProblem R n (f x)) tin inner x).x) (cut R n)
    (fun a b => maxAbs R n fun r k => a r k - b r k) (fun a b => by rw [maxAbs_eq_norm]; rfl) xs (tin := tin) (K := K)
    hp hρ0 hρ1 (hgo f hf hJ tin htin inner hinner) x0 hx0 tol htol htol10 n0
    (lt_of_le_of_lt (mul_le_mul_of_nonneg_right (by linarith) hpow.le) hn0) maxit hmax
  refine ⟨res, r1, r2, r3, r4, r5.trans (max_le ?_ ?_)⟩
  · exact mul_le_mul hCK (le_max_right _ _) htin.le (hK.le.trans hCK)
  · exact mul_le_mul hCc (le_max_left _ _) htol.le (hK.le.trans hCK)

/-! ### Numerical derivatives -/

/-- Difference quotients in the first argument are close to the derivative, uniformly in the second. -/
theorem own_difference (φ : (Fin n → ℝ) × Rows R n → Fin n → ℝ) (A : (Fin n → ℝ) × Rows R n →L[ℝ] (Fin n → ℝ))
    (v : Fin n → ℝ) (xs : Rows R n) (h : HasStrictFDerivAt φ A (v, xs)) {η : ℝ} (hη : 0 < η) :
    ∃ h0 > 0, ∀ w x, dist w v < h0 → dist x xs < h0 → ∀ eps : ℝ, eps ≠ 0 → |eps| < h0 → ∀ k i,
      |(φ (w + eps • Pi.single i 1, x) k - φ (w, x) k) / eps - clmEntry (ownPart A) k i| ≤ η := by
  obtain ⟨r, hr, hball⟩ := Metric.eventually_nhds_iff.1 (h.isLittleO.bound hη)
  refine ⟨r / 2, by positivity, fun w x hw hx eps hne heps k i => ?_⟩
  have hnorm : ‖eps • (Pi.single i (1 : ℝ) : Fin n → ℝ)‖ = |eps| := by
    rw [norm_smul, Pi.norm_single]
    simp
  have h2 := hball (y := ((w + eps • Pi.single i 1, x), (w, x))) (by
    rw [Prod.dist_eq, Prod.dist_eq, Prod.dist_eq]
    refine max_lt (max_lt ?_ (by simp only; linarith)) (max_lt (by simp only; linarith) (by simp only; linarith))
    simp only
    refine lt_of_le_of_lt (dist_triangle _ w _) ?_
    rw [dist_eq_norm (w + _) w, add_sub_cancel_left, hnorm]
    linarith)
  have e0 : ((w + eps • Pi.single i 1, x) - (w, x) : (Fin n → ℝ) × Rows R n) = eps • (Pi.single i 1, 0) := by
    simp
  have e1 : ‖((Pi.single i (1 : ℝ) : Fin n → ℝ), (0 : Rows R n))‖ = 1 := by
    rw [Prod.norm_mk, norm_zero, Pi.norm_single]
    simp
  simp only [e0] at h2
  rw [norm_smul, e1, mul_one, map_smul] at h2
  have h3 := (norm_le_pi_norm _ k).trans h2
  simp only [Pi.sub_apply, Pi.smul_apply, smul_eq_mul, Real.norm_eq_abs] at h3
  have e : (φ (w + eps • Pi.single i 1, x) k - φ (w, x) k) / eps - clmEntry (ownPart A) k i
      = (φ (w + eps • Pi.single i 1, x) k - φ (w, x) k - eps * A (Pi.single i 1, 0) k) / eps := by
    have : clmEntry (ownPart A) k i = A (Pi.single i 1, 0) k := rfl
    rw [this]
    field_simp
  rw [e, abs_div, div_le_iff₀ (abs_pos.2 hne)]
  exact h3

theorem exists_pos_le_all {ι : Type} [Finite ι] {f : ι → ℝ} (h : ∀ p, 0 < f p) : ∃ δ > 0, ∀ p, δ < f p := by
  obtain ⟨M, hM⟩ := Finite.exists_le fun p => 1 / f p
  refine ⟨1 / (|M| + 1), by positivity, fun p => ?_⟩
  have h1 := (hM p).trans (le_abs_self M)
  rw [div_le_iff₀ (h p)] at h1
  rw [div_lt_iff₀ (by positivity)]
  nlinarith [h p]

theorem cut_rowAt (z : ℕ → ℕ → ℝ) : cut R n (rowAt (rowsOf R n z)) = cut R n z := by
  funext r k
  simp [cut, rowAt, rowsOf]

/-- A residual function that computes `F` from the rows. -/
theorem onRows_computes (F : Fin R → (Fin n → ℝ) → Fin n → ℝ) (fn : (ℕ → ℕ → ℝ) → ℕ → ℕ → ℝ)
    (h : ∀ z (r : Fin R) (k : Fin n), fn z r k = F r (cut R n z r) k) : ComputesRows F (onRows R n fn) := by
  intro x
  refine ⟨by simp [onRows, rowsOf], fun r k => ?_⟩
  have h1 := congrFun (congrFun (cut_rowAt (R := R) (n := n) (fn (rowAt (rowsOf R n x)))) r) k
  have h2 : rowAt (onRows R n fn (rowsOf R n x)) r k = fn (rowAt (rowsOf R n x)) r k := h1
  rw [h2, h, cut_rowAt]

/-- The differences that `SerialDifferentiableFunction` computes. -/
theorem diff_close (F : Fin R → (Fin n → ℝ) × Rows R n → Fin n → ℝ)
    (A : Fin R → (Fin n → ℝ) × Rows R n →L[ℝ] (Fin n → ℝ)) (xs : Rows R n)
    (hd : ∀ r, HasStrictFDerivAt (F r) (A r) (xs r, xs)) {η : ℝ} (hη : 0 < η) :
    ∃ h0 > 0, ∀ fn : (ℕ → ℕ → ℝ) → (ℕ → ℕ → ℝ) → ℕ → ℕ → ℝ,
      (∀ x z (r : Fin R) (k : Fin n), fn x z r k = F r (cut R n z r, cut R n x) k) →
      ∀ eps : ℝ, eps ≠ 0 → |eps| < h0 →
        (∀ x z (r : Fin R) (k : Fin n),
          (diffFun R n (onRows R n (fn x)) eps z).1 r k = F r (cut R n z r, cut R n x) k) ∧
        ∀ x z, dist (cut R n z) xs < h0 → dist (cut R n x) xs < h0 → ∀ (r : Fin R) (k i : Fin n),
          |(diffFun R n (onRows R n (fn x)) eps z).2 r k i - clmEntry (ownPart (A r)) k i| ≤ η := by
  choose h0 hh0 hh using fun r => own_difference (F r) (A r) (xs r) xs (hd r) hη
  obtain ⟨h1, hh1, hle⟩ := exists_pos_le_all hh0
  refine ⟨h1, hh1, fun fn hfn eps hne heps => ?_⟩
  have key := fun x z => diffFun_entries (fun r v => F r (v, cut R n x)) (onRows R n (fn x))
    (onRows_computes _ (fn x) fun z r k => hfn x z r k) eps z
  refine ⟨fun x z r k => (key x z r k).1, fun x z hz hx r k i => ?_⟩
  rw [(key x z r k).2 i]
  exact hh r _ _ (((dist_le_pi_dist _ xs r).trans_lt hz).trans (hle r)) (hx.trans (hle r)) eps hne
    (heps.trans (hle r)) k i

/-! ### Bounds -/

section ncp

variable {Z : Type} [NormedAddCommGroup Z] [NormedSpace ℝ Z]

private theorem norm_strict {a d : Z → ℝ} {a' d' : Z →L[ℝ] ℝ} {z : Z} (ha : HasStrictFDerivAt a a' z)
    (hd : HasStrictFDerivAt d d' z) (h : a z ≠ 0 ∨ d z ≠ 0) :
    HasStrictFDerivAt (fun z => √(a z ^ 2 + d z ^ 2))
      ((a z / √(a z ^ 2 + d z ^ 2)) • a' + (d z / √(a z ^ 2 + d z ^ 2)) • d') z := by
  have hpos : 0 < a z ^ 2 + d z ^ 2 := by rcases h with h | h <;> positivity
  have hs := Real.sqrt_pos.2 hpos
  have h1 := ((ha.pow 2).add (hd.pow 2)).sqrt hpos.ne'
  refine h1.congr_fderiv ?_
  ext v
  simp
  field_simp

theorem ncpPval_strict {fx x : Z → ℝ} {fx' x' : Z →L[ℝ] ℝ} {z : Z} (hf : HasStrictFDerivAt fx fx' z)
    (hx : HasStrictFDerivAt x x' z) (a : Option ℝ) (h : NoKinkLow (ncpLower a) (x z) (fx z)) :
    HasStrictFDerivAt (fun z => ncpPval (x z) (fx z) a)
      ((ncpDp (x z) (fx z) a).1 • fx' - (ncpDp (x z) (fx z) a).2 • x') z := by
  unfold ncpPval ncpDp
  cases hl : ncpLower a with
  | none => simpa using hf
  | some l =>
    have h1 := norm_strict hf (hx.const_sub l) (h l hl)
    refine ((hf.add h1).add (hx.const_sub l)).congr_fderiv ?_
    ext v
    simp
    ring

theorem ncpFxnew_strict {pv x : Z → ℝ} {pv' x' : Z →L[ℝ] ℝ} {z : Z} (hp : HasStrictFDerivAt pv pv' z)
    (hx : HasStrictFDerivAt x x' z) (b : Option ℝ) (h : NoKinkLow (ncpUpper b) (x z) (pv z)) :
    HasStrictFDerivAt (fun z => ncpFxnew (x z) (pv z) b)
      ((ncpDm (x z) (pv z) b).1 • pv' - (ncpDm (x z) (pv z) b).2 • x') z := by
  unfold ncpFxnew ncpDm
  cases hl : ncpUpper b with
  | none => simpa using hp
  | some u =>
    have h1 := norm_strict hp (hx.const_sub u) (h u hl)
    refine ((hp.sub h1).add (hx.const_sub u)).congr_fderiv ?_
    ext v
    simp
    ring

/-- Strict derivative of the smoothed residual at a strictly complementary solution. -/
theorem strict_strict {r x : Z → ℝ} {r' x' : Z →L[ℝ] ℝ} {z : Z} (hr : HasStrictFDerivAt r r' z)
    (hx : HasStrictFDerivAt x x' z) (a b : Option ℝ) (h : StrictMCP (ncpLower a) (ncpUpper b) (x z) (r z)) :
    HasStrictFDerivAt (fun z => ncpFxnew (x z) (ncpPval (x z) (-r z) a) b) (if r z = 0 then -r' else -x') z := by
  obtain ⟨k1, k2, -, e1, e2⟩ := strict_values a b (x z) (r z) h
  have h1 := ncpPval_strict hr.neg hx a k1
  have h2 := ncpFxnew_strict h1 hx b k2
  refine h2.congr_fderiv ?_
  ext v
  have e : ((ncpDm (x z) (ncpPval (x z) (-r z) a) b).1 •
      ((ncpDp (x z) (-r z) a).1 • -r' - (ncpDp (x z) (-r z) a).2 • x') -
      (ncpDm (x z) (ncpPval (x z) (-r z) a) b).2 • x') v
      = -(ncpFf a b (x z) (r z) * r' v) - ncpXx a b (x z) (r z) * x' v := by
    simp [ncpFf, ncpXx]
    ring
  refine e.trans ?_
  rw [e1, e2]
  split_ifs <;> simp

end ncp

/-- The entries of the smoothed Jacobian. -/
theorem smoothed_entry {ff xx J D c1 c2 dl θ η M : ℝ} (h1 : |ff - c1| ≤ θ) (h2 : |xx - c2| ≤ θ) (hJ : |J - D| ≤ η / 4)
    (hD : |D| ≤ M) (hc : |c1| ≤ 1) (hdl : |dl| ≤ 1) (hθ1 : θ ≤ 1) (hθ : θ * (M + 1) ≤ η / 4) :
    |ff * -J - xx * dl - (-(c1 * D) - c2 * dl)| ≤ η := by
  have hθ0 : 0 ≤ θ := (abs_nonneg _).trans h1
  have hη : 0 ≤ η := by linarith [(abs_nonneg (J - D)).trans hJ]
  have e5 : ff * -J - xx * dl - (-(c1 * D) - c2 * dl) = -(ff * (J - D)) - (ff - c1) * D - (xx - c2) * dl := by ring
  have hff : |ff| ≤ 2 := by
    have : |ff| ≤ |ff - c1| + |c1| := by
      have := abs_add_le (ff - c1) c1
      simpa using this
    linarith
  have b1 : |ff * (J - D)| ≤ 2 * (η / 4) := by
    rw [abs_mul]
    exact mul_le_mul hff hJ (abs_nonneg _) (by norm_num)
  have b2 : |(ff - c1) * D| ≤ θ * M := by
    rw [abs_mul]
    exact mul_le_mul h1 hD (abs_nonneg _) hθ0
  have b3 : |(xx - c2) * dl| ≤ θ := by
    rw [abs_mul]
    calc |xx - c2| * |dl| ≤ θ * 1 := mul_le_mul h2 hdl (abs_nonneg _) hθ0
      _ = θ := mul_one _
  rw [e5]
  have t1 := abs_sub (-(ff * (J - D)) - (ff - c1) * D) ((xx - c2) * dl)
  have t2 := abs_sub (-(ff * (J - D))) ((ff - c1) * D)
  rw [abs_neg] at t2
  linarith

/-- The smoothed equations, with the rule used tomorrow. -/
noncomputable def smoothRow (F : Fin R → (Fin n → ℝ) × Rows R n → Fin n → ℝ) (a b : ℕ → ℕ → Option ℝ) (r : Fin R)
    (q : (Fin n → ℝ) × Rows R n) (k : Fin n) : ℝ :=
  ncpFxnew (q.1 k) (ncpPval (q.1 k) (-F r q k) (a r k)) (b r k)

/-- Their derivative at a strictly complementary solution. -/
noncomputable def smoothRowD (F : Fin R → (Fin n → ℝ) × Rows R n → Fin n → ℝ)
    (A : Fin R → (Fin n → ℝ) × Rows R n →L[ℝ] (Fin n → ℝ)) (xs : Rows R n) (r : Fin R) :
    (Fin n → ℝ) × Rows R n →L[ℝ] (Fin n → ℝ) :=
  ContinuousLinearMap.pi fun k =>
    if F r (xs r, xs) k = 0 then -((ContinuousLinearMap.proj (R := ℝ) (φ := fun _ : Fin n => ℝ) k).comp (A r))
    else -((ContinuousLinearMap.proj (R := ℝ) (φ := fun _ : Fin n => ℝ) k).comp
      (ContinuousLinearMap.fst ℝ (Fin n → ℝ) (Rows R n)))

theorem smoothRowD_apply (F : Fin R → (Fin n → ℝ) × Rows R n → Fin n → ℝ)
    (A : Fin R → (Fin n → ℝ) × Rows R n →L[ℝ] (Fin n → ℝ)) (xs : Rows R n) (r : Fin R) (q : (Fin n → ℝ) × Rows R n)
    (k : Fin n) : smoothRowD F A xs r q k = if F r (xs r, xs) k = 0 then -A r q k else -q.1 k := by
  unfold smoothRowD
  rw [ContinuousLinearMap.pi_apply]
  split_ifs <;> rfl

theorem smoothRow_strict (F : Fin R → (Fin n → ℝ) × Rows R n → Fin n → ℝ)
    (A : Fin R → (Fin n → ℝ) × Rows R n →L[ℝ] (Fin n → ℝ)) (a b : ℕ → ℕ → Option ℝ) (xs : Rows R n)
    (hd : ∀ r, HasStrictFDerivAt (F r) (A r) (xs r, xs))
    (hs : ∀ (r : Fin R) (k : Fin n), StrictMCP (ncpLower (a r k)) (ncpUpper (b r k)) (xs r k) (F r (xs r, xs) k)) (r : Fin R) :
    HasStrictFDerivAt (smoothRow F a b r) (smoothRowD F A xs r) (xs r, xs) := by
  rw [hasStrictFDerivAt_pi']
  intro k
  have h1 : HasStrictFDerivAt (fun q => F r q k)
      ((ContinuousLinearMap.proj (R := ℝ) (φ := fun _ : Fin n => ℝ) k).comp (A r)) (xs r, xs) :=
    (hasStrictFDerivAt_pi'.1 (hd r)) k
  have h2 : HasStrictFDerivAt (fun q : (Fin n → ℝ) × Rows R n => q.1 k)
      ((ContinuousLinearMap.proj (R := ℝ) (φ := fun _ : Fin n => ℝ) k).comp
        (ContinuousLinearMap.fst ℝ (Fin n → ℝ) (Rows R n))) (xs r, xs) :=
    ContinuousLinearMap.hasStrictFDerivAt ((ContinuousLinearMap.proj (R := ℝ) (φ := fun _ : Fin n => ℝ) k).comp
        (ContinuousLinearMap.fst ℝ (Fin n → ℝ) (Rows R n)))
  refine (strict_strict h1 h2 (a r k) (b r k) (hs r k)).congr_fderiv ?_
  ext q
  · change _ = smoothRowD F A xs r _ k
    rw [smoothRowD_apply]
    split_ifs <;> rfl
  · change _ = smoothRowD F A xs r _ k
    rw [smoothRowD_apply]
    split_ifs <;> rfl

/-- The Jacobian of `serialFcmp` is close to that of the smoothed equations when the Jacobian given to it is. -/
theorem fcmp_close (F : Fin R → (Fin n → ℝ) × Rows R n → Fin n → ℝ)
    (A : Fin R → (Fin n → ℝ) × Rows R n →L[ℝ] (Fin n → ℝ)) (a b : ℕ → ℕ → Option ℝ) (xs : Rows R n)
    (hc : ∀ r, ContinuousAt (F r) (xs r, xs))
    (hs : ∀ (r : Fin R) (k : Fin n), StrictMCP (ncpLower (a r k)) (ncpUpper (b r k)) (xs r k) (F r (xs r, xs) k))
    {η : ℝ} (hη : 0 < η) :
    ∃ ε > 0, ∀ f : (ℕ → ℕ → ℝ) → (ℕ → ℕ → ℝ) → (ℕ → ℕ → ℝ) × (ℕ → ℕ → ℕ → ℝ),
      (∀ x z (r : Fin R) (k : Fin n), (f x z).1 r k = F r (cut R n z r, cut R n x) k) → ∀ x z,
      dist (cut R n z) xs < ε → dist (cut R n x) xs < ε →
      (∀ (r : Fin R) (k i : Fin n), |(f x z).2 r k i - clmEntry (ownPart (A r)) k i| ≤ η / 4) →
      ∀ (r : Fin R) (k i : Fin n),
        |(serialFcmp (f x) a b z).2 r k i - clmEntry (ownPart (smoothRowD F A xs r)) k i| ≤ η := by
  obtain ⟨M, hM⟩ := Finite.exists_le fun q : Fin R × Fin n × Fin n => |clmEntry (ownPart (A q.1)) q.2.1 q.2.2|
  have hM0 : ∀ r k i, |clmEntry (ownPart (A r)) k i| ≤ |M| := fun p k i => (hM (p, k, i)).trans (le_abs_self M)
  set θ := min 1 (η / (4 * (|M| + 1))) with hθ
  have hθ0 : 0 < θ := lt_min one_pos (by positivity)
  have hθM : θ * (|M| + 1) ≤ η / 4 := by
    have h1 : θ ≤ η / (4 * (|M| + 1)) := min_le_right _ _
    rw [le_div_iff₀ (by positivity)] at h1
    linarith
  have hnear : ∀ q : Fin R × Fin n, ∃ ε > 0, ∀ w : (Fin n → ℝ) × Rows R n, dist w (xs q.1, xs) < ε →
      |ncpFf (a q.1 q.2) (b q.1 q.2) (w.1 q.2) (F q.1 w q.2) - (if F q.1 (xs q.1, xs) q.2 = 0 then 1 else 0)| ≤ θ ∧
      |ncpXx (a q.1 q.2) (b q.1 q.2) (w.1 q.2) (F q.1 w q.2) - (if F q.1 (xs q.1, xs) q.2 = 0 then 0 else 1)| ≤ θ := by
    rintro ⟨r, k⟩
    have hcF : ContinuousAt (fun w => F r w k) (xs r, xs) := (continuous_apply k).continuousAt.comp (hc r)
    have hcx : ContinuousAt (fun w : (Fin n → ℝ) × Rows R n => w.1 k) (xs r, xs) :=
      ((continuous_apply k).comp continuous_fst).continuousAt
    obtain ⟨c1, c2⟩ := strict_continuousAt hcF hcx (a r k) (b r k) (hs r k)
    obtain ⟨-, -, -, e1, e2⟩ := strict_values (a r k) (b r k) (xs r k) (F r (xs r, xs) k) (hs r k)
    obtain ⟨ε1, hε1, h1⟩ := Metric.eventually_nhds_iff.1 (Metric.tendsto_nhds.1 c1 θ hθ0)
    obtain ⟨ε2, hε2, h2⟩ := Metric.eventually_nhds_iff.1 (Metric.tendsto_nhds.1 c2 θ hθ0)
    refine ⟨min ε1 ε2, lt_min hε1 hε2, fun w hw => ?_⟩
    have g1 := h1 (hw.trans_le (min_le_left _ _))
    have g2 := h2 (hw.trans_le (min_le_right _ _))
    simp only at g1 g2
    rw [Real.dist_eq, e1] at g1
    rw [Real.dist_eq, e2] at g2
    exact ⟨g1.le, g2.le⟩
  choose ε hε hnear using hnear
  obtain ⟨ε1, hε1, hle⟩ := exists_pos_le_all hε
  refine ⟨ε1, hε1, fun f hf x z hz hx hJ r k i => ?_⟩
  obtain ⟨n1, n2⟩ := hnear (r, k) (cut R n z r, cut R n x) (by
    rw [Prod.dist_eq]
    exact (max_lt ((dist_le_pi_dist _ xs r).trans_lt hz) hx).trans (hle (r, k)))
  simp only at n1 n2
  have e : (serialFcmp (f x) a b z).2 r k i
      = ncpFf (a r k) (b r k) (cut R n z r k) (F r (cut R n z r, cut R n x) k) * -(f x z).2 r k i
        - if k = i then ncpXx (a r k) (b r k) (cut R n z r k) (F r (cut R n z r, cut R n x) k) else 0 := by
    rw [← hf x z r k]
    simp only [serialFcmp, ncpFf, ncpXx, cut, Fin.ext_iff]
  rw [e]
  have e2 : clmEntry (ownPart (smoothRowD F A xs r)) k i
      = if F r (xs r, xs) k = 0 then -clmEntry (ownPart (A r)) k i else -(if k = i then 1 else 0) := by
    have : clmEntry (ownPart (smoothRowD F A xs r)) k i = smoothRowD F A xs r (Pi.single i 1, 0) k := rfl
    rw [this, smoothRowD_apply]
    simp only [Pi.single_apply]
    rfl
  rw [e2]
  set xx := ncpXx (a r k) (b r k) (cut R n z r k) (F r (cut R n z r, cut R n x) k)
  set D := clmEntry (ownPart (A r)) k i with hD
  set c1 : ℝ := if F r (xs r, xs) k = 0 then 1 else 0 with hc1
  set c2 : ℝ := if F r (xs r, xs) k = 0 then 0 else 1 with hc2
  set dl : ℝ := if k = i then 1 else 0 with hdl
  have e3 : (if F r (xs r, xs) k = 0 then -D else -dl) = -(c1 * D) - c2 * dl := by
    rw [hc1, hc2]; split_ifs <;> simp
  have e4 : (if k = i then xx else 0) = xx * dl := by
    rw [hdl]; split_ifs <;> simp
  rw [e3, e4]
  exact smoothed_entry n1 n2 (hJ r k i) (hM0 r k i) (by rw [hc1]; split_ifs <;> simp) (by rw [hdl]; split_ifs <;> simp)
    (min_le_left _ _) hθM

/-! ### Eigenvalues -/

/-- The matrix of a linear map between arrays. -/
noncomputable def rowsMatrix (L : Rows R n →L[ℝ] Rows R n) : Matrix (Fin R × Fin n) (Fin R × Fin n) ℝ :=
  .of fun p q => L (Pi.single q.1 (Pi.single q.2 1)) p.1 p.2

theorem rowsMatrix_apply (L : Rows R n →L[ℝ] Rows R n) (u : Rows R n) (p : Fin R × Fin n) :
    ∑ q, rowsMatrix L p q * u q.1 q.2 = L u p.1 p.2 := by
  have h : u = ∑ q : Fin R × Fin n, u q.1 q.2 • (Pi.single q.1 (Pi.single q.2 (1 : ℝ)) : Rows R n) := by
    funext r k
    simp only [Finset.sum_apply, Pi.smul_apply, smul_eq_mul]
    rw [Fintype.sum_eq_single (r, k)]
    · simp
    · rintro ⟨r', k'⟩ hne
      simp only
      by_cases h1 : r = r'
      · subst h1
        have h2 : k ≠ k' := fun h2 => hne (by rw [h2])
        simp [h2]
      · simp [h1]
  conv_rhs => rw [h]
  rw [map_sum, Finset.sum_apply, Finset.sum_apply]
  refine Finset.sum_congr rfl fun q _ => ?_
  rw [map_smul, Pi.smul_apply, Pi.smul_apply, smul_eq_mul, mul_comm]
  rfl

section spectral

attribute [local instance] Matrix.linftyOpNormedRing Matrix.linftyOpNormedAlgebra

theorem rows_pow_lt (L : Rows R n →L[ℝ] Rows R n) {ρ : ℝ} (hρ : 0 < ρ)
    (h : ∀ z, IsEigenvalue (rowsMatrix L) z → ‖z‖ < ρ) : ∃ k, 1 ≤ k ∧ ‖L ^ k‖ < ρ ^ k := by
  rcases isEmpty_or_nonempty (Fin R × Fin n) with hemp | hne
  · refine ⟨1, le_rfl, ?_⟩
    have : L ^ 1 = 0 := by
      ext u r k
      exact hemp.elim (r, k)
    rw [this, norm_zero]
    positivity
  obtain ⟨k, hk, hpow⟩ := exists_pow_norm_lt_one (ρ⁻¹ • rowsMatrix L) (fun z hz => by
    obtain ⟨v, hv, e⟩ := hz
    have := h ((ρ : ℂ) * z) ⟨v, hv, by
      have e1 : (ρ⁻¹ • rowsMatrix L).map Complex.ofReal = (ρ : ℂ)⁻¹ • (rowsMatrix L).map Complex.ofReal := by
        ext p q
        simp
      rw [e1, Matrix.smul_mulVec] at e
      have hρc : (ρ : ℂ) ≠ 0 := by exact_mod_cast hρ.ne'
      have := congrArg (fun w => (ρ : ℂ) • w) e
      simp only [smul_smul, mul_inv_cancel₀ hρc, one_smul] at this
      exact this⟩
    rw [norm_mul, Complex.norm_real, Real.norm_of_nonneg hρ.le] at this
    nlinarith)
  refine ⟨k, hk, ?_⟩
  rw [smul_pow, norm_smul, norm_pow, norm_inv, Real.norm_of_nonneg hρ.le, inv_pow, inv_mul_lt_iff₀ (by positivity),
    mul_one] at hpow
  refine lt_of_le_of_lt ?_ hpow
  have hiter : ∀ (m : ℕ) (u : Rows R n) (p : Fin R × Fin n),
      (L ^ m) u p.1 p.2 = ((rowsMatrix L) ^ m).mulVec (fun q => u q.1 q.2) p := by
    intro m
    induction m with
    | zero => intro u p; simp
    | succ m ih =>
      intro u p
      rw [pow_succ', pow_succ', ← Matrix.mulVec_mulVec]
      change L ((L ^ m) u) p.1 p.2 = _
      rw [← rowsMatrix_apply]
      refine Finset.sum_congr rfl fun q _ => ?_
      rw [ih u q]
  refine ContinuousLinearMap.opNorm_le_bound _ (norm_nonneg _) fun u => ?_
  have hb : 0 ≤ ‖rowsMatrix L ^ k‖ * ‖u‖ := by positivity
  refine (pi_norm_le_iff_of_nonneg hb).2 fun r => (pi_norm_le_iff_of_nonneg hb).2 fun j => ?_
  have h1 := hiter k u (r, j)
  simp only at h1
  rw [h1]
  have h2 := Matrix.linfty_opNorm_mulVec (rowsMatrix L ^ k) (fun q : Fin R × Fin n => u q.1 q.2)
  have h3 : ‖(fun q : Fin R × Fin n => u q.1 q.2)‖ ≤ ‖u‖ :=
    (pi_norm_le_iff_of_nonneg (norm_nonneg _)).2 fun q => (norm_le_pi_norm (u q.1) q.2).trans (norm_le_pi_norm u q.1)
  exact (norm_le_pi_norm _ (r, j)).trans (h2.trans (mul_le_mul_of_nonneg_left h3 (norm_nonneg _)))

end spectral

end Dolo
