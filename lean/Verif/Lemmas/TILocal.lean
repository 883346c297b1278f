import Mathlib.Analysis.Calculus.FDeriv.Prod
import Verif.Lemmas.NewtonLocal
import Verif.Props.Loops

/-!
# Time iteration near a regular solution

`Φ (z, x)`: the residuals with controls `z` today and the rule `x` tomorrow.  One iteration replaces `x` by the result of
Newton iterations on `Φ (·, x)` started from `x`.
-/

set_option linter.unusedSectionVars false

namespace Dolo

open Filter Topology

section core

variable {E : Type} [NormedAddCommGroup E] [NormedSpace ℝ E]

/-- One Newton step on `Φ (·, x)`, with an approximate Jacobian. -/
theorem param_step (Φ : E × E → E) (A : E × E →L[ℝ] E) (xs : E) (h0 : Φ (xs, xs) = 0)
    (hd : HasStrictFDerivAt Φ A (xs, xs)) (A1 Ai L : E →L[ℝ] E) (hA1 : ∀ v, A (v, 0) = A1 v)
    (hAi : ∀ v, Ai (A1 v) = v) (hL : ∀ u, A1 (L u) = -A (0, u)) {κ : ℝ} (hκ : 0 < κ) :
    ∃ η > 0, ∃ ε > 0, (∀ B : E →L[ℝ] E, ‖B - A1‖ ≤ η → ∀ v, B v = 0 → v = 0) ∧
      (∀ z x, ‖z - xs‖ < ε → ‖x - xs‖ < ε →
        ‖z - xs - L (x - xs)‖ ≤ 2 * (‖Ai‖ + 1) * ‖Φ (z, x)‖ + κ * (‖z - xs‖ + ‖x - xs‖)) ∧
      ∀ (z x d : E) (B : E →L[ℝ] E), ‖z - xs‖ < ε → ‖x - xs‖ < ε → ‖B - A1‖ ≤ η → B d = Φ (z, x) →
        ‖z - d - xs - L (x - xs)‖ ≤ κ * (‖z - xs - L (x - xs)‖ + ‖x - xs‖) ∧
        (‖z - d - xs‖ < ε → ‖Φ (z - d, x)‖ ≤ 1 / 2 * ‖Φ (z, x)‖) := by
  set c := 2 * (‖Ai‖ + 1) with hc
  have hcpos : 0 < c := by positivity
  have hlow : ∀ B : E →L[ℝ] E, ‖B - A1‖ ≤ 1 / c → ∀ v, ‖v‖ ≤ c * ‖B v‖ := by
    intro B hB v
    have e : v = Ai (B v) - Ai ((B - A1) v) := by
      rw [← map_sub]
      simp only [_root_.sub_apply, sub_sub_cancel, hAi]
    have h1 : ‖Ai (B v)‖ ≤ ‖Ai‖ * ‖B v‖ := Ai.le_opNorm _
    have h2 : ‖Ai ((B - A1) v)‖ ≤ ‖Ai‖ * (1 / c * ‖v‖) :=
      (Ai.le_opNorm _).trans (mul_le_mul_of_nonneg_left
        (((B - A1).le_opNorm v).trans (mul_le_mul_of_nonneg_right hB (norm_nonneg _))) (norm_nonneg _))
    have h3 : ‖v‖ ≤ ‖Ai (B v)‖ + ‖Ai ((B - A1) v)‖ := by
      conv_lhs => rw [e]
      exact norm_sub_le _ _
    have h4 : ‖Ai‖ * (1 / c * ‖v‖) ≤ 1 / 2 * ‖v‖ := by
      have : ‖Ai‖ * (1 / c) ≤ 1 / 2 := by
        rw [hc, mul_one_div, div_le_div_iff₀ (by positivity) (by norm_num)]
        linarith
      calc ‖Ai‖ * (1 / c * ‖v‖) = ‖Ai‖ * (1 / c) * ‖v‖ := by ring
        _ ≤ _ := mul_le_mul_of_nonneg_right this (norm_nonneg _)
    have h5 := norm_nonneg (B v)
    have h6 : c * ‖B v‖ = 2 * (‖Ai‖ * ‖B v‖) + 2 * ‖B v‖ := by rw [hc]; ring
    linarith
  set ℓ := ‖L‖ with hℓ
  have hℓ0 : 0 ≤ ℓ := norm_nonneg _
  -- accuracy
  set θ := min (κ / (2 * c * (ℓ + 1))) (1 / (4 * c)) with hθ
  have hθ0 : 0 < θ := lt_min (by positivity) (by positivity)
  have hθ1 : c * θ * (ℓ + 1) ≤ κ / 2 := by
    have h1 : θ ≤ κ / (2 * c * (ℓ + 1)) := min_le_left _ _
    rw [le_div_iff₀ (by positivity)] at h1
    linarith
  have hθ1' : c * θ ≤ κ / 2 := by nlinarith [mul_pos hcpos hθ0]
  have hθ2 : θ * c ≤ 1 / 4 := by
    have h1 : θ ≤ 1 / (4 * c) := min_le_right _ _
    rw [le_div_iff₀ (by positivity)] at h1
    linarith
  have hb := hd.isLittleO.bound hθ0
  obtain ⟨ε, hε, hball⟩ := Metric.eventually_nhds_iff.1 hb
  have hstr : ∀ z z' x : E, ‖z - xs‖ < ε → ‖z' - xs‖ < ε → ‖x - xs‖ < ε →
      ‖Φ (z, x) - Φ (z', x) - A1 (z - z')‖ ≤ θ * ‖z - z'‖ := by
    intro z z' x hz hz' hx
    have := hball (y := ((z, x), (z', x))) (by
      rw [Prod.dist_eq, Prod.dist_eq, Prod.dist_eq]
      simp only [dist_eq_norm]
      exact max_lt (max_lt hz hx) (max_lt hz' hx))
    simp only [Prod.mk_sub_mk, sub_self] at this
    rw [hA1, Prod.norm_mk, norm_zero, max_eq_left (norm_nonneg _)] at this
    exact this
  have hlin : ∀ z x : E, ‖z - xs‖ < ε → ‖x - xs‖ < ε →
      ‖Φ (z, x) - A1 (z - xs - L (x - xs))‖ ≤ θ * (‖z - xs‖ + ‖x - xs‖) := by
    intro z x hz hx
    have := hball (y := ((z, x), (xs, xs))) (by
      rw [Prod.dist_eq, Prod.dist_eq, Prod.dist_eq]
      simp only [dist_eq_norm, sub_self, norm_zero]
      exact max_lt (max_lt hz hx) (max_lt hε hε))
    simp only [Prod.mk_sub_mk, h0, sub_zero] at this
    have e : A (z - xs, x - xs) = A1 (z - xs - L (x - xs)) := by
      have : ((z - xs, x - xs) : E × E) = (z - xs, 0) + (0, x - xs) := by simp
      rw [this, map_add, hA1, map_sub A1 (z - xs), hL]
      abel
    rw [e] at this
    refine this.trans (mul_le_mul_of_nonneg_left ?_ hθ0.le)
    rw [Prod.norm_mk]
    exact max_le (by linarith [norm_nonneg (x - xs)]) (by linarith [norm_nonneg (z - xs)])
  refine ⟨min (1 / c) θ, lt_min (by positivity) hθ0, ε, hε, ?_, ?_, ?_⟩
  · intro B hB v hv
    have := hlow B (hB.trans (min_le_left _ _)) v
    rw [hv, norm_zero, mul_zero] at this
    exact norm_le_zero_iff.1 this
  · intro z x hz hx
    have h1 := hlow A1 (by rw [sub_self, norm_zero]; positivity) (z - xs - L (x - xs))
    have h2 := hlin z x hz hx
    have h3 : ‖A1 (z - xs - L (x - xs))‖ ≤ ‖Φ (z, x)‖ + ‖Φ (z, x) - A1 (z - xs - L (x - xs))‖ := by
      have := norm_sub_le (Φ (z, x)) (Φ (z, x) - A1 (z - xs - L (x - xs)))
      simpa using this
    have h4 := mul_le_mul_of_nonneg_left (h3.trans (add_le_add le_rfl h2)) hcpos.le
    have h5 : 0 ≤ ‖z - xs‖ + ‖x - xs‖ := by positivity
    have h6 : c * (θ * (‖z - xs‖ + ‖x - xs‖)) ≤ κ * (‖z - xs‖ + ‖x - xs‖) := by
      rw [← mul_assoc]
      exact mul_le_mul_of_nonneg_right (by linarith) h5
    rw [mul_add] at h4
    linarith
  · intro z x d B hz hx hB hBd
    have hB1 := hB.trans (min_le_left _ _)
    have hB2 := hB.trans (min_le_right _ _)
    set w := z - xs - L (x - xs) with hw
    constructor
    · have e0 : z - d - xs - L (x - xs) = w - d := by rw [hw]; abel
      rw [e0]
      have h1 := hlow B hB1 (w - d)
      have e : B (w - d) = (B - A1) w - (Φ (z, x) - A1 w) := by
        rw [map_sub, hBd, _root_.sub_apply]
        abel
      have h2 : ‖(B - A1) w‖ ≤ θ * ‖w‖ := ((B - A1).le_opNorm _).trans (mul_le_mul_of_nonneg_right hB2 (norm_nonneg _))
      have h3 := hlin z x hz hx
      have h4 : ‖z - xs‖ ≤ ‖w‖ + ℓ * ‖x - xs‖ := by
        have e1 : z - xs = w + L (x - xs) := by rw [hw]; abel
        rw [e1]
        exact (norm_add_le _ _).trans (add_le_add le_rfl (L.le_opNorm _))
      have h5 : ‖B (w - d)‖ ≤ θ * ‖w‖ + θ * (‖w‖ + ℓ * ‖x - xs‖ + ‖x - xs‖) := by
        rw [e]
        refine (norm_sub_le _ _).trans (add_le_add h2 (h3.trans (mul_le_mul_of_nonneg_left ?_ hθ0.le)))
        linarith
      have h6 := mul_le_mul_of_nonneg_left h5 hcpos.le
      have hx0 := norm_nonneg (x - xs)
      have hw0 := norm_nonneg w
      have e2 : c * (θ * ‖w‖ + θ * (‖w‖ + ℓ * ‖x - xs‖ + ‖x - xs‖))
          = 2 * (c * θ) * ‖w‖ + c * θ * (ℓ + 1) * ‖x - xs‖ := by ring
      have h7 : 2 * (c * θ) * ‖w‖ ≤ κ * ‖w‖ := mul_le_mul_of_nonneg_right (by linarith) hw0
      have h8 : c * θ * (ℓ + 1) * ‖x - xs‖ ≤ κ * ‖x - xs‖ := mul_le_mul_of_nonneg_right (by linarith) hx0
      linarith
    · intro hzd
      have h1 := hstr (z - d) z x hzd hz hx
      have e1 : z - d - z = -d := by abel
      rw [e1, map_neg, norm_neg] at h1
      have h2 := hlow B hB1 d
      rw [hBd] at h2
      have e : Φ (z - d, x) = (Φ (z - d, x) - Φ (z, x) - -A1 d) + (B - A1) d := by
        rw [_root_.sub_apply, hBd]
        abel
      have h3 : ‖(B - A1) d‖ ≤ θ * ‖d‖ := ((B - A1).le_opNorm _).trans (mul_le_mul_of_nonneg_right hB2 (norm_nonneg _))
      have h4 : ‖Φ (z - d, x)‖ ≤ θ * ‖d‖ + θ * ‖d‖ := by
        rw [e]
        exact (norm_add_le _ _).trans (add_le_add h1 h3)
      have h5 : θ * ‖d‖ ≤ θ * (c * ‖Φ (z, x)‖) := mul_le_mul_of_nonneg_left h2 hθ0.le
      have h6 : θ * (c * ‖Φ (z, x)‖) = θ * c * ‖Φ (z, x)‖ := by ring
      have h7 : θ * c * ‖Φ (z, x)‖ ≤ 1 / 4 * ‖Φ (z, x)‖ := mul_le_mul_of_nonneg_right hθ2 (norm_nonneg _)
      linarith

variable {X V J D : Type}

/-- Newton iterations on `Φ (·, x)` started at `x`: either the residual is already small and nothing happens, or the
result is close to the linear forecast `L (x - xs)`. -/
theorem param_newton (Φ : E × E → E) (A : E × E →L[ℝ] E) (xs : E) (h0 : Φ (xs, xs) = 0)
    (hd : HasStrictFDerivAt Φ A (xs, xs)) (A1 Ai L : E →L[ℝ] E) (hA1 : ∀ v, A (v, 0) = A1 v)
    (hAi : ∀ v, Ai (A1 v) = v) (hL : ∀ u, A1 (L u) = -A (0, u)) {κ : ℝ} (hκ : 0 < κ) :
    ∃ η > 0, ∃ ε > 0, ∃ C > 0,
      (∀ B : E →L[ℝ] E, ‖B - A1‖ ≤ η → ∀ v, B v = 0 → v = 0) ∧
      (∀ x, ‖x - xs‖ < ε → ‖x - xs - L (x - xs)‖ ≤ C * ‖Φ (x, x)‖ + κ * ‖x - xs‖) ∧
      ∀ ε', 0 < ε' → ε' ≤ ε → ∃ δ > 0, δ ≤ ε' ∧ ∀ (x : E), ‖x - xs‖ < δ → ∀ (P : NewtonProblem ℝ X V J D) (π : X → E)
        (πd : D → E), NewtonView P (fun z => Φ (z, x)) π πd →
        (∀ y, ‖π y - xs‖ < ε' → ∃ B : E →L[ℝ] E, ‖B - A1‖ ≤ η ∧ B (πd (P.dir y)) = Φ (π y, x)) →
        ∀ tol, 0 < tol → ∀ maxit, ∀ x0, π x0 = x →
          ((newton P tol maxit x0).it = 0 → (newton P tol maxit x0).x = x0) ∧
          (1 ≤ maxit → (newton P tol maxit x0).it = 0 → ‖Φ (x, x)‖ < tol) ∧
          (1 ≤ (newton P tol maxit x0).it → ‖π (newton P tol maxit x0).x - xs - L (x - xs)‖ ≤ κ * ‖x - xs‖) := by
  set ℓ := ‖L‖ with hℓ
  have hℓ0 : 0 ≤ ℓ := norm_nonneg _
  set κ' := min (κ / (ℓ + 2)) (min (1 / 2) (κ / 2)) with hκ'
  have hκ'0 : 0 < κ' := lt_min (by positivity) (lt_min (by norm_num) (by positivity))
  have hκ'1 : κ' ≤ 1 / 2 := (min_le_right _ _).trans (min_le_left _ _)
  have hκ'3 : κ' ≤ κ / 2 := (min_le_right _ _).trans (min_le_right _ _)
  have hκ'2 : κ' * (ℓ + 2) ≤ κ := by
    have := min_le_left (κ / (ℓ + 2)) (min (1 / 2) (κ / 2))
    rw [← hκ', le_div_iff₀ (by positivity)] at this
    exact this
  obtain ⟨η, hη, ε, hε, hker, heq, hstep⟩ := param_step Φ A xs h0 hd A1 Ai L hA1 hAi hL hκ'0
  refine ⟨η, hη, ε, hε, 2 * (‖Ai‖ + 1), by positivity, hker, ?_, ?_⟩
  · intro x hx
    have := heq x x hx hx
    have h1 := norm_nonneg (x - xs)
    nlinarith
  intro ε' hε' hε'le
  refine ⟨ε' / (2 * ℓ + 2), by positivity, ?_, ?_⟩
  · rw [div_le_iff₀ (by positivity)]
    nlinarith
  intro x hx P π πd hP hdir tol htol maxit x0 hx0
  have hxε : (2 * ℓ + 2) * ‖x - xs‖ < ε' := by
    rw [lt_div_iff₀ (by positivity)] at hx
    linarith
  have hx1 : ‖x - xs‖ < ε' := by nlinarith [norm_nonneg (x - xs)]
  obtain ⟨path, p0, p1, p2, p3, p4, p5⟩ := C27_newton P tol maxit x0
  set r := newton P tol maxit x0 with hr
  refine ⟨fun h => ?_, fun hm h => ?_, ?_⟩
  · rw [← p1, h, p0]
  · have hw : r.warned = false := by
      by_contra hcon
      have := p5 (by simpa using hcon)
      omega
    have h1 := p4 hw
    rw [← p1, h, p0, hP.norm, hx0] at h1
    exact h1
  · -- all iterates after the first are close to the forecast
    have hx00 := norm_nonneg (x - xs)
    have hLx : ‖L (x - xs)‖ ≤ ℓ * ‖x - xs‖ := L.le_opNorm _
    have key : ∀ t ≤ r.it, ‖π (path t) - xs - L (x - xs)‖ ≤ (ℓ + 1) * ‖x - xs‖ ∧
        (1 ≤ t → ‖π (path t) - xs - L (x - xs)‖ ≤ κ * ‖x - xs‖) := by
      intro t
      induction t with
      | zero =>
        intro _
        rw [p0, hx0]
        refine ⟨(norm_sub_le _ _).trans (by linarith), fun h => absurd h (by omega)⟩
      | succ t ih =>
        intro ht
        obtain ⟨i1, -⟩ := ih (by omega)
        have hz : ‖π (path t) - xs‖ < ε' := by
          have e : π (path t) - xs = (π (path t) - xs - L (x - xs)) + L (x - xs) := by abel
          rw [e]
          refine (norm_add_le _ _).trans_lt ?_
          nlinarith
        obtain ⟨B, hB1, hB2⟩ := hdir _ hz
        obtain ⟨s1, s2⟩ := hstep (π (path t)) x (πd (P.dir (path t))) B (hz.trans_le hε'le) (hx1.trans_le hε'le) hB1 hB2
        have s1' : ‖π (path t) - πd (P.dir (path t)) - xs - L (x - xs)‖ ≤ κ' * ((ℓ + 2) * ‖x - xs‖) :=
          s1.trans (mul_le_mul_of_nonneg_left (by linarith) hκ'0.le)
        have s1'' : ‖π (path t) - πd (P.dir (path t)) - xs - L (x - xs)‖ ≤ κ * ‖x - xs‖ := by
          refine s1'.trans ?_
          rw [← mul_assoc]
          exact mul_le_mul_of_nonneg_right hκ'2 hx00
        have s1s : ‖π (path t) - πd (P.dir (path t)) - xs - L (x - xs)‖ ≤ (ℓ + 1) * ‖x - xs‖ := by
          refine s1'.trans ?_
          rw [← mul_assoc]
          refine mul_le_mul_of_nonneg_right ?_ hx00
          nlinarith
        have hz' : ‖π (path t) - πd (P.dir (path t)) - xs‖ < ε' := by
          have e : π (path t) - πd (P.dir (path t)) - xs
              = (π (path t) - πd (P.dir (path t)) - xs - L (x - xs)) + L (x - xs) := by abel
          rw [e]
          refine (norm_add_le _ _).trans_lt ?_
          nlinarith
        have hfull : π (path (t + 1)) = π (path t) - πd (P.dir (path t)) := by
          obtain ⟨hres, b, -, hx', hrej, -⟩ := p3 t (by omega)
          have hb : b = 0 := by
            by_contra hb
            refine hrej 0 (Nat.pos_of_ne_zero hb) ?_
            rw [hP.norm, hP.norm, hP.sub]
            change ‖Φ (π (path t) - (1 / 2 ^ 0 : ℝ) • πd (P.dir (path t)), x)‖ < _
            rw [pow_zero, div_one, one_smul]
            have h1 := s2 (hz'.trans_le hε'le)
            rw [hP.norm] at hres
            have : 0 < ‖Φ (π (path t), x)‖ := htol.trans_le hres
            linarith
          subst hb
          rw [hx', hP.sub]
          change π (path t) - (1 / 2 ^ 0 : ℝ) • πd (P.dir (path t)) = _
          rw [pow_zero, div_one, one_smul]
        rw [hfull]
        exact ⟨s1s, fun _ => s1''⟩
    intro hit
    rw [← p1]
    exact (key r.it le_rfl).2 hit

/-- The loop of time iteration, when each iteration either leaves the rule alone or contracts. -/
theorem ti_run {X : Type} (update : X → X) (π : X → E) (dst : X → X → ℝ) (hdst : ∀ a b, dst a b = ‖π a - π b‖) (xs : E)
    {p : E → ℝ} {cl cu ρ δ K tin : ℝ} (hp : AdaptedNorm p cl cu) (hρ0 : 0 < ρ) (hρ1 : ρ < 1)
    (hup : ∀ x, ‖π x - xs‖ < δ → (update x = x ∧ ‖π x - xs‖ ≤ K * tin) ∨ p (π (update x) - xs) ≤ ρ * p (π x - xs))
    (x0 : X) (hx0 : ‖π x0 - xs‖ < cl / cu * δ) (tol : ℝ) (htol : 0 < tol) (htol10 : tol < 10) (n0 : ℕ)
    (hn0 : 2 * δ * ρ ^ n0 < tol) (maxit : ℕ) (hmax : n0 < maxit) :
    ∃ r, timeIteration update dst tol maxit x0 = .ok r ∧ r.iterations ≤ n0 + 1 ∧ r.err ≤ tol ∧
      (r.converged = true ↔ r.err < tol) ∧
      ‖π r.controls - xs‖ ≤ max (K * tin) (cu / cl * (1 / (1 - ρ)) * tol) := by
  have hcl := hp.cl_pos
  have hcu := hp.cu_pos
  obtain ⟨r, hr⟩ := (C28_returns update dst tol maxit x0).2 ⟨by omega, htol10⟩
  obtain ⟨h1, h2, h3, h4, h5, h6, h7⟩ := C28_time_iteration update dst tol maxit x0 r hr
  have hp0 : p (π x0 - xs) < cl * δ := by
    refine (hp.upper _).trans_lt ?_
    rw [div_mul_eq_mul_div, lt_div_iff₀ hcu] at hx0
    linarith
  have hin : ∀ v : E, p v < cl * δ → ‖v‖ < δ := fun v hv =>
    lt_of_mul_lt_mul_left ((hp.lower v).trans_lt hv) hcl.le
  -- iterates contract as long as the rule moves
  have key : ∀ t, t < r.iterations → p (π (update^[t] x0) - xs) ≤ ρ ^ t * p (π x0 - xs) := by
    intro t
    induction t with
    | zero => intro _; simp
    | succ t ih =>
      intro ht
      have i1 := ih (by omega)
      have hpos := hp.nonneg (π x0 - xs)
      have i2 : p (π (update^[t] x0) - xs) < cl * δ :=
        (i1.trans (mul_le_of_le_one_left hpos (pow_le_one₀ hρ0.le hρ1.le))).trans_lt hp0
      rcases hup _ (hin _ i2) with ⟨hfix, -⟩ | hc
      · have := h6 (t + 1) (by omega) ht
        rw [Nat.add_sub_cancel, Function.iterate_succ_apply', hfix, hdst, sub_self, norm_zero] at this
        exact absurd this (not_lt.2 htol.le)
      · rw [Function.iterate_succ_apply']
        refine hc.trans ?_
        rw [pow_succ]
        calc ρ * p (π (update^[t] x0) - xs) ≤ ρ * (ρ ^ t * p (π x0 - xs)) := mul_le_mul_of_nonneg_left i1 hρ0.le
          _ = _ := by ring
  have near : ∀ t, t < r.iterations → p (π (update^[t] x0) - xs) ≤ ρ ^ t * (cl * δ) ∧
      ‖π (update^[t] x0) - xs‖ < δ := by
    intro t ht
    have i1 := key t ht
    have hpos := hp.nonneg (π x0 - xs)
    refine ⟨i1.trans (mul_le_mul_of_nonneg_left hp0.le (pow_nonneg hρ0.le _)), hin _ ?_⟩
    exact (i1.trans (mul_le_of_le_one_left hpos (pow_le_one₀ hρ0.le hρ1.le))).trans_lt hp0
  -- the number of iterations
  have hit : r.iterations ≤ n0 + 1 := by
    by_contra hcon
    push Not at hcon
    have a := h6 (n0 + 1) (by omega) hcon
    rw [Nat.add_sub_cancel, hdst] at a
    obtain ⟨b1, -⟩ := near (n0 + 1) hcon
    obtain ⟨b2, -⟩ := near n0 (by omega)
    have e : π (update^[n0 + 1] x0) - π (update^[n0] x0)
        = (π (update^[n0 + 1] x0) - xs) - (π (update^[n0] x0) - xs) := by abel
    have c1 := (hp.lower (π (update^[n0 + 1] x0) - π (update^[n0] x0)))
    rw [e] at c1
    have c2 := c1.trans (hp.sub _ _)
    have hδ : 0 < cl * δ := (hp.nonneg _).trans_lt hp0
    have c3 : ρ ^ (n0 + 1) * (cl * δ) ≤ ρ ^ n0 * (cl * δ) :=
      mul_le_mul_of_nonneg_right (pow_le_pow_of_le_one hρ0.le hρ1.le (by omega)) hδ.le
    rw [← e] at c2
    have c4 : cl * ‖π (update^[n0 + 1] x0) - π (update^[n0] x0)‖ ≤ cl * (2 * δ * ρ ^ n0) := by
      refine c2.trans ?_
      linarith
    have c5 := le_of_mul_le_mul_left c4 hcl
    linarith
  obtain ⟨it, hitn⟩ : ∃ it, r.iterations = it + 1 := ⟨r.iterations - 1, by omega⟩
  have herr : r.err ≤ tol := by
    rcases Nat.lt_or_ge r.iterations maxit with hlt | hge
    · exact h7 hlt
    · -- the last iteration allowed
      have hn : it = n0 := by omega
      obtain ⟨b2, b3⟩ := near it (by omega)
      rw [h4, hitn, Nat.add_sub_cancel, hdst, Function.iterate_succ_apply']
      rcases hup _ b3 with ⟨hfix, -⟩ | hc
      · rw [hfix, sub_self, norm_zero]
        exact htol.le
      · have e : π (update (update^[it] x0)) - π (update^[it] x0)
            = (π (update (update^[it] x0)) - xs) - (π (update^[it] x0) - xs) := by abel
        have c1 := (hp.lower (π (update (update^[it] x0)) - π (update^[it] x0)))
        rw [e] at c1 ⊢
        have c2 := c1.trans (hp.sub _ _)
        have c3 : p (π (update (update^[it] x0)) - xs) ≤ p (π (update^[it] x0) - xs) :=
          hc.trans (mul_le_of_le_one_left (hp.nonneg _) hρ1.le)
        rw [hn] at b2 c2 c3 ⊢
        have c4 : cl * ‖π (update (update^[n0] x0)) - xs - (π (update^[n0] x0) - xs)‖ ≤ cl * (2 * δ * ρ ^ n0) := by
          refine c2.trans ?_
          linarith
        exact (le_of_mul_le_mul_left c4 hcl).trans hn0.le
  refine ⟨r, hr, hit, herr, h5, ?_⟩
  obtain ⟨-, b3⟩ := near it (by omega)
  rw [h3, hitn, Function.iterate_succ_apply']
  have hρ' : 0 < 1 - ρ := by linarith
  rcases hup _ b3 with ⟨hfix, hk⟩ | hc
  · rw [hfix]
    exact hk.trans (le_max_left _ _)
  · refine le_trans ?_ (le_max_right _ _)
    rw [h4, hitn, Nat.add_sub_cancel, hdst, Function.iterate_succ_apply'] at herr
    set a := update^[it] x0 with ha
    have e : π a - xs = (π (update a) - xs) - (π (update a) - π a) := by abel
    have c1 : p (π a - xs) ≤ ρ * p (π a - xs) + cu * tol := by
      conv_lhs => rw [e]
      exact (hp.sub _ _).trans (add_le_add hc ((hp.upper _).trans (mul_le_mul_of_nonneg_left herr hcu.le)))
    have c2 : p (π (update a) - xs) ≤ p (π a - xs) :=
      hc.trans (mul_le_of_le_one_left (hp.nonneg _) hρ1.le)
    have c3 : p (π a - xs) ≤ cu * tol / (1 - ρ) := by
      rw [le_div_iff₀ hρ']
      linarith
    have c4 := (hp.lower (π (update a) - xs)).trans (c2.trans c3)
    have e2 : cu / cl * (1 / (1 - ρ)) * tol = cu * tol / (1 - ρ) / cl := by
      field_simp
    rw [e2, le_div_iff₀ hcl]
    linarith

end core

end Dolo
