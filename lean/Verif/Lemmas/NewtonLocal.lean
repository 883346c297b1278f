import Mathlib.Analysis.Calculus.FDeriv.Pi
import Mathlib.Analysis.Calculus.FDeriv.Comp
import Mathlib.Topology.Algebra.Module.FiniteDimension
import Mathlib.LinearAlgebra.FiniteDimensional.Basic
import Mathlib.Tactic.Positivity
import Verif.Lemmas.NewtonConv
import Verif.Model.NewtonSerial
import Verif.Props.Newton
import Verif.Props.Gauss

/-!
# Newton iterations near a regular solution: the step, the line search, the run
-/

set_option linter.unusedSectionVars false

namespace Dolo

open Filter Topology

section general

variable {E : Type} [NormedAddCommGroup E] [NormedSpace ℝ E]

/-- A Newton step with a Jacobian close to the right one, from a point close to the solution. -/
theorem newton_approx (G : E → E) (A : E →L[ℝ] E) (xs : E) (h0 : G xs = 0) (hd : HasFDerivAt G A xs)
    (Ai : E →L[ℝ] E) (hAi : ∀ v, Ai (A v) = v) {κ : ℝ} (hκ : 0 < κ) :
    ∃ η > 0, ∃ ε > 0, (∀ B : E →L[ℝ] E, ‖B - A‖ ≤ η → ∀ v, B v = 0 → v = 0) ∧
      ∀ (x tot : E) (B : E →L[ℝ] E), ‖x - xs‖ < ε → ‖B - A‖ ≤ η → B tot = G x →
        ‖x - xs - tot‖ ≤ κ * ‖x - xs‖ := by
  set c := 2 * (‖Ai‖ + 1) with hc
  have hcpos : 0 < c := by positivity
  have hlow : ∀ B : E →L[ℝ] E, ‖B - A‖ ≤ 1 / c → ∀ v, ‖v‖ ≤ c * ‖B v‖ := by
    intro B hB v
    have e : v = Ai (B v) - Ai ((B - A) v) := by
      rw [← map_sub]
      simp only [_root_.sub_apply, sub_sub_cancel, hAi]
    have h1 : ‖Ai (B v)‖ ≤ ‖Ai‖ * ‖B v‖ := Ai.le_opNorm _
    have h2 : ‖Ai ((B - A) v)‖ ≤ ‖Ai‖ * (1 / c * ‖v‖) :=
      (Ai.le_opNorm _).trans (mul_le_mul_of_nonneg_left
        (((B - A).le_opNorm v).trans (mul_le_mul_of_nonneg_right hB (norm_nonneg _))) (norm_nonneg _))
    have h3 : ‖v‖ ≤ ‖Ai (B v)‖ + ‖Ai ((B - A) v)‖ := by
      conv_lhs => rw [e]
      exact norm_sub_le _ _
    have h4 : ‖Ai‖ * (1 / c * ‖v‖) ≤ 1 / 2 * ‖v‖ := by
      have : ‖Ai‖ * (1 / c) ≤ 1 / 2 := by
        rw [hc, mul_one_div, div_le_div_iff₀ (by positivity) (by norm_num)]
        linarith
      calc ‖Ai‖ * (1 / c * ‖v‖) = ‖Ai‖ * (1 / c) * ‖v‖ := by ring
        _ ≤ _ := mul_le_mul_of_nonneg_right this (norm_nonneg _)
    have h5 := norm_nonneg (B v)
    have h6 : c * ‖B v‖ = 2 * (‖Ai‖ * ‖B v‖) + 2 * ‖B v‖ := by rw [hc]; ring
    linarith
  set η := min (1 / c) (κ / (2 * c)) with hη
  have hη0 : 0 < η := lt_min (by positivity) (by positivity)
  obtain ⟨ε, hε, herr⟩ := lin_error G (fun _ => A) xs h0 hd continuousAt_const (η := κ / (2 * c)) (by positivity)
  refine ⟨η, hη0, ε, hε, ?_, ?_⟩
  · intro B hB v hv
    have := hlow B (hB.trans (min_le_left _ _)) v
    rw [hv, norm_zero, mul_zero] at this
    exact norm_le_zero_iff.1 this
  · intro x tot B hx hB ht
    have h1 := hlow B (hB.trans (min_le_left _ _)) (x - xs - tot)
    have e : B (x - xs - tot) = (B - A) (x - xs) - (G x - A (x - xs)) := by
      rw [map_sub, ht, _root_.sub_apply]
      abel
    have h2 := herr x hx
    have h3 : ‖(B - A) (x - xs)‖ ≤ κ / (2 * c) * ‖x - xs‖ :=
      ((B - A).le_opNorm _).trans (mul_le_mul_of_nonneg_right (hB.trans (min_le_right _ _)) (norm_nonneg _))
    have h4 : ‖B (x - xs - tot)‖ ≤ κ / (2 * c) * ‖x - xs‖ + κ / (2 * c) * ‖x - xs‖ := by
      rw [e]
      exact (norm_sub_le _ _).trans (add_le_add h3 h2)
    have h5 := mul_le_mul_of_nonneg_left h4 hcpos.le
    have h6 : c * (κ / (2 * c) * ‖x - xs‖ + κ / (2 * c) * ‖x - xs‖) = κ * ‖x - xs‖ := by
      field_simp
      ring
    linarith

variable {X V J D : Type}

/-- Points and steps of a Newton problem seen in a normed space. -/
structure NewtonView (P : NewtonProblem ℝ X V J D) (G : E → E) (π : X → E) (πd : D → E) : Prop where
  norm : ∀ x, P.norm (P.f x).1 = ‖G (π x)‖
  sub : ∀ x d t, π (P.sub x d t) = π x - t • πd d

/-- The direction computed at `x`. -/
def NewtonProblem.dir (P : NewtonProblem ℝ X V J D) (x : X) : D := P.solve (P.f x).2 (P.f x).1

/-- One step: if the direction reduces the error enough, the full step is taken. -/
theorem newton_one (P : NewtonProblem ℝ X V J D) (G : E → E) (π : X → E) (πd : D → E) (hP : NewtonView P G π πd)
    (xs : E) {C κ δ : ℝ} (hκ1 : κ < 1) (hκC : C * C * κ < 1) (hC : 0 < C)
    (heq : ∀ u, ‖u - xs‖ < δ → ‖u - xs‖ ≤ C * ‖G u‖ ∧ ‖G u‖ ≤ C * ‖u - xs‖)
    (hκ0 : 0 ≤ κ) (x : X) (hx : ‖π x - xs‖ < δ)
    (hdir : ‖π x - xs - πd (P.dir x)‖ ≤ κ * ‖π x - xs‖) (x' : X)
    (hs : NewtonStep P.f P.norm P.solve P.sub x x') :
    π x' - xs = π x - xs - πd (P.dir x) ∧ (π x ≠ xs → x' = P.sub x (P.dir x) (1 / 2 ^ 0)) := by
  obtain ⟨b, -, hx', hrej, -⟩ := hs
  by_cases hxs : π x = xs
  · have : πd (P.dir x) = 0 := by
      rw [hxs, sub_self, norm_zero, mul_zero, zero_sub, norm_neg] at hdir
      exact norm_le_zero_iff.1 hdir
    refine ⟨?_, fun h => absurd hxs h⟩
    rw [hx', hP.sub]
    change π x - (1 / 2 ^ b : ℝ) • πd (P.dir x) - xs = _
    rw [this]
    simp
  · have hpos : 0 < ‖π x - xs‖ := norm_pos_iff.2 (sub_ne_zero.2 hxs)
    have hacc : P.norm (P.f (P.sub x (P.solve (P.f x).2 (P.f x).1) (1 / 2 ^ 0))).1 < P.norm (P.f x).1 := by
      rw [hP.norm, hP.norm, hP.sub]
      change ‖G (π x - (1 / 2 ^ 0 : ℝ) • πd (P.dir x))‖ < _
      rw [pow_zero, div_one, one_smul]
      have e : π x - πd (P.dir x) - xs = π x - xs - πd (P.dir x) := by abel
      have h1 : ‖π x - πd (P.dir x) - xs‖ < δ := by
        rw [e]
        refine lt_of_le_of_lt hdir (lt_of_le_of_lt ?_ hx)
        nlinarith
      have h2 := (heq _ h1).2
      rw [e] at h2
      have h3 := (heq _ hx).1
      have hGpos : 0 < ‖G (π x)‖ := by
        by_contra hcon
        have : ‖G (π x)‖ = 0 := le_antisymm (not_lt.1 hcon) (norm_nonneg _)
        rw [this, mul_zero] at h3
        linarith
      calc ‖G (π x - πd (P.dir x))‖ ≤ C * (κ * ‖π x - xs‖) := h2.trans (mul_le_mul_of_nonneg_left hdir hC.le)
        _ ≤ C * (κ * (C * ‖G (π x)‖)) :=
            mul_le_mul_of_nonneg_left (mul_le_mul_of_nonneg_left h3 hκ0) hC.le
        _ = C * C * κ * ‖G (π x)‖ := by ring
        _ < 1 * ‖G (π x)‖ := mul_lt_mul_of_pos_right hκC hGpos
        _ = _ := one_mul _
    have hb : b = 0 := by
      by_contra hb
      exact hrej 0 (Nat.pos_of_ne_zero hb) hacc
    subst hb
    refine ⟨?_, fun _ => hx'⟩
    rw [hx', hP.sub]
    change π x - (1 / 2 ^ 0 : ℝ) • πd (P.dir x) - xs = _
    rw [pow_zero, div_one, one_smul]
    abel

/-- A run from a point near a solution, when residuals and distances to the solution are equivalent and directions reduce
the error enough. -/
theorem newton_run (P : NewtonProblem ℝ X V J D) (G : E → E) (π : X → E) (πd : D → E) (hP : NewtonView P G π πd)
    (xs : E) {C κ ρ δ : ℝ} (hC : 0 < C) (hκ0 : 0 ≤ κ) (hκρ : κ ≤ ρ) (hρ0 : 0 < ρ) (hρ1 : ρ < 1) (hκC : C * C * κ < 1)
    (heq' : ∀ u, ‖u - xs‖ < δ → ‖u - xs‖ ≤ C * ‖G u‖ ∧ ‖G u‖ ≤ C * ‖u - xs‖)
    (hdir' : ∀ x, ‖π x - xs‖ < δ → ‖π x - xs - πd (P.dir x)‖ ≤ κ * ‖π x - xs‖) :
    (∀ x, ‖π x - xs‖ < δ → ‖π (P.next x) - xs‖ ≤ κ * ‖π x - xs‖ ∧
      π (P.next x) = π x - πd (P.dir x)) ∧
    ∀ x0, ‖π x0 - xs‖ < δ → ∀ tol, 0 < tol → ∀ n0 : ℕ, C * ‖π x0 - xs‖ * ρ ^ n0 < tol → ∀ maxit, n0 < maxit →
      (newton P tol maxit x0).warned = false ∧ (newton P tol maxit x0).it ≤ n0 ∧
      ‖G (π (newton P tol maxit x0).x)‖ < tol ∧
      ‖π (newton P tol maxit x0).x - xs‖ ≤ C * ‖G (π (newton P tol maxit x0).x)‖ := by
  have hone : ∀ x x', ‖π x - xs‖ < δ → NewtonStep P.f P.norm P.solve P.sub x x' →
      π x' - xs = π x - xs - πd (P.dir x) := fun x x' hx hs =>
    (newton_one P G π πd hP xs (hκρ.trans_lt hρ1) hκC hC heq' hκ0 x hx (hdir' x hx) x' hs).1
  refine ⟨fun x hx => ?_, fun x0 hx0 tol htol n0 hn0 maxit hmax => ?_⟩
  · have h1 := hone x _ hx (newton_next_step P x)
    refine ⟨by rw [h1]; exact hdir' x hx, ?_⟩
    have := congrArg (· + xs) h1
    simp only [sub_add_cancel] at this
    rw [this]
    abel
  · obtain ⟨path, p0, p1, p2, p3, p4, p5⟩ := C27_newton P tol maxit x0
    set r := newton P tol maxit x0 with hr
    have hall : ∀ t ≤ r.it, ‖π (path t) - xs‖ < δ ∧ ‖π (path t) - xs‖ ≤ ρ ^ t * ‖π x0 - xs‖ := by
      intro t
      induction t with
      | zero => intro _; rw [p0]; exact ⟨hx0, by simp⟩
      | succ t ih =>
        intro ht
        obtain ⟨i1, i2⟩ := ih (by omega)
        have h1 := hone _ _ i1 (p3 t (by omega)).2
        have h2 := hdir' _ i1
        rw [← h1] at h2
        have h3 : κ * ‖π (path t) - xs‖ ≤ ρ * ‖π (path t) - xs‖ :=
          mul_le_mul_of_nonneg_right hκρ (norm_nonneg _)
        have h4 := norm_nonneg (π (path t) - xs)
        refine ⟨by nlinarith, ?_⟩
        calc ‖π (path (t + 1)) - xs‖ ≤ ρ * ‖π (path t) - xs‖ := h2.trans h3
          _ ≤ ρ * (ρ ^ t * ‖π x0 - xs‖) := mul_le_mul_of_nonneg_left i2 hρ0.le
          _ = ρ ^ (t + 1) * ‖π x0 - xs‖ := by ring
    have hn : r.it ≤ n0 := by
      by_contra hcon
      have hlt : n0 < r.it := by omega
      obtain ⟨a1, a2⟩ := hall n0 hlt.le
      have a3 := (p3 n0 hlt).1
      rw [hP.norm] at a3
      have a4 := (heq' _ a1).2
      have a5 := mul_le_mul_of_nonneg_left a2 hC.le
      have a6 : C * (ρ ^ n0 * ‖π x0 - xs‖) = C * ‖π x0 - xs‖ * ρ ^ n0 := by ring
      linarith
    have hw : r.warned = false := by
      by_contra hcon
      have := p5 (by simpa using hcon)
      omega
    have hres := p4 hw
    rw [hP.norm] at hres
    refine ⟨hw, hn, hres, ?_⟩
    have := (hall r.it le_rfl).1
    rw [p1] at this
    exact (heq' _ this).1

/-- The run: Newton iterations whose directions reduce the error by a factor that is small enough stop, without a
warning, in a number of iterations that grows with the logarithm of the tolerance. -/
theorem newton_local (G : E → E) (A : E →L[ℝ] E) (xs : E) (h0 : G xs = 0) (hd : HasFDerivAt G A xs)
    (Ai : E →L[ℝ] E) (hAi : ∀ v, Ai (A v) = v) {ρ : ℝ} (hρ0 : 0 < ρ) (hρ1 : ρ < 1) :
    ∃ C > 0, ∃ κ > 0, κ ≤ ρ ∧ ∃ δ1 > 0, ∀ δ, 0 < δ → δ ≤ δ1 →
      ∀ (P : NewtonProblem ℝ X V J D) (π : X → E) (πd : D → E), NewtonView P G π πd →
        (∀ x, ‖π x - xs‖ < δ → ‖π x - xs - πd (P.dir x)‖ ≤ κ * ‖π x - xs‖) →
        (∀ x, ‖π x - xs‖ < δ → ‖π (P.next x) - xs‖ ≤ κ * ‖π x - xs‖ ∧
          π (P.next x) = π x - πd (P.dir x)) ∧
        ∀ x0, ‖π x0 - xs‖ < δ → ∀ tol, 0 < tol → ∀ n0 : ℕ, C * δ * ρ ^ n0 < tol → ∀ maxit, n0 < maxit →
          (newton P tol maxit x0).warned = false ∧ (newton P tol maxit x0).it ≤ n0 ∧
          ‖G (π (newton P tol maxit x0).x)‖ < tol ∧
          ‖π (newton P tol maxit x0).x - xs‖ ≤ C * ‖G (π (newton P tol maxit x0).x)‖ := by
  obtain ⟨C, hC, ε1, hε1, heq⟩ := residual_equiv G A xs h0 hd Ai hAi
  refine ⟨C, hC, min ρ (1 / (2 * (C * C))), lt_min hρ0 (by positivity), min_le_left _ _, ε1, hε1, ?_⟩
  set κ := min ρ (1 / (2 * (C * C))) with hκ
  have hκ0 : 0 < κ := lt_min hρ0 (by positivity)
  have hκρ : κ ≤ ρ := min_le_left _ _
  have hκC : C * C * κ < 1 := by
    have h1 : κ ≤ 1 / (2 * (C * C)) := min_le_right _ _
    have h2 : C * C * κ ≤ C * C * (1 / (2 * (C * C))) := mul_le_mul_of_nonneg_left h1 (by positivity)
    have h3 : C * C * (1 / (2 * (C * C))) = 1 / 2 := by field_simp
    linarith
  intro δ hδ0 hδ1 P π πd hP hdir'
  obtain ⟨h1, h2⟩ := newton_run P G π πd hP xs hC hκ0.le hκρ hρ0 hρ1 hκC
    (fun u hu => heq u (hu.trans_le hδ1)) hdir'
  refine ⟨h1, fun x0 hx0 tol htol n0 hn0 => h2 x0 hx0 tol htol n0 (lt_of_le_of_lt ?_ hn0)⟩
  exact mul_le_mul_of_nonneg_right (mul_le_mul_of_nonneg_left hx0.le hC.le) (by positivity)

end general

/-! ### Serial storage -/

section serial

variable {N n : ℕ}

/-- The entries of an array with `N` rows and `n` columns. -/
def cut (N n : ℕ) (x : ℕ → ℕ → ℝ) : Fin N → Fin n → ℝ := fun p k => x p k

private theorem foldl_max_le (l : List ℝ) (a c : ℝ) (ha : a ≤ c) (h : ∀ y ∈ l, y ≤ c) : l.foldl max a ≤ c := by
  induction l generalizing a with
  | nil => exact ha
  | cons y l ih =>
    exact ih _ (max_le ha (h y (by simp))) fun z hz => h z (by simp [hz])

private theorem le_foldl_max (l : List ℝ) (a : ℝ) : a ≤ l.foldl max a ∧ ∀ y ∈ l, y ≤ l.foldl max a := by
  induction l generalizing a with
  | nil => simp
  | cons y l ih =>
    obtain ⟨h1, h2⟩ := ih (max a y)
    refine ⟨(le_max_left _ _).trans h1, fun z hz => ?_⟩
    rcases List.mem_cons.1 hz with rfl | hz
    · exact (le_max_right _ _).trans h1
    · exact h2 z hz

theorem maxAbs_eq_norm (v : ℕ → ℕ → ℝ) : maxAbs N n v = ‖cut N n v‖ := by
  apply le_antisymm
  · refine foldl_max_le _ _ _ (norm_nonneg _) fun y hy => ?_
    obtain ⟨p, hp, hy⟩ := List.mem_flatMap.1 hy
    obtain ⟨i, hi, rfl⟩ := List.mem_map.1 hy
    have h1 := norm_le_pi_norm (cut N n v) ⟨p, List.mem_range.1 hp⟩
    have h2 := norm_le_pi_norm (cut N n v ⟨p, List.mem_range.1 hp⟩) ⟨i, List.mem_range.1 hi⟩
    exact h2.trans h1
  · obtain ⟨h1, h2⟩ := le_foldl_max ((List.range N).flatMap fun p => (List.range n).map fun i => |v p i|) 0
    refine (pi_norm_le_iff_of_nonneg h1).2 fun p => (pi_norm_le_iff_of_nonneg h1).2 fun i => ?_
    refine h2 _ (List.mem_flatMap.2 ⟨p, List.mem_range.2 p.2, List.mem_map.2 ⟨i, List.mem_range.2 i.2, rfl⟩⟩)

/-- The linear map with given diagonal blocks. -/
noncomputable def blockCLM (M : Fin N → Fin n → Fin n → ℝ) : (Fin N → Fin n → ℝ) →L[ℝ] (Fin N → Fin n → ℝ) :=
  LinearMap.toContinuousLinearMap
    { toFun := fun u p k => ∑ i, M p k i * u p i
      map_add' := fun u v => by
        funext p k
        simp only [Pi.add_apply, mul_add, Finset.sum_add_distrib]
      map_smul' := fun c u => by
        funext p k
        simp only [Pi.smul_apply, smul_eq_mul, RingHom.id_apply, Finset.mul_sum]
        exact Finset.sum_congr rfl fun i _ => by ring }

theorem blockCLM_apply (M : Fin N → Fin n → Fin n → ℝ) (u : Fin N → Fin n → ℝ) (p : Fin N) (k : Fin n) :
    blockCLM M u p k = ∑ i, M p k i * u p i := rfl

theorem blockCLM_sub (M M' : Fin N → Fin n → Fin n → ℝ) :
    blockCLM M - blockCLM M' = blockCLM fun p k i => M p k i - M' p k i := by
  ext u p k
  simp only [_root_.sub_apply, Pi.sub_apply, blockCLM_apply, sub_mul, Finset.sum_sub_distrib]

theorem blockCLM_norm_le (M : Fin N → Fin n → Fin n → ℝ) {η : ℝ} (hη : 0 ≤ η) (h : ∀ p k i, |M p k i| ≤ η) :
    ‖blockCLM M‖ ≤ n * η := by
  refine ContinuousLinearMap.opNorm_le_bound _ (by positivity) fun u => ?_
  have hb : 0 ≤ n * η * ‖u‖ := by positivity
  refine (pi_norm_le_iff_of_nonneg hb).2 fun p => (pi_norm_le_iff_of_nonneg hb).2 fun k => ?_
  rw [blockCLM_apply]
  refine (norm_sum_le _ _).trans ?_
  have : ∀ i ∈ Finset.univ, ‖M p k i * u p i‖ ≤ η * ‖u‖ := by
    intro i _
    rw [norm_mul]
    exact mul_le_mul (h p k i) ((norm_le_pi_norm (u p) i).trans (norm_le_pi_norm u p)) (norm_nonneg _) hη
  refine (Finset.sum_le_card_nsmul _ _ _ this).trans ?_
  simp [mul_assoc]

/-- The matrix of a linear map. -/
noncomputable def clmEntry (A : (Fin n → ℝ) →L[ℝ] (Fin n → ℝ)) (k i : Fin n) : ℝ := A (Pi.single i 1) k

theorem clmEntry_sum (A : (Fin n → ℝ) →L[ℝ] (Fin n → ℝ)) (v : Fin n → ℝ) (k : Fin n) :
    A v k = ∑ i, clmEntry A k i * v i := by
  have h : v = ∑ i, v i • (Pi.single i (1 : ℝ) : Fin n → ℝ) := by
    funext j
    simp [Finset.sum_apply, Pi.single_apply]
  conv_lhs => rw [h]
  rw [map_sum, Finset.sum_apply]
  refine Finset.sum_congr rfl fun i _ => ?_
  rw [map_smul, Pi.smul_apply, smul_eq_mul, mul_comm]
  rfl

theorem rows_fderiv (F : Fin N → (Fin n → ℝ) → Fin n → ℝ) (A : Fin N → (Fin n → ℝ) →L[ℝ] (Fin n → ℝ))
    (xs : Fin N → Fin n → ℝ) (hd : ∀ p, HasFDerivAt (F p) (A p) (xs p)) :
    HasFDerivAt (fun u p => F p (u p)) (blockCLM fun p => clmEntry (A p)) xs := by
  rw [hasFDerivAt_pi']
  intro p
  have h1 : HasFDerivAt (fun u : Fin N → Fin n → ℝ => u p)
      (ContinuousLinearMap.proj (R := ℝ) (φ := fun _ : Fin N => Fin n → ℝ) p) xs :=
    (ContinuousLinearMap.proj (R := ℝ) (φ := fun _ : Fin N => Fin n → ℝ) p).hasFDerivAt
  refine ((hd p).comp xs h1).congr_fderiv ?_
  ext u k
  change A p (u p) k = ∑ i, clmEntry (A p) k i * u p i
  exact clmEntry_sum _ _ _

theorem exists_left_inverse {E : Type} [NormedAddCommGroup E] [NormedSpace ℝ E] [FiniteDimensional ℝ E]
    (A : E →L[ℝ] E) (h : ∀ v, A v = 0 → v = 0) : ∃ Ai : E →L[ℝ] E, ∀ v, Ai (A v) = v := by
  have hinj : Function.Injective (A : E →ₗ[ℝ] E) := by
    rw [← LinearMap.ker_eq_bot, LinearMap.ker_eq_bot']
    exact h
  let e := LinearEquiv.ofInjectiveEndo (A : E →ₗ[ℝ] E) hinj
  refine ⟨LinearMap.toContinuousLinearMap (e.symm : E →ₗ[ℝ] E), fun v => ?_⟩
  exact e.symm_apply_apply v

/-- The solution of the linear systems of all points. -/
theorem serialStep_solves (dv : ℕ → ℕ → ℕ → ℝ) (v : ℕ → ℕ → ℝ)
    (h : ∀ u, blockCLM (fun (p : Fin N) (k i : Fin n) => dv p k i) u = 0 → u = 0) :
    blockCLM (fun (p : Fin N) (k i : Fin n) => dv p k i) (cut N n (serialStep N n dv v)) = cut N n v := by
  funext p k
  have hns : Nonsingular n (dv p) := by
    intro w hw j hj
    have := h (fun q i => if q = p then w i else 0) (by
      funext q k
      rw [blockCLM_apply]
      by_cases hq : q = p
      · subst hq
        have := hw k k.2
        rw [Finset.sum_range] at this
        simpa using this
      · simp [hq])
    have := congrFun (congrFun this p) ⟨j, hj⟩
    simpa using this
  obtain ⟨-, hsol⟩ := C24_serial_solve n ((List.range N).map fun p => (dv p, v p))
  obtain ⟨w, hw1, hw2⟩ := hsol p (dv p) (v p) (by simp) hns
  have e : serialStep N n dv v p = w := by
    unfold serialStep
    simp only [hw1, Option.getD_some]
  have := hw2 k k.2
  rw [Finset.sum_range] at this
  rw [blockCLM_apply]
  change ∑ i : Fin n, dv p k i * serialStep N n dv v p i = v p k
  rw [e]
  exact this

/-- The main lemma for serial storage: Jacobians close to those at the solution. -/
theorem serial_local (F : Fin N → (Fin n → ℝ) → Fin n → ℝ) (A : Fin N → (Fin n → ℝ) →L[ℝ] (Fin n → ℝ))
    (xs : Fin N → Fin n → ℝ) (h0 : ∀ p, F p (xs p) = 0) (hd : ∀ p, HasFDerivAt (F p) (A p) (xs p))
    (hinj : ∀ p v, A p v = 0 → v = 0) {ρ : ℝ} (hρ0 : 0 < ρ) (hρ1 : ρ < 1) :
    ∃ η > 0, ∃ C > 0, ∃ δ1 > 0, ∀ δ, 0 < δ → δ ≤ δ1 →
      ∀ f : (ℕ → ℕ → ℝ) → (ℕ → ℕ → ℝ) × (ℕ → ℕ → ℕ → ℝ),
        (∀ x (p : Fin N) (k : Fin n), (f x).1 p k = F p (cut N n x p) k) →
        (∀ x, dist (cut N n x) xs < δ → ∀ (p : Fin N) (k i : Fin n), |(f x).2 p k i - clmEntry (A p) k i| ≤ η) →
        (∀ x, dist (cut N n x) xs < δ →
          dist (cut N n ((serialProblem N n f).next x)) xs ≤ ρ * dist (cut N n x) xs ∧
          cut N n ((serialProblem N n f).next x)
            = cut N n x - cut N n (serialStep N n (f x).2 (f x).1) ∧
          blockCLM (fun (p : Fin N) (k i : Fin n) => (f x).2 p k i)
            (cut N n (serialStep N n (f x).2 (f x).1)) = cut N n (f x).1) ∧
        ∀ x0, dist (cut N n x0) xs < δ → ∀ tol, 0 < tol → ∀ n0 : ℕ, C * δ * ρ ^ n0 < tol → ∀ maxit, n0 < maxit →
          (newton (serialProblem N n f) tol maxit x0).warned = false ∧
          (newton (serialProblem N n f) tol maxit x0).it ≤ n0 ∧
          ‖cut N n (f (newton (serialProblem N n f) tol maxit x0).x).1‖ < tol ∧
          dist (cut N n (newton (serialProblem N n f) tol maxit x0).x) xs
            ≤ C * ‖cut N n (f (newton (serialProblem N n f) tol maxit x0).x).1‖ := by
  set G : (Fin N → Fin n → ℝ) → (Fin N → Fin n → ℝ) := fun u p => F p (u p) with hG
  set B := blockCLM fun p => clmEntry (A p) with hB
  have hG0 : G xs = 0 := by funext p; exact h0 p
  have hGd : HasFDerivAt G B xs := rows_fderiv F A xs hd
  have hBinj : ∀ u, B u = 0 → u = 0 := by
    intro u hu
    funext p
    refine hinj p (u p) ?_
    funext k
    have := congrFun (congrFun hu p) k
    rw [hB, blockCLM_apply] at this
    rw [clmEntry_sum]
    exact this
  obtain ⟨Bi, hBi⟩ := exists_left_inverse B hBinj
  obtain ⟨C, hC, κ, hκ, hκρ, δ1, hδ1, hrun⟩ := newton_local (X := ℕ → ℕ → ℝ) (V := ℕ → ℕ → ℝ)
    (J := ℕ → ℕ → ℕ → ℝ) (D := ℕ → ℕ → ℝ) G B xs hG0 hGd Bi hBi hρ0 hρ1
  obtain ⟨η, hη, ε, hε, hker, hstep⟩ := newton_approx G B xs hG0 hGd Bi hBi hκ
  refine ⟨η / (n + 1), by positivity, C, hC, min δ1 ε, lt_min hδ1 hε, fun δ hδ hδle f hf hJ => ?_⟩
  have hview : NewtonView (serialProblem N n f) G (cut N n) (cut N n) := by
    refine ⟨fun x => ?_, fun x d t => ?_⟩
    · change maxAbs N n (f x).1 = _
      rw [maxAbs_eq_norm]
      congr 1
      funext p k
      exact hf x p k
    · funext p k
      change x p k - d p k * t = x p k - t * d p k
      ring
  have hfG : ∀ x, cut N n (f x).1 = G (cut N n x) := fun x => by
    funext p k
    exact hf x p k
  have hclose : ∀ x, dist (cut N n x) xs < δ →
      ‖blockCLM (fun (p : Fin N) (k i : Fin n) => (f x).2 p k i) - B‖ ≤ η := by
    intro x hx
    rw [hB, blockCLM_sub]
    refine (blockCLM_norm_le _ (η := η / (n + 1)) (by positivity) fun p k i => hJ x hx p k i).trans ?_
    rw [mul_div_assoc', div_le_iff₀ (by positivity)]
    nlinarith
  have hsolve : ∀ x, dist (cut N n x) xs < δ →
      blockCLM (fun (p : Fin N) (k i : Fin n) => (f x).2 p k i)
            (cut N n (serialStep N n (f x).2 (f x).1)) = cut N n (f x).1 := fun x hx =>
    serialStep_solves _ _ (hker _ (hclose x hx))
  have hdir : ∀ x, ‖cut N n x - xs‖ < δ →
      ‖cut N n x - xs - cut N n ((serialProblem N n f).dir x)‖ ≤ κ * ‖cut N n x - xs‖ := by
    intro x hx
    have hx' : dist (cut N n x) xs < δ := by rwa [dist_eq_norm]
    refine hstep _ _ _ (hx.trans_le (hδle.trans (min_le_right _ _))) (hclose x hx') ?_
    rw [← hfG]
    exact hsolve x hx'
  obtain ⟨r1, r2⟩ := hrun δ hδ (hδle.trans (min_le_left _ _)) (serialProblem N n f) (cut N n) (cut N n) hview hdir
  refine ⟨fun x hx => ?_, fun x0 hx0 tol htol n0 hn0 maxit hmax => ?_⟩
  · obtain ⟨s1, s2⟩ := r1 x (by rwa [← dist_eq_norm])
    refine ⟨?_, s2, hsolve x hx⟩
    rw [dist_eq_norm, dist_eq_norm]
    exact s1.trans (mul_le_mul_of_nonneg_right hκρ (norm_nonneg _))
  · obtain ⟨s1, s2, s3, s4⟩ := r2 x0 (by rwa [← dist_eq_norm]) tol htol n0 hn0 maxit hmax
    rw [hfG, dist_eq_norm]
    exact ⟨s1, s2, s3, s4⟩

end serial

end Dolo
