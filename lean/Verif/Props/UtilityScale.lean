import Mathlib.Tactic.FieldSimp
import Verif.Props.PolicyValue

/-!
# C148: the scale of utility does not matter
-/

set_option linter.unusedSectionVars false

namespace Dolo

open Finset

/-! ### Related runs of the loops -/

variable {K : Type} [Field K] [LinearOrder K] [IsStrictOrderedRing K]

private theorem tableMax_scale {nm N n : ℕ} {a : K} (ha : 0 < a) {v v' : Table K}
    (h : ∀ i < nm, ∀ p < N, ∀ k < n, v' i p k = a * v i p k) : tableMax nm N n v' = a * tableMax nm N n v := by
  have h0 := tableMax_nonneg nm N n v
  have h0' := tableMax_nonneg nm N n v'
  apply le_antisymm
  · rw [tableMax_le_iff _ _ _ _ _ (mul_nonneg ha.le h0)]
    intro i hi p hp k hk
    rw [h i hi p hp k hk, abs_mul, abs_of_pos ha]
    exact mul_le_mul_of_nonneg_left ((tableMax_le_iff nm N n v _ h0).1 le_rfl i hi p hp k hk) ha.le
  · rw [← le_div_iff₀' ha, tableMax_le_iff _ _ _ _ _ (div_nonneg h0' ha.le)]
    intro i hi p hp k hk
    rw [le_div_iff₀' ha, ← abs_of_pos ha, ← abs_mul, ← h i hi p hp k hk]
    exact (tableMax_le_iff nm N n v' _ h0').1 le_rfl i hi p hp k hk

private theorem epLoop_sim {X : Type} (T T' : X → X) (d d' : X → X → K) (R : X → X → Prop) {a : K} (ha : 0 < a)
    (hT : ∀ v v', R v v' → R (T v) (T' v'))
    (hd : ∀ v v' w w', R v v' → R w w' → d' v' w' = a * d v w) (tol : K) (k it : ℕ) (err : K) (v v' w w' : X)
    (hv : R v v') (hw : R w w') :
    let r := epLoop T d tol k it err v (some w)
    let r' := epLoop T' d' (a * tol) k it (a * err) v' (some w')
    r'.iterations = r.iterations ∧ r'.error = a * r.error ∧ ∃ z z', r.solution = some z ∧ r'.solution = some z' ∧ R z z' := by
  induction k generalizing it err v v' w w' with
  | zero => exact ⟨rfl, rfl, w, w', rfl, rfl, hw⟩
  | succ k ih =>
    unfold epLoop
    by_cases h : err > tol
    · rw [if_pos h, if_pos ((mul_lt_mul_iff_right₀ ha).2 h)]
      simp only []
      rw [hd _ _ _ _ (hT _ _ hv) hv]
      exact ih _ _ _ _ _ _ (hT _ _ hv) hv
    · rw [if_neg h, if_neg (by simpa only [gt_iff_lt, mul_lt_mul_iff_right₀ ha] using h)]
      exact ⟨rfl, rfl, w, w', rfl, rfl, hw⟩

private theorem evaluatePolicy_sim {X : Type} (T T' : X → X) (d d' : X → X → K) (R : X → X → Prop) {a : K} (ha : 0 < a)
    (hT : ∀ v v', R v v' → R (T v) (T' v'))
    (hd : ∀ v v' w w', R v v' → R w w' → d' v' w' = a * d v w) (tol : K) (htol : tol < 10) (htol' : a * tol < 10)
    (maxit : ℕ) (hmax : 1 ≤ maxit) (v v' : X) (dr0 dr0' : Option X) (hv : R v v') :
    let r := evaluatePolicy T d tol maxit v dr0
    let r' := evaluatePolicy T' d' (a * tol) maxit v' dr0'
    r'.iterations = r.iterations ∧ r'.error = a * r.error ∧ ∃ z z', r.solution = some z ∧ r'.solution = some z' ∧ R z z' := by
  obtain ⟨k, rfl⟩ : ∃ k, maxit = k + 1 := ⟨maxit - 1, by omega⟩
  unfold evaluatePolicy epLoop
  rw [if_pos htol, if_pos htol']
  simp only []
  rw [hd _ _ _ _ (hT _ _ hv) hv]
  exact epLoop_sim T T' d d' R ha hT hd tol k _ _ _ _ _ _ (hT _ _ hv) hv

private theorem viLoop_sim {X V : Type} (ev ev' : ℕ → X → V → V) (im im' : X → V → X × V) (dX dX' : X → X → K)
    (dV dV' : V → V → K) (RX : X → X → Prop) (RV : V → V → Prop)
    (hev : ∀ n x x' v v', RX x x' → RV v v' → RV (ev n x v) (ev' n x' v'))
    (him : ∀ x x' v v', RX x x' → RV v v' → RX (im x v).1 (im' x' v').1 ∧ RV (im x v).2 (im' x' v').2)
    (hX : ∀ x x' y y', RX x x' → RX y y' → dX' x' y' = dX x y)
    (hV : ∀ v v' w w', RV v v' → RV w w' → dV' v' w' = dV v w) (tol tol_x : K) (k it : ℕ) (e_v e_x : K) (x x' : X)
    (v v' : V) (b : Bool) (hx : RX x x') (hv : RV v v') :
    let r := viLoop ev im dX dV tol tol_x k it e_v e_x x v b
    let r' := viLoop ev' im' dX' dV' tol tol_x k it e_v e_x x' v' b
    r'.1 = r.1 ∧ r'.2.1 = r.2.1 ∧ r'.2.2.1 = r.2.2.1 ∧ RX r.2.2.2.1 r'.2.2.2.1 ∧ RV r.2.2.2.2.1 r'.2.2.2.2.1 ∧
      r'.2.2.2.2.2 = r.2.2.2.2.2 := by
  induction k generalizing it e_v e_x x x' v v' b with
  | zero => exact ⟨rfl, rfl, rfl, hx, hv, rfl⟩
  | succ k ih =>
    unfold viLoop
    by_cases h : e_v > tol ∨ e_x > tol_x
    · rw [if_pos h, if_pos h]
      simp only []
      have h1 := hev (it + 1) x x' v v' hx hv
      have h2 := him x x' _ _ hx h1
      rw [hX _ _ _ _ h2.1 hx, hV _ _ _ _ h2.2 h1]
      exact ih _ _ _ _ _ _ _ _ h2.1 h2.2
    · rw [if_neg h, if_neg h]
      exact ⟨rfl, rfl, rfl, hx, hv, rfl⟩

/-! ### The value of a policy -/

variable {nm N : ℕ} {val val' : (m s x v M S X V : ℕ → K) → ℕ → K} {g : (m s x M : ℕ → K) → ℕ → K} {s : ℕ → ℕ → K}
  {x : Table K} {dr : ℕ → ℕ → (ℕ → K) → ℕ → K} {evalIJS : Table K → ℕ → ℕ → (ℕ → K) → ℕ → K} {dp : DProc K}
  {beta kappa : K} {utility : (m s x M S X : ℕ → K) → K} {w : ℕ → ℕ → ℕ → Fin nm × Fin N → K}

/-- **C148, the value of a policy.**  Utility is multiplied by `a > 0` and `c` is added to it, the initial values are
changed accordingly (which is what happens to the steady-state value `U / (1 - beta)`), and the tolerance is multiplied by
`a`.  Then `evaluate_policy` makes the same number of iterations, the error it reports is multiplied by `a`, and the
values are multiplied by `a`, with `c / (1 - beta)` added. -/
theorem C148_policy {a c : K} (ha : 0 < a) (hβ : beta ≠ 1)
    (h : DiscountedValue nm N 0 val g s x dr evalIJS dp beta kappa utility w)
    (h' : DiscountedValue nm N 0 val' g s x dr evalIJS dp beta kappa
      (fun m s x M S X => a * utility m s x M S X + c) w)
    (v0 v0' : Table K) (hv0 : ∀ i < nm, ∀ n < N, v0' i n 0 = a * v0 i n 0 + c / (1 - beta))
    (tol : K) (htol : tol < 10) (htol' : a * tol < 10) (maxit : ℕ) (hmax : 1 ≤ maxit) (dr0 dr0' : Option (Table K)) :
    let dist := fun u v : Table K => tableMax nm N 1 fun i n k => u i n k - v i n k
    let r := evaluatePolicy (fun v => updateValue val g s x v dr (evalIJS v) dp) dist tol maxit v0 dr0
    let r' := evaluatePolicy (fun v => updateValue val' g s x v dr (evalIJS v) dp) dist (a * tol) maxit v0' dr0'
    r'.iterations = r.iterations ∧ r'.error = a * r.error ∧
      ∃ v v', r.solution = some v ∧ r'.solution = some v' ∧
        ∀ i < nm, ∀ n < N, v' i n 0 = a * v i n 0 + c / (1 - beta) := by
  refine evaluatePolicy_sim _ _ _ _ (fun v v' => ∀ i < nm, ∀ n < N, v' i n 0 = a * v i n 0 + c / (1 - beta)) ha
    ?_ ?_ tol htol htol' maxit hmax v0 v0' dr0 dr0' hv0
  · intro v v' hv i hi n hn
    have e := updateValue_gridMove h v (⟨i, hi⟩, ⟨n, hn⟩)
    have e' := updateValue_gridMove h' v' (⟨i, hi⟩, ⟨n, hn⟩)
    simp only [] at e e'
    rw [e, e']
    have hu : gridUtility g s x dr dp (fun m s x M S X => a * utility m s x M S X + c)
        ((⟨i, hi⟩, ⟨n, hn⟩) : Fin nm × Fin N)
        = a * gridUtility g s x dr dp utility ((⟨i, hi⟩, ⟨n, hn⟩) : Fin nm × Fin N) + c := by
      unfold gridUtility
      simp only [mul_add, sum_add_distrib, ← sum_mul, h.weights_sum i hi, one_mul, mul_sum]
      congr 1
      exact sum_congr rfl fun j _ => by ring
    have hm : ∑ b, gridMove dp w ((⟨i, hi⟩, ⟨n, hn⟩) : Fin nm × Fin N) b * v' b.1 b.2 0
        = a * ∑ b, gridMove dp w ((⟨i, hi⟩, ⟨n, hn⟩) : Fin nm × Fin N) b * v b.1 b.2 0 + c / (1 - beta) := by
      have : ∀ b : Fin nm × Fin N, v' b.1 b.2 0 = a * v b.1 b.2 0 + c / (1 - beta) :=
        fun b => hv _ b.1.2 _ b.2.2
      simp only [this, mul_add, sum_add_distrib, ← sum_mul, gridMove_sum h, one_mul, mul_sum]
      congr 1
      exact sum_congr rfl fun j _ => by ring
    rw [hu, hm]
    have hb : (1 - beta) ≠ 0 := fun h0 => hβ (by linarith)
    field_simp
    ring
  · intro v v' u u' hv hu
    refine tableMax_scale ha ?_
    intro i hi p hp k hk
    obtain rfl : k = 0 := by omega
    rw [hv i hi p hp, hu i hi p hp]
    ring

/-- **C148, better utilities.**  If utility is at least as large in every event, the value of a policy is at least as
large, up to the errors reported, provided that the interpolation has no negative weights. -/
theorem C148_policy_monotone {nm N : ℕ} {val val' : (m s x v M S X V : ℕ → ℝ) → ℕ → ℝ} {g : (m s x M : ℕ → ℝ) → ℕ → ℝ}
    {s : ℕ → ℕ → ℝ} {x : Table ℝ} {dr : ℕ → ℕ → (ℕ → ℝ) → ℕ → ℝ} {evalIJS : Table ℝ → ℕ → ℕ → (ℕ → ℝ) → ℕ → ℝ}
    {dp : DProc ℝ} {beta kappa : ℝ} {utility utility' : (m s x M S X : ℕ → ℝ) → ℝ} {w : ℕ → ℕ → ℕ → Fin nm × Fin N → ℝ}
    (h : DiscountedValue nm N 0 val g s x dr evalIJS dp beta kappa utility w)
    (h' : DiscountedValue nm N 0 val' g s x dr evalIJS dp beta kappa utility' w)
    (hw : ∀ i < nm, ∀ n < N, ∀ j < dp.nInodes 0, ∀ b, 0 ≤ w i n j b)
    (hu : ∀ m s x M S X, utility m s x M S X ≤ utility' m s x M S X)
    (v0 v0' : Table ℝ) (tol tol' : ℝ) (htol : tol < 10) (htol' : tol' < 10) (maxit maxit' : ℕ) (hmax : 1 ≤ maxit)
    (hmax' : 1 ≤ maxit') (dr0 dr0' : Option (Table ℝ)) :
    let dist := fun u v : Table ℝ => tableMax nm N 1 fun i n k => u i n k - v i n k
    let r := evaluatePolicy (fun v => updateValue val g s x v dr (evalIJS v) dp) dist tol maxit v0 dr0
    let r' := evaluatePolicy (fun v => updateValue val' g s x v dr (evalIJS v) dp) dist tol' maxit' v0' dr0'
    ∃ v v', r.solution = some v ∧ r'.solution = some v' ∧
      ∀ i < nm, ∀ n < N, v i n 0 ≤ v' i n 0 + (r.error + r'.error) / (1 - beta * kappa) := by
  intro dist r r'
  obtain ⟨v, hv, hW⟩ := C145_infinite h 1 one_pos tol htol maxit hmax v0 dr0
  obtain ⟨v', hv', hW'⟩ := C145_infinite h' 1 one_pos tol' htol' maxit' hmax' v0' dr0'
  refine ⟨v, v', hv, hv', ?_⟩
  intro i hi n hn
  obtain ⟨W, hlim, hb, -⟩ := hW (⟨i, hi⟩, ⟨n, hn⟩)
  obtain ⟨W', hlim', hb', -⟩ := hW' (⟨i, hi⟩, ⟨n, hn⟩)
  have hQ : ∀ a b : Fin nm × Fin N, 0 ≤ gridMove dp w a b := fun a b =>
    sum_nonneg fun j hj => mul_nonneg (h.weights _ a.1.2 j (mem_range.1 hj)) (hw _ a.1.2 _ a.2.2 j (mem_range.1 hj) b)
  have hG : ∀ a : Fin nm × Fin N, gridUtility g s x dr dp utility a ≤ gridUtility g s x dr dp utility' a := fun a =>
    sum_le_sum fun j hj => mul_le_mul_of_nonneg_left (hu _ _ _ _ _ _) (h.weights _ a.1.2 j (mem_range.1 hj))
  have hle : W ≤ W' := by
    refine le_of_tendsto_of_tendsto' hlim hlim' fun k => ?_
    unfold expectedUtility
    refine sum_le_sum fun p _ => mul_le_mul_of_nonneg_left ?_ (prod_nonneg fun t _ => hQ _ _)
    exact sum_le_sum fun t _ => mul_le_mul_of_nonneg_left (hG _) (pow_nonneg h.beta_nonneg _)
  have h1 := (abs_le.1 hb).2
  have h2 := (abs_le.1 hb').1
  simp only [] at h1 h2
  have e : (r.error + r'.error) / (1 - beta * kappa) = r.error / (1 - beta * kappa) + r'.error / (1 - beta * kappa) :=
    add_div _ _ _
  rw [e]
  have h1' : v i n 0 - W ≤ r.error / (1 - beta * kappa) := h1
  have h2' : -(r'.error / (1 - beta * kappa)) ≤ v' i n 0 - W' := h2
  linarith

/-! ### Value iteration -/

section vi

variable {minimize : ℕ → ℕ → ((ℕ → K) → K) → (ℕ → K) → (ℕ → K)}
  {transition : (m s x M : ℕ → K) → ℕ → K} {felicity : (m s x : ℕ → K) → K}
  {evalX : Table K → ℕ → ℕ → (ℕ → K) → ℕ → K} {evalI : Table K → ℕ → (ℕ → K) → ℕ → K}

/-- **C148, value iteration.**  A constant `c` is added to felicity (and `c / (1 - beta)` to the calibrated value): then
`value_iteration` makes the same number of iterations, reports the same errors, and returns the same controls and the
values with `c / (1 - beta)` added.  It is assumed that adding a constant to the data adds it to the interpolated values,
and that the points tried by the optimiser do not change when a constant is added to the objective. -/
theorem C148_value_iteration (c : K) (hβ : beta ≠ 1)
    (hI : ∀ (v v' : Table K) (b : K), (∀ i < nm, ∀ n < N, v' i n 0 = v i n 0 + b) →
      (∀ j S, evalI v' j S 0 = evalI v j S 0 + b) ∧ ∀ i j S, evalIJS v' i j S 0 = evalIJS v i j S 0 + b)
    (hval : ∀ m s x v M S X V, val m s x v M S X V 0 = felicity m s x + beta * V 0)
    (hval' : ∀ m s x v M S X V, val' m s x v M S X V 0 = felicity m s x + c + beta * V 0)
    (hmin : ∀ i n (f : (ℕ → K) → K) (b : K) (y : ℕ → K), minimize i n (fun z => f z + b) y = minimize i n f y)
    (hw0 : ∀ i < nm, ∑ j ∈ range (dp.nInodes 0), dp.iweight i j = 1)
    (hw : ∀ i < nm, ∑ j ∈ range (dp.nInodes i), dp.iweight i j = 1) (nx : ℕ) (vcal vcal' : Table K)
    (hcal : ∀ i < nm, ∀ n < N, vcal' i n 0 = vcal i n 0 + c / (1 - beta)) (tol : K) (htol : tol < 100) (maxit : ℕ)
    (hmax : 1 ≤ maxit) (x0 : Table K) :
    ∃ r r', valueIterationFull nm N nx minimize transition felicity val evalX evalIJS evalI dp beta s vcal tol maxit x0
        = .ok r ∧
      valueIterationFull nm N nx minimize transition (fun m s x => felicity m s x + c) val' evalX evalIJS evalI dp beta s
        vcal' tol maxit x0 = .ok r' ∧
      r'.iterations = r.iterations ∧ r'.x_err = r.x_err ∧ r'.v_err = r.v_err ∧
      ∀ i < nm, ∀ n < N, r'.controls i n = r.controls i n ∧ r'.values.1 i n 0 = r.values.1 i n 0 + c / (1 - beta) := by
  have hb : (1 - beta) ≠ 0 := fun h0 => hβ (by linarith)
  -- the relations
  let RX : Table K → Table K → Prop := fun x x' => ∀ i < nm, ∀ n < N, x' i n = x i n
  let RT : Table K → Table K → Prop := fun v v' => ∀ i < nm, ∀ n < N, v' i n 0 = v i n 0 + c / (1 - beta)
  let RV : Table K × Table K → Table K × Table K → Prop := fun v v' => RT v.1 v'.1 ∧ RT v.2 v'.2
  have hT : ∀ x x' v v', RX x x' → RT v v' → RT (policyUpdate val transition s evalX evalIJS dp x v)
      (policyUpdate val' transition s evalX evalIJS dp x' v') := by
    intro x x' v v' hx hv i hi n hn
    unfold policyUpdate
    rw [updateValue_eq, updateValue_eq]
    simp only [hval, hval', hx i hi n hn, (hI v v' _ hv).2]
    have : ∀ j, dp.iweight i j * (felicity (dp.node i) (s n) (x i n) + c
          + beta * (evalIJS v i j (transition (dp.node i) (s n) (x i n) (dp.inode i j)) 0 + c / (1 - beta)))
        = dp.iweight i j * (felicity (dp.node i) (s n) (x i n)
          + beta * evalIJS v i j (transition (dp.node i) (s n) (x i n) (dp.inode i j)) 0)
          + dp.iweight i j * (c / (1 - beta)) := by
      intro j
      field_simp
      ring
    simp only [this, sum_add_distrib, ← sum_mul, hw0 i hi, one_mul]
  have hdV : ∀ v v' u u', RT v v' → RT u u' → (tableMax nm N 1 fun i n k => v' i n k - u' i n k)
      = tableMax nm N 1 fun i n k => v i n k - u i n k := by
    intro v v' u u' hv hu
    have := tableMax_scale (nm := nm) (N := N) (n := 1) (a := 1) one_pos (v := fun i n k => v i n k - u i n k)
      (v' := fun i n k => v' i n k - u' i n k) ?_
    · rw [this, one_mul]
    · intro i hi p hp k hk
      obtain rfl : k = 0 := by omega
      rw [hv i hi p hp, hu i hi p hp]
      ring
  have hdX : ∀ x x' y y', RX x x' → RX y y' → (tableMax nm N nx fun i n k => x' i n k - y' i n k)
      = tableMax nm N nx fun i n k => x i n k - y i n k := by
    intro x x' y y' hx hy
    have := tableMax_scale (nm := nm) (N := N) (n := nx) (a := 1) one_pos (v := fun i n k => x i n k - y i n k)
      (v' := fun i n k => x' i n k - y' i n k) ?_
    · rw [this, one_mul]
    · intro i hi p hp k hk
      rw [hx i hi p hp, hy i hi p hp, one_mul]
  let distV := fun a b : Table K => tableMax nm N 1 fun i n k => a i n k - b i n k
  have hev : ∀ it x x' (v v' : Table K × Table K), RX x x' → RT v.2 v'.2 →
      RV (evaluateTables (policyUpdate val transition s evalX evalIJS dp) distV vcal it x v)
        (evaluateTables (policyUpdate val' transition s evalX evalIJS dp) distV vcal' it x' v') := by
    intro it x x' v v' hx hv
    have key : ∀ (u u' : Table K) (d0 d0' : Option (Table K)), RT u u' →
        RT ((evaluatePolicy (policyUpdate val transition s evalX evalIJS dp x) distV (1 / 10 ^ 8) 2000 u d0).solution.getD v.2)
          ((evaluatePolicy (policyUpdate val' transition s evalX evalIJS dp x') distV (1 / 10 ^ 8) 2000 u'
            d0').solution.getD v'.2) := by
      intro u u' d0 d0' hu
      have h1 : (1 : K) / 10 ^ 8 < 10 := by norm_num
      have := evaluatePolicy_sim (policyUpdate val transition s evalX evalIJS dp x)
        (policyUpdate val' transition s evalX evalIJS dp x') distV distV RT (a := 1) one_pos
        (fun v v' hv => hT x x' v v' hx hv) (fun v v' u u' hv hu => by rw [one_mul]; exact hdV v v' u u' hv hu)
        (1 / 10 ^ 8) h1 (by rw [one_mul]; exact h1) 2000 (by norm_num) u u' d0 d0' hu
      simp only [one_mul] at this
      obtain ⟨-, -, z, z', e, e', hz⟩ := this
      rw [e, e']
      exact hz
    unfold evaluateTables
    by_cases h2 : it > 2
    · simp only [h2, if_true]
      exact ⟨key _ _ _ _ hv, key _ _ _ _ hv⟩
    · simp only [h2, if_false]
      exact ⟨key _ _ _ _ hcal, key _ _ _ _ hcal⟩
  have him : ∀ x x' (v v' : Table K × Table K), RX x x' → RV v v' →
      RX (improveTables minimize transition felicity evalI dp beta s x v).1
        (improveTables minimize transition (fun m s x => felicity m s x + c) evalI dp beta s x' v').1 ∧
      RV (improveTables minimize transition felicity evalI dp beta s x v).2
        (improveTables minimize transition (fun m s x => felicity m s x + c) evalI dp beta s x' v').2 := by
    intro x x' v v' hx hv
    have hcv : ∀ i < nm, ∀ n y, choiceValue transition (fun m s x => felicity m s x + c) i (s n) y
        (fun I S => evalI v'.2 I S 0) dp beta
        = choiceValue transition felicity i (s n) y (fun I S => evalI v.2 I S 0) dp beta + c / (1 - beta) := by
      intro i hi n y
      rw [choiceValue_eq, choiceValue_eq]
      simp only [(hI v.2 v'.2 _ hv.2).1, mul_add, sum_add_distrib, ← sum_mul, hw i hi, one_mul]
      field_simp
      ring
    have hm : ∀ i < nm, ∀ n < N, minimize i n (fun y => -choiceValue transition (fun m s x => felicity m s x + c) i (s n) y
        (fun I S => evalI v'.2 I S 0) dp beta) (x' i n)
        = minimize i n (fun y => -choiceValue transition felicity i (s n) y (fun I S => evalI v.2 I S 0) dp beta) (x i n) := by
      intro i hi n hn
      rw [hx i hi n hn]
      refine Eq.trans ?_ (hmin i n _ (-(c / (1 - beta))) _)
      congr 1
      funext y
      rw [hcv i hi n y]
      ring
    refine ⟨fun i hi n hn => ?_, fun i hi n hn => ?_, hv.2⟩
    · simp only [improveTables, valueStep]
      exact hm i hi n hn
    · simp only [improveTables, valueStep, if_true, neg_neg]
      rw [hcv i hi n, hm i hi n hn]
  -- the first pass
  obtain ⟨k, rfl⟩ : ∃ k, maxit = k + 1 := ⟨maxit - 1, by omega⟩
  obtain ⟨r, hr⟩ := C108_returns (nm := nm) (N := N) (minimize := minimize) (transition := transition)
    (felicity := felicity) (val := val) (evalX := evalX) (evalIJS := evalIJS) (evalI := evalI) (dp := dp) (beta := beta)
    (s := s) nx vcal tol htol (k + 1) hmax x0
  obtain ⟨r', hr'⟩ := C108_returns (nm := nm) (N := N) (minimize := minimize) (transition := transition)
    (felicity := fun m s x => felicity m s x + c) (val := val') (evalX := evalX) (evalIJS := evalIJS) (evalI := evalI)
    (dp := dp) (beta := beta) (s := s) nx vcal' tol htol (k + 1) hmax x0
  refine ⟨r, r', hr, hr', ?_⟩
  unfold valueIterationFull valueIteration viLoop at hr hr'
  simp only [gt_iff_lt, htol, true_or, if_true] at hr hr'
  have hx0 : RX x0 x0 := fun _ _ _ _ => rfl
  have h1 := hev (0 + 1) x0 x0 (fun _ _ _ => 0, vcal) (fun _ _ _ => 0, vcal') hx0 hcal
  have h2 := him x0 x0 _ _ hx0 h1
  have e1 := hdX _ _ _ _ h2.1 hx0
  have e2 := hdV _ _ _ _ h2.2.1 h1.1
  simp only [distV] at h1 h2 e1 e2
  rw [e1, e2] at hr'
  generalize tableMax nm N 1 (_ : Table K) = e_v at hr hr'
  generalize tableMax nm N nx (_ : Table K) = e_x at hr hr'
  have sim := viLoop_sim (evaluateTables (policyUpdate val transition s evalX evalIJS dp) distV vcal)
    (evaluateTables (policyUpdate val' transition s evalX evalIJS dp) distV vcal')
    (improveTables minimize transition felicity evalI dp beta s)
    (improveTables minimize transition (fun m s x => felicity m s x + c) evalI dp beta s)
    (fun a b : Table K => tableMax nm N nx fun i n k => a i n k - b i n k)
    (fun a b : Table K => tableMax nm N nx fun i n k => a i n k - b i n k)
    (fun a b => distV a.1 b.1) (fun a b => distV a.1 b.1) RX RV (fun n x x' v v' hx hv => hev n x x' v v' hx hv.2) him
    (fun x x' y y' hx hy => hdX x x' y y' hx hy) (fun v v' u u' hv hu => hdV _ _ _ _ hv.1 hu.1) tol (1 / 10 ^ 5) k (0 + 1)
    e_v e_x _ _ _ _ true h2.1 h2.2
  simp only [distV] at sim
  generalize viLoop (evaluateTables (policyUpdate val transition s evalX evalIJS dp) _ vcal) _ _ _ tol (1 / 10 ^ 5) k (0 + 1)
    _ _ _ _ true = P at hr sim
  generalize viLoop (evaluateTables (policyUpdate val' transition s evalX evalIJS dp) _ vcal') _ _ _ tol (1 / 10 ^ 5) k (0 + 1)
    _ _ _ _ true = P' at hr' sim
  obtain ⟨it, ev, ex, xx, vv, b⟩ := P
  obtain ⟨it', ev', ex', xx', vv', b'⟩ := P'
  obtain ⟨s1, s2, s3, s4, s5, s6⟩ := sim
  simp only [] at s1 s2 s3 s4 s5 s6
  subst s1 s2 s3 s6
  cases b'
  · cases hr
  · cases hr
    cases hr'
    exact ⟨rfl, rfl, rfl, fun i hi n hn => ⟨s4 i hi n hn, s5.1 i hi n hn⟩⟩

variable {adm adm' : ℕ → ℕ → (ℕ → K) → Prop} {minimize' : ℕ → ℕ → ((ℕ → K) → K) → (ℕ → K) → (ℕ → K)}
  {felicity' : (m s x : ℕ → K) → K}

private theorem lookahead_scale {a c : K}
    (D : DynamicProgram nm N adm minimize transition felicity val evalIJS evalI dp beta s) {v v' : Table K}
    (hv : ∀ i < nm, ∀ n < N, v' i n 0 = a * v i n 0 + c / (1 - beta)) {i n : ℕ} (hi : i < nm) (hn : n < N) {y : ℕ → K}
    (hy : adm i n y) :
    lookahead transition (fun m s x => a * felicity m s x + c) evalI dp beta s i n y v'
      = a * lookahead transition felicity evalI dp beta s i n y v + c / (1 - beta) := by
  have hb : (1 - beta) ≠ 0 := by have := D.beta_lt_one; intro h0; linarith
  have hev : ∀ j ∈ range (dp.nInodes i),
      dp.iweight i j * evalI v' j (transition (dp.node i) (s n) y (dp.inode i j)) 0
        = a * (dp.iweight i j * evalI v j (transition (dp.node i) (s n) y (dp.inode i j)) 0)
          + dp.iweight i j * (c / (1 - beta)) := by
    intro j hj
    obtain ⟨w, -, hw1, hw⟩ := D.average i hi n hn y hy j (mem_range.1 hj)
    have e : ∑ p ∈ range nm, ∑ q ∈ range N, w p q * v' p q 0
        = a * ∑ p ∈ range nm, ∑ q ∈ range N, w p q * v p q 0 + c / (1 - beta) := by
      have h1 : ∀ p ∈ range nm, ∑ q ∈ range N, w p q * v' p q 0
          = a * ∑ q ∈ range N, w p q * v p q 0 + (∑ q ∈ range N, w p q) * (c / (1 - beta)) := by
        intro p hp
        rw [mul_sum, sum_mul, ← sum_add_distrib]
        refine sum_congr rfl fun q hq => ?_
        rw [hv p (mem_range.1 hp) q (mem_range.1 hq)]
        ring
      rw [sum_congr rfl h1, sum_add_distrib, ← mul_sum, ← sum_mul, hw1, one_mul]
    rw [hw v', hw v, e]
    ring
  unfold lookahead
  rw [sum_congr rfl hev, sum_add_distrib, ← mul_sum, ← sum_mul, D.weights_sum i hi, one_mul]
  field_simp
  ring

/-- **C148, the optimum.**  With `a` times felicity plus `c`, `a > 0`, the optimal values are `a` times the original ones plus
`c / (1 - beta)`, and the optimal choices are the same. -/
theorem C148_bellman {a c : K} (ha : 0 < a)
    (D : DynamicProgram nm N adm minimize transition felicity val evalIJS evalI dp beta s) (vstar : Table K)
    (hv : BellmanSolution nm N adm (lookahead transition felicity evalI dp beta s) vstar) :
    let vstar' : Table K := fun i n k => a * vstar i n k + c / (1 - beta)
    let look' := lookahead transition (fun m s x => a * felicity m s x + c) evalI dp beta s
    BellmanSolution nm N adm look' vstar' ∧
    ∀ i < nm, ∀ n < N, ∀ y, adm i n y →
      (look' i n y vstar' = vstar' i n 0 ↔ lookahead transition felicity evalI dp beta s i n y vstar = vstar i n 0) := by
  intro vstar' look'
  have key : ∀ i < nm, ∀ n < N, ∀ y, adm i n y → look' i n y vstar'
      = a * lookahead transition felicity evalI dp beta s i n y vstar + c / (1 - beta) := fun i hi n hn y hy =>
    lookahead_scale D (fun _ _ _ _ => rfl) hi hn hy
  refine ⟨fun i hi n hn => ⟨?_, ?_⟩, fun i hi n hn y hy => ?_⟩
  · obtain ⟨y, hy, he⟩ := (hv i hi n hn).1
    refine ⟨y, hy, ?_⟩
    rw [key i hi n hn y hy, ← he]
  · rintro u ⟨y, hy, rfl⟩
    rw [key i hi n hn y hy]
    have := (hv i hi n hn).2 ⟨y, hy, rfl⟩
    have := mul_le_mul_of_nonneg_left this ha.le
    simp only [vstar']
    linarith
  · rw [key i hi n hn y hy]
    simp only [vstar', add_left_inj]
    exact mul_right_inj' ha.ne'

/-- **C148, value iteration in another scale.**  Whatever tolerances, initial controls and calibrated values are used:
the values found for `a` times felicity plus `c` are `a` times the values found for felicity plus `c / (1 - beta)`, up to
`beta / (1 - beta)` times the errors reported by the two runs. -/
theorem C148_values_scale {a c : K} (ha : 0 < a)
    (D : DynamicProgram nm N adm minimize transition felicity val evalIJS evalI dp beta s)
    (D' : DynamicProgram nm N adm minimize' transition (fun m s x => a * felicity m s x + c) val' evalIJS evalI dp beta s)
    (nx : ℕ) (vcal vcal' : Table K) (tol tol' : K) (maxit maxit' : ℕ) (x0 x0' : Table K)
    (hx0 : ∀ i < nm, ∀ n < N, adm i n (x0 i n)) (hx0' : ∀ i < nm, ∀ n < N, adm i n (x0' i n))
    (r r' : VIResult (Table K) (Table K × Table K) K)
    (h : valueIterationFull nm N nx minimize transition felicity val evalX evalIJS evalI dp beta s vcal tol maxit
      x0 = .ok r)
    (h' : valueIterationFull nm N nx minimize' transition (fun m s x => a * felicity m s x + c) val' evalX evalIJS evalI
      dp beta s vcal' tol' maxit' x0' = .ok r')
    (vstar : Table K) (hv : BellmanSolution nm N adm (lookahead transition felicity evalI dp beta s) vstar) :
    ∀ i < nm, ∀ n < N, |r'.values.1 i n 0 - (a * r.values.1 i n 0 + c / (1 - beta))|
      ≤ beta / (1 - beta) * (r'.v_err + a * r.v_err) := by
  intro i hi n hn
  have h1 := (C108_a_posteriori D nx vcal tol maxit x0 hx0 r h vstar hv).2.1 i hi n hn
  have h2 := (C108_a_posteriori D' nx vcal' tol' maxit' x0' hx0' r' h' _ (C148_bellman ha D vstar hv).1).2.1 i hi n hn
  have e : r'.values.1 i n 0 - (a * r.values.1 i n 0 + c / (1 - beta))
      = (r'.values.1 i n 0 - (a * vstar i n 0 + c / (1 - beta))) - a * (r.values.1 i n 0 - vstar i n 0) := by ring
  rw [e]
  refine le_trans (abs_sub _ _) ?_
  rw [abs_mul, abs_of_pos ha, mul_add]
  have := mul_le_mul_of_nonneg_left h1 ha.le
  have e2 : a * (beta / (1 - beta) * r.v_err) = beta / (1 - beta) * (a * r.v_err) := by ring
  rw [e2] at this
  exact add_le_add h2 this

/-- **C148, more choices.**  If everything that is admissible remains so, and gives at least as much felicity, the
optimal values do not fall. -/
theorem C148_more_choices
    (D : DynamicProgram nm N adm minimize transition felicity val evalIJS evalI dp beta s)
    (hadm : ∀ i < nm, ∀ n < N, ∀ y, adm i n y → adm' i n y)
    (hfel : ∀ i < nm, ∀ n < N, ∀ y, adm i n y → felicity (dp.node i) (s n) y ≤ felicity' (dp.node i) (s n) y)
    (vstar vstar' : Table K) (hv : BellmanSolution nm N adm (lookahead transition felicity evalI dp beta s) vstar)
    (hv' : BellmanSolution nm N adm' (lookahead transition felicity' evalI dp beta s) vstar') :
    ∀ i < nm, ∀ n < N, vstar i n 0 ≤ vstar' i n 0 := by
  intro i hi n hn
  have := sub_le_of_greedy D.beta_lt_one (lookahead_disc D) vstar hv vstar' 0 le_rfl (fun i hi n hn y hy => by
    have h1 := (hv' i hi n hn).2 ⟨y, hadm i hi n hn y hy, rfl⟩
    have h2 := hfel i hi n hn y hy
    unfold lookahead at h1 ⊢
    linarith) i hi n hn
  rw [zero_div] at this
  linarith

/-- **C148, value iteration with more choices.**  The same for the values returned by `value_iteration`, up to
`beta / (1 - beta)` times the errors reported by the two runs. -/
theorem C148_values_monotone
    (D : DynamicProgram nm N adm minimize transition felicity val evalIJS evalI dp beta s)
    (D' : DynamicProgram nm N adm' minimize' transition felicity' val' evalIJS evalI dp beta s)
    (hadm : ∀ i < nm, ∀ n < N, ∀ y, adm i n y → adm' i n y)
    (hfel : ∀ i < nm, ∀ n < N, ∀ y, adm i n y → felicity (dp.node i) (s n) y ≤ felicity' (dp.node i) (s n) y)
    (nx : ℕ) (vcal vcal' : Table K) (tol tol' : K) (maxit maxit' : ℕ) (x0 x0' : Table K)
    (hx0 : ∀ i < nm, ∀ n < N, adm i n (x0 i n)) (hx0' : ∀ i < nm, ∀ n < N, adm' i n (x0' i n))
    (r r' : VIResult (Table K) (Table K × Table K) K)
    (h : valueIterationFull nm N nx minimize transition felicity val evalX evalIJS evalI dp beta s vcal tol maxit
      x0 = .ok r)
    (h' : valueIterationFull nm N nx minimize' transition felicity' val' evalX evalIJS evalI
      dp beta s vcal' tol' maxit' x0' = .ok r')
    (vstar vstar' : Table K) (hv : BellmanSolution nm N adm (lookahead transition felicity evalI dp beta s) vstar)
    (hv' : BellmanSolution nm N adm' (lookahead transition felicity' evalI dp beta s) vstar') :
    ∀ i < nm, ∀ n < N, r.values.1 i n 0 ≤ r'.values.1 i n 0 + beta / (1 - beta) * (r.v_err + r'.v_err) := by
  intro i hi n hn
  have h1 := (abs_le.1 ((C108_a_posteriori D nx vcal tol maxit x0 hx0 r h vstar hv).2.1 i hi n hn)).2
  have h2 := (abs_le.1 ((C108_a_posteriori D' nx vcal' tol' maxit' x0' hx0' r' h' vstar' hv').2.1 i hi n hn)).1
  have h3 := C148_more_choices D hadm hfel vstar vstar' hv hv' i hi n hn
  rw [mul_add]
  linarith

end vi

/-! ### Absolute tolerances -/

/-- **C148, small utilities.**  The tolerance of `evaluate_policy` is compared with the values in whatever units they
have.  Utility is `1`, the discount factor one half, and the initial value `0`: with tolerance `1e-8` the value found is
within `1e-8` of the true one, `2`.  With utility `1e-9` the value found is the initial one, `0`, and the error reported is
within the tolerance. -/
theorem C148_tolerance_fails :
    let dp : DProc ℚ := ⟨1, fun _ => 1, fun _ _ => 0, fun _ _ _ => 0, fun _ _ => 1⟩
    let dist := fun u v : Table ℚ => tableMax 1 1 1 fun i n k => u i n k - v i n k
    let run := fun u : ℚ => evaluatePolicy (fun v => updateValue (fun _ _ _ _ _ _ _ V _ => u + 1 / 2 * V 0) (fun _ s _ _ => s)
      (fun _ _ => 0) (fun _ _ _ => 0) v (fun _ _ _ _ => 0) (fun _ _ _ _ => v 0 0 0) dp) dist (1 / 10 ^ 8) 2000
      (fun _ _ _ => 0) none
    (∃ v, (run 1).solution = some v ∧ |v 0 0 0 - 2| ≤ 2 / 10 ^ 8) ∧
    (run (1 / 10 ^ 9)).iterations = 1 ∧ (run (1 / 10 ^ 9)).error ≤ 1 / 10 ^ 8 ∧
    ∃ v, (run (1 / 10 ^ 9)).solution = some v ∧ v 0 0 0 = 0 := by
  intro dp dist run
  have h1 : ((run 1).solution.map fun v => decide (|v 0 0 0 - 2| ≤ 2 / 10 ^ 8)) = some true := by decide +kernel
  have h2 : ((run (1 / 10 ^ 9)).solution.map fun v => v 0 0 0) = some 0 := by decide +kernel
  obtain ⟨v, hv, e⟩ := Option.map_eq_some_iff.1 h1
  refine ⟨⟨v, hv, of_decide_eq_true e⟩, by decide +kernel, by decide +kernel, Option.map_eq_some_iff.1 h2⟩

/-! ### Example -/

private def uexDp : DProc ℚ := ⟨1, fun _ => 1, fun _ _ => 0, fun _ _ _ => 0, fun _ _ => 1⟩

private def uexVal (a c : ℚ) : (m s x v M S X V : ℕ → ℚ) → ℕ → ℚ := fun _ s _ _ _ _ _ V _ => a * s 0 + c + 1 / 2 * V 0

private def uexEval (v : Table ℚ) (_ _ : ℕ) (S : ℕ → ℚ) (_ : ℕ) : ℚ := (1 - S 0) * v 0 0 0 + S 0 * v 0 1 0

/-- Two grid points `0` and `1`; the state moves to `1 / 4` whatever it is; utility is the state, or twice the state plus
three; the discount factor is one half and interpolation is linear. -/
private theorem uex (a c : ℚ) : DiscountedValue (nm := 1) (N := 2) (c := 0) (uexVal a c) (fun _ _ _ _ _ => 1 / 4)
    (fun n _ => (n : ℚ)) (fun _ _ _ => 0) (fun _ _ _ _ => 0) uexEval uexDp (1 / 2) 1
    (fun _ s _ _ _ _ => a * s 0 + c) (fun _ _ _ b => if b.2 = 0 then 3 / 4 else 1 / 4) := by
  refine ⟨by norm_num, by norm_num, by norm_num, fun _ _ _ _ => by simp [uexDp], fun _ _ => by simp [uexDp], ?_, ?_⟩
  · intro m s x v M S X V
    rfl
  · intro i hi n hn j hj
    refine ⟨?_, ?_, fun v => ?_⟩
    · rw [Fintype.sum_prod_type]
      simp [Fin.sum_univ_succ]
      norm_num [abs_of_pos]
    · rw [Fintype.sum_prod_type]
      simp [Fin.sum_univ_succ]
      norm_num
    · rw [Fintype.sum_prod_type]
      simp [Fin.sum_univ_succ, uexEval]
      norm_num

example :
    DiscountedValue (nm := 1) (N := 2) (c := 0) (uexVal 1 0) (fun _ _ _ _ _ => 1 / 4)
      (fun n _ => (n : ℚ)) (fun _ _ _ => 0) (fun _ _ _ _ => 0) uexEval uexDp (1 / 2) 1
      (fun _ s _ _ _ _ => 1 * s 0 + 0) (fun _ _ _ b => if b.2 = 0 then 3 / 4 else 1 / 4) ∧
    DiscountedValue (nm := 1) (N := 2) (c := 0) (uexVal 2 3) (fun _ _ _ _ _ => 1 / 4)
      (fun n _ => (n : ℚ)) (fun _ _ _ => 0) (fun _ _ _ _ => 0) uexEval uexDp (1 / 2) 1
      (fun m s x M S X => 2 * (1 * s 0 + 0) + 3) (fun _ _ _ b => if b.2 = 0 then 3 / 4 else 1 / 4) :=
  ⟨uex 1 0, by simpa using uex 2 3⟩

/-- The assumptions of `C148_value_iteration`: linear interpolation on two points, and an optimiser that compares the two
ends of an interval. -/
example :
    (∀ (v v' : Table ℚ) (b : ℚ), (∀ i < 1, ∀ n < 2, v' i n 0 = v i n 0 + b) →
      (∀ j S, uexEval v' 0 j S 0 = uexEval v 0 j S 0 + b) ∧ ∀ i j S, uexEval v' i j S 0 = uexEval v i j S 0 + b) ∧
    ∀ (f : (ℕ → ℚ) → ℚ) (b : ℚ),
      (if f (fun _ => 0) + b ≤ f (fun _ => 1) + b then (fun _ => 0 : ℕ → ℚ) else fun _ => 1)
        = if f (fun _ => 0) ≤ f (fun _ => 1) then fun _ => 0 else fun _ => 1 := by
  refine ⟨fun v v' b h => ?_, fun f b => by simp⟩
  have h0 := h 0 (by norm_num) 0 (by norm_num)
  have h1 := h 0 (by norm_num) 1 (by norm_num)
  constructor
  · intro j S
    simp only [uexEval, h0, h1]
    ring
  · intro i j S
    simp only [uexEval, h0, h1]
    ring

end Dolo
