import Mathlib.Topology.MetricSpace.Pseudo.Defs
import Mathlib.Algebra.Order.Ring.GeomSum
import Mathlib.Algebra.Field.GeomSum
import Mathlib.Tactic.Linarith
import Mathlib.Tactic.FieldSimp
import Mathlib.Tactic.NormNum
import Verif.Props.Simulation
import Verif.Props.LongRun

/-!
# C159: errors of rules carry over in proportion to simulations and to ergodic distributions
-/

set_option linter.unusedSectionVars false

namespace Dolo

/-! ### Simulations -/

section simulations
variable {M S X : Type} [PseudoMetricSpace S] [PseudoMetricSpace X]

/-- How much two models and their rules differ on the states `D`: the next state, under the first rule, moves by at most
`ρ` times the change of the state; a change of controls moves it by at most `Lx` times the change; the rules differ by at
most `εx` and the transition functions by at most `εg`. -/
structure RuleError (g g' : M → S → X → M → S) (dr dr' : M → S → X) (D : S → Prop) (ρ Lx εx εg : ℝ) : Prop where
  states : ∀ m0 m s s', D s → D s' → dist (g m0 s (dr m s) m) (g m0 s' (dr m s') m) ≤ ρ * dist s s'
  controls : ∀ m0 m s x x', D s → dist (g m0 s x m) (g m0 s x' m) ≤ Lx * dist x x'
  rules : ∀ m s, D s → dist (dr m s) (dr' m s) ≤ εx
  transitions : ∀ m0 m s x, D s → dist (g m0 s x m) (g' m0 s x m) ≤ εg

private theorem simLoop_dist {g g' : M → S → X → M → S} {dr dr' : M → S → X} {D : S → Prop} {ρ Lx εx εg : ℝ}
    (h : RuleError g g' dr dr' D ρ Lx εx εg) (hρ : 0 ≤ ρ) (hL : 0 ≤ Lx) (t : ℕ) :
    ∀ (m0 : M) (s s' : S) (ms : List M) (p p' : S × X),
      (∀ q ∈ simLoop g dr m0 s ms, D q.1) → (∀ q ∈ simLoop g' dr' m0 s' ms, D q.1) →
      (simLoop g dr m0 s ms)[t]? = some p → (simLoop g' dr' m0 s' ms)[t]? = some p' →
      dist p.1 p'.1 ≤ ρ ^ t * dist s s' + (Lx * εx + εg) * ∑ k ∈ Finset.range t, ρ ^ k := by
  induction t with
  | zero =>
    intro m0 s s' ms p p' _ _ hp hp'
    cases ms with
    | nil => simp [simLoop] at hp
    | cons m r =>
      simp only [simLoop, List.getElem?_cons_zero, Option.some.injEq] at hp hp'
      subst hp hp'
      simp
  | succ t ih =>
    intro m0 s s' ms p p' hD hD' hp hp'
    cases ms with
    | nil => simp [simLoop] at hp
    | cons m r =>
      simp only [simLoop, List.getElem?_cons_succ] at hp hp'
      simp only [simLoop, List.mem_cons, forall_eq_or_imp] at hD hD'
      have h1 := ih m (g m0 s (dr m s) m) (g' m0 s' (dr' m s') m) r p p' hD.2 hD'.2 hp hp'
      have h2 : dist (g m0 s (dr m s) m) (g' m0 s' (dr' m s') m) ≤ ρ * dist s s' + (Lx * εx + εg) := by
        have a1 := h.states m0 m s s' hD.1 hD'.1
        have a2 := h.controls m0 m s' (dr m s') (dr' m s') hD'.1
        have a3 := mul_le_mul_of_nonneg_left (h.rules m s' hD'.1) hL
        have a4 := h.transitions m0 m s' (dr' m s') hD'.1
        have t1 := dist_triangle (g m0 s (dr m s) m) (g m0 s' (dr m s') m) (g' m0 s' (dr' m s') m)
        have t2 := dist_triangle (g m0 s' (dr m s') m) (g m0 s' (dr' m s') m) (g' m0 s' (dr' m s') m)
        linarith
      have h3 := mul_le_mul_of_nonneg_left h2 (pow_nonneg hρ t)
      rw [Finset.sum_range_succ, pow_succ]
      linarith

/-- **C159, simulations.**  Simulate with the same exogenous path, from initial states at a distance `dist s0 s0'`.  At
date `t` the states differ by at most `ρ ^ t * dist s0 s0' + (Lx εx + εg) (1 + ρ + ... + ρ ^ (t - 1))`. -/
theorem C159_simulations {g g' : M → S → X → M → S} {dr dr' : M → S → X} {D : S → Prop} {ρ Lx εx εg : ℝ}
    (h : RuleError g g' dr dr' D ρ Lx εx εg) (hρ : 0 ≤ ρ) (hL : 0 ≤ Lx) (s0 s0' : S) (T : ℕ) (driving : List M)
    (sim sim' : List (S × X)) (hs : simulateDriven g dr s0 T driving = .ok sim)
    (hs' : simulateDriven g' dr' s0' T driving = .ok sim') (hD : ∀ p ∈ sim, D p.1) (hD' : ∀ p ∈ sim', D p.1)
    (t : ℕ) (p p' : S × X) (hp : sim[t]? = some p) (hp' : sim'[t]? = some p') :
    dist p.1 p'.1 ≤ ρ ^ t * dist s0 s0' + (Lx * εx + εg) * ∑ k ∈ Finset.range t, ρ ^ k := by
  unfold simulateDriven at hs hs'
  split at hs
  · cases hs
  · rename_i hT
    rw [if_neg hT] at hs'
    cases driving with
    | nil => cases hs
    | cons m0 r =>
      rcases hr : firstRows T (m0 :: r) with e | ms
      · simp [hr, bind, Except.bind] at hs
      · simp only [hr, bind, Except.bind, pure, Except.pure, Except.ok.injEq] at hs hs'
        subst hs hs'
        exact simLoop_dist h hρ hL t m0 s0 s0' ms p p' hD hD' hp hp'

/-- **C159, simulations of drawn processes.** -/
theorem C159_drawn {g g' : M → S → X → M → S} {dr dr' : M → S → X} {D : S → Prop} {ρ Lx εx εg : ℝ}
    (h : RuleError g g' dr dr' D ρ Lx εx εg) (hρ : 0 ≤ ρ) (hL : 0 ≤ Lx) (s0 s0' : S) (m0 : M) (T : ℕ) (ms : List M)
    (sim sim' : List (S × X)) (hs : simulateProcess g dr s0 m0 T ms = .ok sim)
    (hs' : simulateProcess g' dr' s0' m0 T ms = .ok sim') (hD : ∀ p ∈ sim, D p.1) (hD' : ∀ p ∈ sim', D p.1)
    (t : ℕ) (p p' : S × X) (hp : sim[t]? = some p) (hp' : sim'[t]? = some p') :
    dist p.1 p'.1 ≤ ρ ^ t * dist s0 s0' + (Lx * εx + εg) * ∑ k ∈ Finset.range t, ρ ^ k := by
  unfold simulateProcess at hs hs'
  split at hs
  · cases hs
  · rename_i hT
    rw [if_neg hT] at hs'
    rcases hr : firstRows T ms with e | ms'
    · simp [hr, bind, Except.bind] at hs
    · simp only [hr, bind, Except.bind, pure, Except.pure, Except.ok.injEq] at hs hs'
      subst hs hs'
      exact simLoop_dist h hρ hL t m0 s0 s0' ms' p p' hD hD' hp hp'

/-- **C159, stable models.**  When `ρ < 1` the effect of the initial states dies out and errors do not accumulate: at every
date of a simulation of any length the states differ by at most `ρ ^ t * dist s0 s0' + (Lx εx + εg) / (1 - ρ)`. -/
theorem C159_stable {g g' : M → S → X → M → S} {dr dr' : M → S → X} {D : S → Prop} {ρ Lx εx εg : ℝ}
    (h : RuleError g g' dr dr' D ρ Lx εx εg) (hρ : 0 ≤ ρ) (hρ1 : ρ < 1) (hL : 0 ≤ Lx) (hε : 0 ≤ Lx * εx + εg) (s0 s0' : S)
    (T : ℕ) (driving : List M)
    (sim sim' : List (S × X)) (hs : simulateDriven g dr s0 T driving = .ok sim)
    (hs' : simulateDriven g' dr' s0' T driving = .ok sim') (hD : ∀ p ∈ sim, D p.1) (hD' : ∀ p ∈ sim', D p.1)
    (t : ℕ) (p p' : S × X) (hp : sim[t]? = some p) (hp' : sim'[t]? = some p') :
    dist p.1 p'.1 ≤ ρ ^ t * dist s0 s0' + (Lx * εx + εg) / (1 - ρ) := by
  refine (C159_simulations h hρ hL s0 s0' T driving sim sim' hs hs' hD hD' t p p' hp hp').trans ?_
  have hg : ∑ k ∈ Finset.range t, ρ ^ k ≤ 1 / (1 - ρ) := by
    have e := geom_sum_mul_neg ρ t
    have hpos : 0 < 1 - ρ := by linarith
    rw [le_div_iff₀ hpos, e]
    linarith [pow_nonneg hρ t]
  have := mul_le_mul_of_nonneg_left hg hε
  rw [mul_one_div] at this
  linarith

end simulations

/-! ### Ergodic distributions -/

section distributions
variable {K : Type} [Field K] [LinearOrder K] [IsStrictOrderedRing K]
variable {ι : Type} [Fintype ι] [DecidableEq ι]

/-- Within `t` periods the chain forgets where it started, up to `τ`: the distributions reached from two states differ by
at most `2 τ` in sum. -/
def Forgets (P : ι → ι → K) (t : ℕ) (τ : K) : Prop :=
  ∀ i k, ∑ j, |evolve P (fun q => if q = i then 1 else 0) t j - evolve P (fun q => if q = k then 1 else 0) t j| ≤ 2 * τ

private theorem forgets_l1 {P : ι → ι → K} {t : ℕ} {τ : K} (h : Forgets P t τ) (d : ι → K) (hd : ∑ i, d i = 0) :
    ∑ j, |evolve P d t j| ≤ τ * ∑ i, |d i| := by
  set m := ∑ i, max (d i) 0 with hm
  have hm2 : ∑ i, max (-d i) 0 = m := by
    have : ∑ i, (max (d i) 0 - max (-d i) 0) = ∑ i, d i := Finset.sum_congr rfl fun i _ => by
      rcases le_total 0 (d i) with h | h
      · rw [max_eq_left h, max_eq_right (by linarith)]; ring
      · rw [max_eq_right h, max_eq_left (by linarith)]; ring
    rw [Finset.sum_sub_distrib, hd] at this
    linarith
  have hab : ∑ i, |d i| = 2 * m := by
    have : ∀ i, |d i| = max (d i) 0 + max (-d i) 0 := fun i => by
      rcases le_total 0 (d i) with h | h
      · rw [abs_of_nonneg h, max_eq_left h, max_eq_right (by linarith)]; ring
      · rw [abs_of_nonpos h, max_eq_right h, max_eq_left (by linarith)]; ring
    rw [Finset.sum_congr rfl fun i _ => this i, Finset.sum_add_distrib, hm2]
    ring
  have hm0 : 0 ≤ m := Finset.sum_nonneg fun i _ => le_max_right _ _
  set e := fun i j => evolve P (fun q => if q = i then 1 else 0) t j with he
  have key : ∀ j, m * evolve P d t j = ∑ i, ∑ k, max (d i) 0 * max (-d k) 0 * (e i j - e k j) := by
    intro j
    have s1 : ∑ i, ∑ k, max (d i) 0 * max (-d k) 0 * (e i j - e k j)
        = (∑ i, max (d i) 0 * e i j) * ∑ k, max (-d k) 0 - (∑ i, max (d i) 0) * ∑ k, max (-d k) 0 * e k j := by
      rw [Finset.sum_mul_sum, Finset.sum_mul_sum, ← Finset.sum_sub_distrib]
      refine Finset.sum_congr rfl fun i _ => ?_
      rw [← Finset.sum_sub_distrib]
      exact Finset.sum_congr rfl fun k _ => by ring
    rw [s1, hm2, ← hm, evolve_mix P d t j]
    have s2 : ∑ i, d i * e i j = ∑ i, max (d i) 0 * e i j - ∑ k, max (-d k) 0 * e k j := by
      rw [← Finset.sum_sub_distrib]
      refine Finset.sum_congr rfl fun i _ => ?_
      rcases le_total 0 (d i) with h | h
      · rw [max_eq_left h, max_eq_right (by linarith)]; ring
      · rw [max_eq_right h, max_eq_left (by linarith)]; ring
    rw [s2]
    ring
  have hmul : m * ∑ j, |evolve P d t j| ≤ m * (τ * ∑ i, |d i|) := by
    calc m * ∑ j, |evolve P d t j| = ∑ j, |∑ i, ∑ k, max (d i) 0 * max (-d k) 0 * (e i j - e k j)| := by
          rw [Finset.mul_sum]
          refine Finset.sum_congr rfl fun j _ => ?_
          rw [← key j, abs_mul, abs_of_nonneg hm0]
      _ ≤ ∑ j, ∑ i, ∑ k, max (d i) 0 * max (-d k) 0 * |e i j - e k j| := by
          refine Finset.sum_le_sum fun j _ => (Finset.abs_sum_le_sum_abs _ _).trans (Finset.sum_le_sum fun i _ =>
            (Finset.abs_sum_le_sum_abs _ _).trans (Finset.sum_le_sum fun k _ => ?_))
          rw [abs_mul, abs_of_nonneg (mul_nonneg (le_max_right _ _) (le_max_right _ _))]
      _ = ∑ i, ∑ k, max (d i) 0 * max (-d k) 0 * ∑ j, |e i j - e k j| := by
          rw [Finset.sum_comm]
          refine Finset.sum_congr rfl fun i _ => ?_
          rw [Finset.sum_comm]
          exact Finset.sum_congr rfl fun k _ => by rw [Finset.mul_sum]
      _ ≤ ∑ i, ∑ k, max (d i) 0 * max (-d k) 0 * (2 * τ) :=
          Finset.sum_le_sum fun i _ => Finset.sum_le_sum fun k _ =>
            mul_le_mul_of_nonneg_left (h i k) (mul_nonneg (le_max_right _ _) (le_max_right _ _))
      _ = m * (τ * ∑ i, |d i|) := by
          simp only [← Finset.sum_mul, ← Finset.mul_sum]
          rw [hm2, ← hm, hab]
          ring
  rcases hm0.eq_or_lt with h0 | h0
  · have hz : ∀ i, d i = 0 := by
      intro i
      have : ∑ i, |d i| = 0 := by rw [hab, ← h0, mul_zero]
      exact abs_eq_zero.1 ((Finset.sum_eq_zero_iff_of_nonneg fun i _ => abs_nonneg _).1 this i (Finset.mem_univ i))
    have : ∀ j, evolve P d t j = 0 := fun j => by
      rw [evolve_mix P d t j]
      exact Finset.sum_eq_zero fun i _ => by rw [hz i, zero_mul]
    rw [Finset.sum_congr rfl fun j _ => by rw [this j, abs_zero], Finset.sum_const_zero, hab, ← h0]
    simp
  · exact le_of_mul_le_mul_left hmul h0

private theorem evolve_change (P P' : ι → ι → K) (hP : ∀ i, ∑ j, P i j = 1) (hpos : ∀ i j, 0 ≤ P i j)
    (hP' : ∀ i, ∑ j, P' i j = 1) (hpos' : ∀ i j, 0 ≤ P' i j) (ε : K) (hε : ∀ i, ∑ j, |P' i j - P i j| ≤ ε)
    (nu : ι → K) (h0 : ∀ i, 0 ≤ nu i) (h1 : ∑ i, nu i = 1) (t : ℕ) :
    ∑ j, |evolve P' nu t j - evolve P nu t j| ≤ t * ε := by
  induction t with
  | zero => simp [evolve]
  | succ t ih =>
    have e : ∀ j, evolve P' nu (t + 1) j - evolve P nu (t + 1) j
        = ∑ i, evolve P' nu t i * (P' i j - P i j) + ∑ i, (evolve P' nu t i - evolve P nu t i) * P i j := by
      intro j
      simp only [evolve]
      rw [← Finset.sum_sub_distrib, ← Finset.sum_add_distrib]
      exact Finset.sum_congr rfl fun i _ => by ring
    have n0 := evolve_nonneg P' hpos' nu h0 t
    have s1 : ∑ i, evolve P' nu t i = 1 := by rw [evolve_sum P' hP', h1]
    calc ∑ j, |evolve P' nu (t + 1) j - evolve P nu (t + 1) j|
        ≤ ∑ j, (∑ i, evolve P' nu t i * |P' i j - P i j| + ∑ i, |evolve P' nu t i - evolve P nu t i| * P i j) := by
          refine Finset.sum_le_sum fun j _ => ?_
          rw [e j]
          refine (abs_add_le _ _).trans (add_le_add ?_ ?_)
          · refine (Finset.abs_sum_le_sum_abs _ _).trans (le_of_eq (Finset.sum_congr rfl fun i _ => ?_))
            rw [abs_mul, abs_of_nonneg (n0 i)]
          · refine (Finset.abs_sum_le_sum_abs _ _).trans (le_of_eq (Finset.sum_congr rfl fun i _ => ?_))
            rw [abs_mul, abs_of_nonneg (hpos i j)]
      _ = ∑ i, evolve P' nu t i * ∑ j, |P' i j - P i j| + ∑ i, |evolve P' nu t i - evolve P nu t i| * ∑ j, P i j := by
          rw [Finset.sum_add_distrib, Finset.sum_comm, Finset.sum_comm (f := fun j i => |_| * P i j)]
          simp only [Finset.mul_sum]
      _ ≤ ∑ i, evolve P' nu t i * ε + ∑ i, |evolve P' nu t i - evolve P nu t i| := by
          refine add_le_add (Finset.sum_le_sum fun i _ => mul_le_mul_of_nonneg_left (hε i) (n0 i)) (le_of_eq ?_)
          exact Finset.sum_congr rfl fun i _ => by rw [hP i, mul_one]
      _ ≤ ((t + 1 : ℕ) : K) * ε := by
          rw [← Finset.sum_mul, s1, one_mul]
          push_cast
          linarith

/-- **C159, distributions.**  Two transition matrices whose rows differ by at most `ε` in sum have ergodic distributions
that differ by at most `t ε / (1 - τ)` in sum, when the first chain forgets its starting point within `t` periods up to
`τ < 1`. -/
theorem C159_distributions (P P' : ι → ι → K) (hP : ∀ i, ∑ j, P i j = 1) (hpos : ∀ i j, 0 ≤ P i j)
    (hP' : ∀ i, ∑ j, P' i j = 1) (hpos' : ∀ i j, 0 ≤ P' i j) (ε : K) (hε : ∀ i, ∑ j, |P' i j - P i j| ≤ ε)
    (mu mu' : ι → K) (hmu : ∀ j, ∑ i, mu i * P i j = mu j) (hmu' : ∀ j, ∑ i, mu' i * P' i j = mu' j)
    (h1 : ∑ i, mu i = 1) (h1' : ∑ i, mu' i = 1) (h0' : ∀ i, 0 ≤ mu' i) (t : ℕ) (τ : K) (hτ : τ < 1) (hf : Forgets P t τ) :
    ∑ i, |mu' i - mu i| ≤ t * ε / (1 - τ) := by
  have hc := evolve_change P P' hP hpos hP' hpos' ε hε mu' h0' h1' t
  rw [evolve_invariant P' mu' hmu' t] at hc
  have hl := forgets_l1 hf (fun i => mu' i - mu i) (by rw [Finset.sum_sub_distrib, h1, h1', sub_self])
  have e : ∀ j, evolve P (fun i => mu' i - mu i) t j = evolve P mu' t j - mu j := fun j => by
    rw [evolve_linear, evolve_invariant P mu hmu t]
  rw [Finset.sum_congr rfl fun j _ => by rw [e j]] at hl
  have tri : ∑ i, |mu' i - mu i| ≤ ∑ i, |mu' i - evolve P mu' t i| + ∑ i, |evolve P mu' t i - mu i| := by
    rw [← Finset.sum_add_distrib]
    exact Finset.sum_le_sum fun i _ => abs_sub_le _ _ _
  rw [le_div_iff₀ (by linarith)]
  linarith

end distributions

/-! ### Ergodic distributions of models -/

section ergodic
variable {K : Type} [Field K] [LinearOrder K] [IsStrictOrderedRing K] [FloorRing K]

/-- A list of rows as a matrix. -/
def chainOf (N : ℕ) (pi : List (List K)) (a b : Fin N) : K := (pi.getD a.val []).getD b.val 0

private theorem hat_same_cell (q : ℕ) (x y : K) (h1 : (q : K) ≤ x) (h2 : x ≤ y) (h3 : y ≤ q + 1) (k : ℕ) :
    |hat (x - k) - hat (y - k)| = (y - x) * ((if k = q then 1 else 0) + if k = q + 1 then 1 else 0) := by
  unfold hat
  rcases lt_trichotomy k q with h | h | h
  · have : (k : K) + 1 ≤ q := by exact_mod_cast (by omega : k + 1 ≤ q)
    rw [abs_of_nonneg (by linarith : 0 ≤ x - k), abs_of_nonneg (by linarith : 0 ≤ y - k), max_eq_left (by linarith),
      max_eq_left (by linarith), if_neg (by omega), if_neg (by omega)]
    simp
  · subst h
    rw [abs_of_nonneg (by linarith : 0 ≤ x - k), abs_of_nonneg (by linarith : 0 ≤ y - k), max_eq_right (by linarith),
      max_eq_right (by linarith), if_pos rfl, if_neg (by omega), abs_of_nonneg (by linarith)]
    ring
  · by_cases hk : k = q + 1
    · subst hk
      push_cast
      rw [abs_of_nonpos (by linarith : x - ((q : K) + 1) ≤ 0), abs_of_nonpos (by linarith : y - ((q : K) + 1) ≤ 0),
        max_eq_right (by linarith), max_eq_right (by linarith), if_neg (by omega), if_pos rfl, abs_of_nonpos (by linarith)]
      ring
    · have : (q : K) + 2 ≤ k := by exact_mod_cast (by omega : q + 2 ≤ k)
      rw [abs_of_nonpos (by linarith : x - k ≤ 0), abs_of_nonpos (by linarith : y - k ≤ 0), max_eq_left (by linarith),
        max_eq_left (by linarith), if_neg (by omega), if_neg hk]
      simp

private theorem hat_variation (m : ℕ) : ∀ x y : K, 0 ≤ x → x ≤ y → y ≤ m → ∀ N : ℕ,
    ∑ k ∈ Finset.range N, |hat (x - k) - hat (y - k)| ≤ 2 * (y - x) := by
  have ind : ∀ N q : ℕ, ∑ k ∈ Finset.range N, (if k = q then (1 : K) else 0) ≤ 1 := by
    intro N q
    rw [Finset.sum_ite_eq']
    split_ifs
    · exact le_refl _
    · exact zero_le_one
  have cell : ∀ (q : ℕ) (x y : K), (q : K) ≤ x → x ≤ y → y ≤ q + 1 → ∀ N : ℕ,
      ∑ k ∈ Finset.range N, |hat (x - k) - hat (y - k)| ≤ 2 * (y - x) := by
    intro q x y h1 h2 h3 N
    rw [Finset.sum_congr rfl fun k _ => hat_same_cell q x y h1 h2 h3 k, ← Finset.mul_sum, Finset.sum_add_distrib, mul_comm 2]
    exact mul_le_mul_of_nonneg_left (by linarith [ind N q, ind N (q + 1)]) (by linarith)
  induction m with
  | zero =>
    intro x y h0 h1 h2 N
    rw [Nat.cast_zero] at h2
    have e : x = y := by linarith
    subst e
    simp
  | succ m ih =>
    intro x y h0 h1 h2 N
    push_cast at h2
    rcases le_total y m with hy | hy
    · exact ih x y h0 h1 hy N
    · rcases le_total (m : K) x with hx | hx
      · exact cell m x y hx h1 h2 N
      · have a1 := ih x m h0 hx le_rfl N
        have a2 := cell m m y le_rfl hy h2 N
        have : ∑ k ∈ Finset.range N, |hat (x - k) - hat (y - k)|
            ≤ ∑ k ∈ Finset.range N, |hat (x - k) - hat ((m : K) - k)| + ∑ k ∈ Finset.range N, |hat ((m : K) - k) - hat (y - k)| := by
          rw [← Finset.sum_add_distrib]
          exact Finset.sum_le_sum fun k _ => abs_sub_le _ _ _
        linarith

private theorem hat_total (m : ℕ) : ∀ y : K, 0 ≤ y → y ≤ m → ∑ k ∈ Finset.range (m + 1), hat (y - k) = 1 := by
  induction m with
  | zero =>
    intro y h0 h1
    rw [Nat.cast_zero] at h1
    have e : y = 0 := by linarith
    subst e
    simp [hat]
  | succ m ih =>
    intro y h0 h1
    push_cast at h1
    rw [Finset.sum_range_succ]
    rcases le_total y m with hy | hy
    · rw [ih y h0 hy]
      push_cast
      unfold hat
      rw [abs_of_nonpos (by linarith), max_eq_left (by linarith), add_zero]
    · rw [Finset.sum_range_succ]
      have z : ∑ k ∈ Finset.range m, hat (y - k) = 0 := Finset.sum_eq_zero fun k hk => by
        have : (k : K) + 1 ≤ m := by exact_mod_cast Finset.mem_range.1 hk
        unfold hat
        rw [abs_of_nonneg (by linarith), max_eq_left (by linarith)]
      rw [z]
      push_cast
      unfold hat
      rw [abs_of_nonneg (by linarith : 0 ≤ y - m), abs_of_nonpos (by linarith : y - ((m : K) + 1) ≤ 0),
        max_eq_right (by linarith), max_eq_right (by linarith)]
      ring

/-- The weight of node `k` of an axis. -/
private def axisW (a b : K) (n : ℕ) (s : K) (k : ℕ) : K :=
  hat ((min (max s a) b - spaced a b n k) / ((b - a) / ((n : K) - 1)))

private theorem axisW_pos (a b : K) (n : ℕ) (hab : a < b) (hn : 2 ≤ n) (s : K) :
    ∃ y, 0 ≤ y ∧ y ≤ ((n - 1 : ℕ) : K) ∧ y = (min (max s a) b - a) / ((b - a) / ((n : K) - 1)) ∧
      ∀ k, axisW a b n s k = hat (y - k) := by
  have hn1 : (0 : K) < (n : K) - 1 := by
    have : (1 : K) < n := by exact_mod_cast hn
    linarith
  have hh : 0 < (b - a) / ((n : K) - 1) := div_pos (by linarith) hn1
  have hc1 : a ≤ min (max s a) b := le_min (le_max_right _ _) hab.le
  have hc2 : min (max s a) b ≤ b := min_le_right _ _
  refine ⟨_, div_nonneg (by linarith) hh.le, ?_, rfl, fun k => ?_⟩
  · rw [Nat.cast_sub (by omega), Nat.cast_one, div_le_iff₀ hh, mul_div_cancel₀ _ hn1.ne']
    linarith
  · unfold axisW spaced
    congr 1
    rw [← sub_sub, sub_div, mul_div_assoc, div_self hh.ne', mul_one]

private theorem axisW_sum (a b : K) (n : ℕ) (hab : a < b) (hn : 2 ≤ n) (s : K) :
    ∑ k ∈ Finset.range n, axisW a b n s k = 1 := by
  obtain ⟨y, h0, h1, -, hk⟩ := axisW_pos a b n hab hn s
  rw [Finset.sum_congr rfl fun k _ => hk k]
  have := hat_total (n - 1) y h0 h1
  rwa [Nat.sub_add_cancel (by omega)] at this

private theorem axisW_nonneg (a b : K) (n : ℕ) (s : K) (k : ℕ) : 0 ≤ axisW a b n s k := le_max_left _ _

private theorem axisW_var (a b : K) (n : ℕ) (hab : a < b) (hn : 2 ≤ n) (s s' δ : K)
    (hδ : |s' - s| ≤ δ * ((b - a) / ((n : K) - 1))) :
    ∑ k ∈ Finset.range n, |axisW a b n s' k - axisW a b n s k| ≤ 2 * δ := by
  obtain ⟨y, h0, h1, e, hk⟩ := axisW_pos a b n hab hn s
  obtain ⟨y', h0', h1', e', hk'⟩ := axisW_pos a b n hab hn s'
  have hn1 : (0 : K) < (n : K) - 1 := by
    have : (1 : K) < n := by exact_mod_cast hn
    linarith
  have hh : 0 < (b - a) / ((n : K) - 1) := div_pos (by linarith) hn1
  have hy : |y' - y| ≤ δ := by
    rw [e, e', ← sub_div, abs_div, abs_of_pos hh, div_le_iff₀ hh]
    refine le_trans ?_ hδ
    rw [sub_sub_sub_cancel_right]
    have a1 := abs_min_sub_min_le_max (max s' a) b (max s a) b
    have a2 := abs_max_sub_max_le_max s' a s a
    rw [sub_self, abs_zero, max_eq_left (abs_nonneg (max s' a - max s a))] at a1
    rw [sub_self, abs_zero, max_eq_left (abs_nonneg (s' - s))] at a2
    exact a1.trans a2
  rw [Finset.sum_congr rfl fun k _ => by rw [hk k, hk' k]]
  rcases le_total y' y with h | h
  · have := hat_variation (n - 1) y' y h0' h h1 n
    rw [abs_of_nonpos (by linarith)] at hy
    linarith
  · have := hat_variation (n - 1) y y' h0 h h1' n
    rw [abs_of_nonneg (by linarith)] at hy
    have e2 : ∑ k ∈ Finset.range n, |hat (y - k) - hat (y' - k)| = ∑ k ∈ Finset.range n, |hat (y' - k) - hat (y - k)| :=
      Finset.sum_congr rfl fun k _ => abs_sub_comm _ _
    linarith

private theorem node_var (mn mx : List K) (n : List ℕ) (grid : UniformGrid K)
    (hgrid : UniformGrid.mk' mn mx n = .ok grid) (h1 : mn.length = mx.length) (h2 : mn.length = n.length)
    (hd : n.length = 1 ∨ n.length = 2) (hn : ∀ m ∈ n, 2 ≤ m) (hlt : List.Forall₂ (· < ·) mn mx) (S S' : List K) (δ : ℕ → K)
    (hδ : ∀ d < n.length, |S'.getD d 0 - S.getD d 0| ≤ δ d * ((mx.getD d 0 - mn.getD d 0) / ((n.getD d 0 : K) - 1))) :
    ∑ l ∈ Finset.range n.prod,
      |nodeWeight mn mx n (grid.nodes.getD l []) S' - nodeWeight mn mx n (grid.nodes.getD l []) S|
        ≤ 2 * ∑ d ∈ Finset.range n.length, δ d := by
  have hne : n ≠ [] := by
    rintro rfl
    simp at hd
  obtain ⟨g', hg', hgmn, hgmx, hgn, hlen, hnodes⟩ := C02_uniform_grid_nodes mn mx n hne h1 h2 hn
  rw [hgrid] at hg'
  cases hg'
  rcases hd with hd | hd
  · obtain ⟨n0, rfl⟩ := List.length_eq_one_iff.mp hd
    obtain ⟨a, rfl⟩ := List.length_eq_one_iff.mp (h2.trans hd)
    obtain ⟨b, rfl⟩ := List.length_eq_one_iff.mp (h1.symm.trans (h2.trans hd))
    have hn0 : 2 ≤ n0 := hn n0 (by simp)
    have hab : a < b := by simpa using hlt
    have hw : ∀ l ∈ Finset.range n0, ∀ S : List K,
        nodeWeight [a] [b] [n0] (grid.nodes.getD l []) S = axisW a b n0 (S.getD 0 0) l := by
      intro l hl S
      obtain ⟨row', hr', -, hrow'⟩ := hnodes [l] (.cons (Finset.mem_range.1 hl) .nil)
      have hs := hrow' 0 a b n0 l rfl rfl rfl rfl
      have ef : flatIndex [n0] [l] = l := by simp [flatIndex]
      rw [ef] at hr'
      have hnode : (grid.nodes.getD l []).getD 0 0 = spaced a b n0 l := by
        simp only [List.getD_eq_getElem?_getD, hr', hs, Option.getD_some]
      unfold axisW
      rw [← hnode]
      simp [nodeWeight, List.range_succ]
    have := axisW_var a b n0 hab hn0 (S.getD 0 0) (S'.getD 0 0) (δ 0) (hδ 0 (by simp))
    rw [List.prod_singleton, Finset.sum_congr rfl fun l hl => by rw [hw l hl S, hw l hl S']]
    simpa using this
  · obtain ⟨n0, n1, rfl⟩ := List.length_eq_two.mp hd
    obtain ⟨a0, a1, rfl⟩ := List.length_eq_two.mp (h2.trans hd)
    obtain ⟨b0, b1, rfl⟩ := List.length_eq_two.mp (h1.symm.trans (h2.trans hd))
    have hn0 : 2 ≤ n0 := hn n0 (by simp)
    have hn1 : 2 ≤ n1 := hn n1 (by simp)
    have hp : [n0, n1].prod = n0 * n1 := by simp
    have hab : a0 < b0 ∧ a1 < b1 := by simpa using hlt
    have hw : ∀ i ∈ Finset.range n0, ∀ j ∈ Finset.range n1, ∀ S : List K,
        nodeWeight [a0, a1] [b0, b1] [n0, n1] (grid.nodes.getD (i * n1 + j) []) S
          = axisW a0 b0 n0 (S.getD 0 0) i * axisW a1 b1 n1 (S.getD 1 0) j := by
      intro i hi j hj S
      obtain ⟨row', hr', -, hrow'⟩ := hnodes [i, j] (.cons (Finset.mem_range.1 hi) (.cons (Finset.mem_range.1 hj) .nil))
      have hs0 := hrow' 0 a0 b0 n0 i rfl rfl rfl rfl
      have hs1 := hrow' 1 a1 b1 n1 j rfl rfl rfl rfl
      have ef : flatIndex [n0, n1] [i, j] = i * n1 + j := by simp [flatIndex]
      rw [ef] at hr'
      have hnode0 : (grid.nodes.getD (i * n1 + j) []).getD 0 0 = spaced a0 b0 n0 i := by
        simp only [List.getD_eq_getElem?_getD, hr', hs0, Option.getD_some]
      have hnode1 : (grid.nodes.getD (i * n1 + j) []).getD 1 0 = spaced a1 b1 n1 j := by
        simp only [List.getD_eq_getElem?_getD, hr', hs1, Option.getD_some]
      unfold axisW
      rw [← hnode0, ← hnode1]
      simp [nodeWeight, List.range_succ]
    have v0 := axisW_var a0 b0 n0 hab.1 hn0 (S.getD 0 0) (S'.getD 0 0) (δ 0) (hδ 0 (by simp))
    have v1 := axisW_var a1 b1 n1 hab.2 hn1 (S.getD 1 0) (S'.getD 1 0) (δ 1) (hδ 1 (by simp))
    have t1 := axisW_sum a1 b1 n1 hab.2 hn1 (S.getD 1 0)
    have t0 := axisW_sum a0 b0 n0 hab.1 hn0 (S'.getD 0 0)
    rw [hp, sum_range_mul']
    calc ∑ i ∈ Finset.range n0, ∑ j ∈ Finset.range n1,
          |nodeWeight [a0, a1] [b0, b1] [n0, n1] (grid.nodes.getD (i * n1 + j) []) S'
            - nodeWeight [a0, a1] [b0, b1] [n0, n1] (grid.nodes.getD (i * n1 + j) []) S|
        ≤ ∑ i ∈ Finset.range n0, ∑ j ∈ Finset.range n1,
          (|axisW a0 b0 n0 (S'.getD 0 0) i - axisW a0 b0 n0 (S.getD 0 0) i| * axisW a1 b1 n1 (S.getD 1 0) j
            + axisW a0 b0 n0 (S'.getD 0 0) i * |axisW a1 b1 n1 (S'.getD 1 0) j - axisW a1 b1 n1 (S.getD 1 0) j|) := by
          refine Finset.sum_le_sum fun i hi => Finset.sum_le_sum fun j hj => ?_
          rw [hw i hi j hj S, hw i hi j hj S']
          have e : axisW a0 b0 n0 (S'.getD 0 0) i * axisW a1 b1 n1 (S'.getD 1 0) j
              - axisW a0 b0 n0 (S.getD 0 0) i * axisW a1 b1 n1 (S.getD 1 0) j
              = (axisW a0 b0 n0 (S'.getD 0 0) i - axisW a0 b0 n0 (S.getD 0 0) i) * axisW a1 b1 n1 (S.getD 1 0) j
                + axisW a0 b0 n0 (S'.getD 0 0) i * (axisW a1 b1 n1 (S'.getD 1 0) j - axisW a1 b1 n1 (S.getD 1 0) j) := by ring
          rw [e]
          refine (abs_add_le _ _).trans (le_of_eq ?_)
          rw [abs_mul, abs_mul, abs_of_nonneg (axisW_nonneg a1 b1 n1 (S.getD 1 0) j),
            abs_of_nonneg (axisW_nonneg a0 b0 n0 (S'.getD 0 0) i)]
      _ = ∑ i ∈ Finset.range n0, |axisW a0 b0 n0 (S'.getD 0 0) i - axisW a0 b0 n0 (S.getD 0 0) i|
            + ∑ j ∈ Finset.range n1, |axisW a1 b1 n1 (S'.getD 1 0) j - axisW a1 b1 n1 (S.getD 1 0) j| := by
          simp only [Finset.sum_add_distrib, ← Finset.mul_sum, ← Finset.sum_mul]
          rw [t1, t0, mul_one, one_mul]
      _ ≤ _ := by
          have e : ∑ d ∈ Finset.range [n0, n1].length, δ d = δ 0 + δ 1 := by simp [Finset.sum_range_succ]
          rw [e]
          linarith

private theorem finish_chain (solve : (N : ℕ) → (Fin N → Fin N → K) → (Fin N → K) → Except Err (Fin N → K))
    (grid : UniformGrid K) (pi : List (List K)) (N : ℕ) (hN : pi.length = N) (hs : SolveContract (solve N))
    (hpi : StochasticRows N pi) (r : ErgodicResult K) (h : ergodicFinish solve grid pi = .ok r) :
    r.pi = pi ∧ (∀ a, ∑ b, chainOf N pi a b = 1) ∧ (∀ a b, 0 ≤ chainOf N pi a b) ∧
      (∀ b, ∑ a : Fin N, r.mu.getD a.val 0 * chainOf N pi a b = r.mu.getD b.val 0) ∧ ∑ a : Fin N, r.mu.getD a.val 0 = 1 ∧
      ∀ a : Fin N, 0 ≤ r.mu.getD a.val 0 := by
  subst hN
  obtain ⟨mu, e1, e2, e3, ⟨e4, e5, e6⟩, -⟩ := ergodicFinish_ok solve grid pi r h hs hpi
  obtain ⟨g1, g2⟩ := asSquare_stochastic pi hpi
  have hc : ∀ a b, chainOf pi.length pi a b = asSquare pi a b := by
    intro a b
    unfold chainOf asSquare
    rw [List.getD_eq_getElem _ _ a.isLt]
  have hm : ∀ a : Fin pi.length, r.mu.getD a.val 0 = mu a := by
    intro a
    rw [e2, List.getD_eq_getElem _ _ (by simp)]
    simp
  refine ⟨e1, fun a => ?_, fun a b => ?_, fun b => ?_, ?_, fun a => ?_⟩
  · simp only [hc]; exact g1 a
  · rw [hc]; exact g2 a b
  · simp only [hc, hm]; exact e3 b
  · rw [Finset.sum_congr rfl fun a _ => hm a, ← e5, e2, List.sum_ofFn]
  · rw [List.getD_eq_getElem _ _ (by rw [e4]; exact a.isLt)]
    exact e6 _ (List.getElem_mem _)

/-- **C159, ergodic distributions (Markov chains).**  When the next states under two rules, or two models, differ by at
most `δ d` grid steps in dimension `d`, the distributions that `ergodic_distribution` returns differ by at most
`2 t ∑ δ d / (1 - τ)` in sum, `t` and `τ` being the time within which the first chain forgets its starting point. -/
theorem C159_ergodic_markov (solve : (N : ℕ) → (Fin N → Fin N → K) → (Fin N → K) → Except Err (Fin N → K))
    (mn mx : List K) (n : List ℕ) (grid : UniformGrid K)
    (hgrid : UniformGrid.mk' mn mx n = .ok grid) (h1 : mn.length = mx.length) (h2 : mn.length = n.length)
    (hd : n.length = 1 ∨ n.length = 2) (hn : ∀ m ∈ n, 2 ≤ m) (hlt : List.Forall₂ (· < ·) mn mx)
    (mnodes P : List (List K)) (hP : StochasticRows P.length P) (hs : SolveContract (solve (P.length * n.prod)))
    (dr dr' : ℕ → List K → List K) (g g' : List K → List K → List K → List K → List K)
    (hg : ∀ m s x M, (g m s x M).length = n.length) (hg' : ∀ m s x M, (g' m s x M).length = n.length) (δ : ℕ → K)
    (hδ : ∀ i < P.length, ∀ j < P.length, ∀ k < n.prod, ∀ d < n.length,
      |(g' (mnodes.getD i []) (grid.nodes.getD k []) (dr' i (grid.nodes.getD k [])) (mnodes.getD j [])).getD d 0
        - (g (mnodes.getD i []) (grid.nodes.getD k []) (dr i (grid.nodes.getD k [])) (mnodes.getD j [])).getD d 0|
        ≤ δ d * ((mx.getD d 0 - mn.getD d 0) / ((n.getD d 0 : K) - 1)))
    (r r' : ErgodicResult K) (h : ergodicDistMC solve grid mnodes P dr g = .ok r)
    (h' : ergodicDistMC solve grid mnodes P dr' g' = .ok r') (t : ℕ) (τ : K) (hτ : τ < 1)
    (hf : Forgets (chainOf (P.length * n.prod) r.pi) t τ) :
    ∑ q ∈ Finset.range (P.length * n.prod), |r'.mu.getD q 0 - r.mu.getD q 0|
      ≤ t * (2 * ∑ d ∈ Finset.range n.length, δ d) / (1 - τ) := by
  obtain ⟨ρ, tr, zero, flat, shape, hsp, hz, hz0, hMC, -, -⟩ := hand_cases mn mx n grid hgrid h1 h2 hd hn
  have hne : n ≠ [] := by
    rintro rfl
    simp at hd
  obtain ⟨g0, hg0, -, -, -, hlen, -⟩ := C02_uniform_grid_nodes mn mx n hne h1 h2 hn
  rw [hgrid] at hg0
  cases hg0
  have facts : ∀ (dr : ℕ → List K → List K) (g : List K → List K → List K → List K → List K) (r : ErgodicResult K),
      ergodicDistMC solve grid mnodes P dr g = .ok r → ergodicTransMC grid mnodes P dr g = .ok r.pi ∧
      (∀ a, ∑ b, chainOf (P.length * n.prod) r.pi a b = 1) ∧ (∀ a b, 0 ≤ chainOf (P.length * n.prod) r.pi a b) ∧
      (∀ b, ∑ a : Fin (P.length * n.prod), r.mu.getD a.val 0 * chainOf (P.length * n.prod) r.pi a b = r.mu.getD b.val 0) ∧
      ∑ a : Fin (P.length * n.prod), r.mu.getD a.val 0 = 1 ∧ ∀ a : Fin (P.length * n.prod), 0 ≤ r.mu.getD a.val 0 := by
    intro dr g r h
    simp only [ergodicDistMC, hMC, bind, Except.bind] at h
    obtain ⟨hl, hst⟩ := C69_markov_stochastic tr zero flat shape grid.nodes.length hsp hz hz0 P hP _
    obtain ⟨e1, e2⟩ := finish_chain solve grid _ (P.length * n.prod) (by rw [hl, hlen]) hs (by rw [← hlen]; exact hst) r h
    rw [← e1] at e2
    refine ⟨?_, e2⟩
    simp only [ergodicTransMC, hMC]
    rw [e1]
  obtain ⟨f0, f1, f2, f3, f4, f5⟩ := facts dr g r h
  obtain ⟨f0', f1', f2', f3', f4', f5'⟩ := facts dr' g' r' h'
  have hrow : ∀ a, ∑ b, |chainOf (P.length * n.prod) r'.pi a b - chainOf (P.length * n.prod) r.pi a b|
      ≤ 2 * ∑ d ∈ Finset.range n.length, δ d := by
    intro a
    have hpos : 0 < n.prod := by
      rcases Nat.eq_zero_or_pos n.prod with h0 | h0
      · exact absurd (lt_of_lt_of_eq a.isLt (by rw [h0, Nat.mul_zero])) (Nat.not_lt_zero _)
      · exact h0
    have hi : a.val / n.prod < P.length := Nat.div_lt_of_lt_mul (lt_of_lt_of_eq a.isLt (Nat.mul_comm _ _))
    have hk : a.val % n.prod < n.prod := Nat.mod_lt _ hpos
    have hak : a.val / n.prod * n.prod + a.val % n.prod = a.val := by rw [Nat.mul_comm]; exact Nat.div_add_mod _ _
    have hws : P[a.val / n.prod]? = some P[a.val / n.prod] := List.getElem?_eq_getElem hi
    obtain ⟨wl, wsum, wpos⟩ := hP P[a.val / n.prod] (List.getElem_mem _)
    set ws := P[a.val / n.prod] with hwsdef
    have hw : ∀ j < P.length, ws[j]? = some (ws.getD j 0) ∧ 0 ≤ ws.getD j 0 := by
      intro j hj
      have hj' : j < ws.length := by rw [wl]; exact hj
      rw [List.getD_eq_getElem _ _ hj', List.getElem?_eq_getElem hj']
      exact ⟨rfl, wpos _ (List.getElem_mem _)⟩
    have hwt : ∑ j ∈ Finset.range P.length, ws.getD j 0 = 1 := by
      rw [← wsum, ← wl, Finset.sum_range]
      rw [← Fin.sum_univ_getElem]
      exact Finset.sum_congr rfl fun j _ => by simp
    have ent : ∀ (dr : ℕ → List K → List K) (g : List K → List K → List K → List K → List K)
        (_ : ∀ m s x M, (g m s x M).length = n.length) (pi : List (List K)),
        ergodicTransMC grid mnodes P dr g = .ok pi → ∀ j < P.length, ∀ l < n.prod,
        (pi.getD a.val []).getD (j * n.prod + l) 0 = ws.getD j 0 * nodeWeight mn mx n (grid.nodes.getD l [])
          (g (mnodes.getD (a.val / n.prod) []) (grid.nodes.getD (a.val % n.prod) [])
            (dr (a.val / n.prod) (grid.nodes.getD (a.val % n.prod) [])) (mnodes.getD j [])) := by
      intro dr g hg pi hpi j hj l hl
      obtain ⟨row, hr, he⟩ := C132_entry_markov mn mx n grid hgrid h1 h2 hd hn hlt mnodes P dr g hg pi hpi
        (a.val / n.prod) j (a.val % n.prod) l ws (ws.getD j 0) hws (hw j hj).1 hk hl
      rw [hak] at hr
      simp only [List.getD_eq_getElem?_getD] at he ⊢
      rw [hr, Option.getD_some, he, Option.getD_some]
    have hsum : ∑ b, |chainOf (P.length * n.prod) r'.pi a b - chainOf (P.length * n.prod) r.pi a b|
        = ∑ j ∈ Finset.range P.length, ∑ l ∈ Finset.range n.prod,
          |(r'.pi.getD a.val []).getD (j * n.prod + l) 0 - (r.pi.getD a.val []).getD (j * n.prod + l) 0| := by
      rw [← sum_range_mul' P.length n.prod fun q => |(r'.pi.getD a.val []).getD q 0 - (r.pi.getD a.val []).getD q 0|,
        Finset.sum_range]
      rfl
    rw [hsum]
    calc ∑ j ∈ Finset.range P.length, ∑ l ∈ Finset.range n.prod,
          |(r'.pi.getD a.val []).getD (j * n.prod + l) 0 - (r.pi.getD a.val []).getD (j * n.prod + l) 0|
        ≤ ∑ j ∈ Finset.range P.length, ws.getD j 0 * (2 * ∑ d ∈ Finset.range n.length, δ d) := by
          refine Finset.sum_le_sum fun j hj => ?_
          have hj' := Finset.mem_range.1 hj
          have hv := node_var mn mx n grid hgrid h1 h2 hd hn hlt
            (g (mnodes.getD (a.val / n.prod) []) (grid.nodes.getD (a.val % n.prod) [])
              (dr (a.val / n.prod) (grid.nodes.getD (a.val % n.prod) [])) (mnodes.getD j []))
            (g' (mnodes.getD (a.val / n.prod) []) (grid.nodes.getD (a.val % n.prod) [])
              (dr' (a.val / n.prod) (grid.nodes.getD (a.val % n.prod) [])) (mnodes.getD j [])) δ (hδ _ hi j hj' _ hk)
          refine le_trans (le_of_eq ?_) (mul_le_mul_of_nonneg_left hv (hw j hj').2)
          rw [Finset.mul_sum]
          refine Finset.sum_congr rfl fun l hl => ?_
          rw [ent dr g hg r.pi f0 j hj' l (Finset.mem_range.1 hl), ent dr' g' hg' r'.pi f0' j hj' l (Finset.mem_range.1 hl),
            ← mul_sub, abs_mul, abs_of_nonneg (hw j hj').2]
      _ = 2 * ∑ d ∈ Finset.range n.length, δ d := by rw [← Finset.sum_mul, hwt, one_mul]
  rw [Finset.sum_range]
  exact C159_distributions _ _ f1 f2 f1' f2' _ hrow _ _ f3 f3' f4 f4' f5' t τ hτ hf

/-- **C159, ergodic distributions (iid processes).** -/
theorem C159_ergodic_iid (solve : (N : ℕ) → (Fin N → Fin N → K) → (Fin N → K) → Except Err (Fin N → K))
    (mn mx : List K) (n : List ℕ) (grid : UniformGrid K)
    (hgrid : UniformGrid.mk' mn mx n = .ok grid) (h1 : mn.length = mx.length) (h2 : mn.length = n.length)
    (hd : n.length = 1 ∨ n.length = 2) (hn : ∀ m ∈ n, 2 ≤ m) (hlt : List.Forall₂ (· < ·) mn mx)
    (m0 : List K) (inodes : List (List K)) (ws : List K) (hsum : ws.sum = 1) (hpos : ∀ w ∈ ws, 0 ≤ w)
    (hs : SolveContract (solve n.prod))
    (dr dr' : List K → List K) (g g' : List K → List K → List K → List K → List K)
    (hg : ∀ m s x M, (g m s x M).length = n.length) (hg' : ∀ m s x M, (g' m s x M).length = n.length) (δ : ℕ → K)
    (hδ : ∀ j < ws.length, ∀ k < n.prod, ∀ d < n.length,
      |(g' m0 (grid.nodes.getD k []) (dr' (grid.nodes.getD k [])) (inodes.getD j [])).getD d 0
        - (g m0 (grid.nodes.getD k []) (dr (grid.nodes.getD k [])) (inodes.getD j [])).getD d 0|
        ≤ δ d * ((mx.getD d 0 - mn.getD d 0) / ((n.getD d 0 : K) - 1)))
    (r r' : ErgodicResult K) (h : ergodicDistIID solve grid m0 inodes ws dr g = .ok r)
    (h' : ergodicDistIID solve grid m0 inodes ws dr' g' = .ok r') (t : ℕ) (τ : K) (hτ : τ < 1)
    (hf : Forgets (chainOf n.prod r.pi) t τ) :
    ∑ q ∈ Finset.range n.prod, |r'.mu.getD q 0 - r.mu.getD q 0|
      ≤ t * (2 * ∑ d ∈ Finset.range n.length, δ d) / (1 - τ) := by
  obtain ⟨ρ, tr, zero, flat, shape, hsp, hz, hz0, -, hI, -⟩ := hand_cases mn mx n grid hgrid h1 h2 hd hn
  have hne : n ≠ [] := by
    rintro rfl
    simp at hd
  obtain ⟨g0, hg0, -, -, -, hlen, -⟩ := C02_uniform_grid_nodes mn mx n hne h1 h2 hn
  rw [hgrid] at hg0
  cases hg0
  have facts : ∀ (dr : List K → List K) (g : List K → List K → List K → List K → List K) (r : ErgodicResult K),
      ergodicDistIID solve grid m0 inodes ws dr g = .ok r → ergodicTransIID grid m0 inodes ws dr g = .ok r.pi ∧
      (∀ a, ∑ b, chainOf n.prod r.pi a b = 1) ∧ (∀ a b, 0 ≤ chainOf n.prod r.pi a b) ∧
      (∀ b, ∑ a : Fin n.prod, r.mu.getD a.val 0 * chainOf n.prod r.pi a b = r.mu.getD b.val 0) ∧
      ∑ a : Fin n.prod, r.mu.getD a.val 0 = 1 ∧ ∀ a : Fin n.prod, 0 ≤ r.mu.getD a.val 0 := by
    intro dr g r h
    simp only [ergodicDistIID, hI, bind, Except.bind] at h
    obtain ⟨hl, hst⟩ := C69_iid_stochastic tr zero flat shape grid.nodes.length hsp hz hz0 ws hsum hpos _
    obtain ⟨e1, e2⟩ := finish_chain solve grid _ n.prod (by rw [hl, hlen]) hs (by rw [← hlen]; exact hst) r h
    rw [← e1] at e2
    refine ⟨?_, e2⟩
    simp only [ergodicTransIID, hI]
    rw [e1]
  obtain ⟨f0, f1, f2, f3, f4, f5⟩ := facts dr g r h
  obtain ⟨f0', f1', f2', f3', f4', f5'⟩ := facts dr' g' r' h'
  have hw : ∀ j < ws.length, 0 ≤ ws.getD j 0 := fun j hj => by
    rw [List.getD_eq_getElem _ _ hj]
    exact hpos _ (List.getElem_mem _)
  have hwt : ∑ j ∈ Finset.range ws.length, ws.getD j 0 = 1 := by
    rw [← hsum, Finset.sum_range, ← Fin.sum_univ_getElem]
    exact Finset.sum_congr rfl fun j _ => by simp
  have hrow : ∀ a, ∑ b, |chainOf n.prod r'.pi a b - chainOf n.prod r.pi a b| ≤ 2 * ∑ d ∈ Finset.range n.length, δ d := by
    intro a
    have ent : ∀ (dr : List K → List K) (g : List K → List K → List K → List K → List K)
        (_ : ∀ m s x M, (g m s x M).length = n.length) (pi : List (List K)),
        ergodicTransIID grid m0 inodes ws dr g = .ok pi → ∀ l < n.prod,
        (pi.getD a.val []).getD l 0 = ∑ j ∈ Finset.range ws.length, ws.getD j 0 * nodeWeight mn mx n (grid.nodes.getD l [])
          (g m0 (grid.nodes.getD a.val []) (dr (grid.nodes.getD a.val [])) (inodes.getD j [])) := by
      intro dr g hg pi hpi l hl
      obtain ⟨row, hr, he⟩ := C132_entry_iid mn mx n grid hgrid h1 h2 hd hn hlt m0 inodes ws dr g hg pi hpi
        a.val l a.isLt hl
      have e1 : pi.getD a.val [] = row := by rw [List.getD_eq_getElem?_getD, hr, Option.getD_some]
      rw [e1, List.getD_eq_getElem?_getD, he, Option.getD_some]
    have hsum' : ∑ b, |chainOf n.prod r'.pi a b - chainOf n.prod r.pi a b|
        = ∑ l ∈ Finset.range n.prod, |(r'.pi.getD a.val []).getD l 0 - (r.pi.getD a.val []).getD l 0| := by
      rw [Finset.sum_range]
      rfl
    rw [hsum']
    calc ∑ l ∈ Finset.range n.prod, |(r'.pi.getD a.val []).getD l 0 - (r.pi.getD a.val []).getD l 0|
        ≤ ∑ l ∈ Finset.range n.prod, ∑ j ∈ Finset.range ws.length, ws.getD j 0 *
          |nodeWeight mn mx n (grid.nodes.getD l [])
              (g' m0 (grid.nodes.getD a.val []) (dr' (grid.nodes.getD a.val [])) (inodes.getD j []))
            - nodeWeight mn mx n (grid.nodes.getD l [])
              (g m0 (grid.nodes.getD a.val []) (dr (grid.nodes.getD a.val [])) (inodes.getD j []))| := by
          refine Finset.sum_le_sum fun l hl => ?_
          rw [ent dr g hg r.pi f0 l (Finset.mem_range.1 hl), ent dr' g' hg' r'.pi f0' l (Finset.mem_range.1 hl),
            ← Finset.sum_sub_distrib]
          refine (Finset.abs_sum_le_sum_abs _ _).trans (le_of_eq (Finset.sum_congr rfl fun j hj => ?_))
          rw [← mul_sub, abs_mul, abs_of_nonneg (hw j (Finset.mem_range.1 hj))]
      _ ≤ ∑ j ∈ Finset.range ws.length, ws.getD j 0 * (2 * ∑ d ∈ Finset.range n.length, δ d) := by
          rw [Finset.sum_comm]
          refine Finset.sum_le_sum fun j hj => ?_
          rw [← Finset.mul_sum]
          exact mul_le_mul_of_nonneg_left (node_var mn mx n grid hgrid h1 h2 hd hn hlt _ _ δ
            (hδ j (Finset.mem_range.1 hj) a.val a.isLt)) (hw j (Finset.mem_range.1 hj))
      _ = 2 * ∑ d ∈ Finset.range n.length, δ d := by rw [← Finset.sum_mul, hwt, one_mul]
  rw [Finset.sum_range]
  exact C159_distributions _ _ f1 f2 f1' f2' _ hrow _ _ f3 f3' f4 f4' f5' t τ hτ hf

end ergodic

/-- Non-vacuity of the theorems on simulations: `s' = s / 2 + x + m` with the rules `s / 4` and `s / 4 + 1 / 10`.  The bound
is reached at date 1. -/
example :
    RuleError (fun (_ : ℝ) (s x m : ℝ) => s / 2 + x + m) (fun _ s x m => s / 2 + x + m) (fun _ s => s / 4)
      (fun _ s => s / 4 + 1 / 10) (fun _ => True) (3 / 4) 1 (1 / 10) 0 ∧
    simulateDriven (fun (_ : ℝ) (s x m : ℝ) => s / 2 + x + m) (fun _ s => s / 4) 4 2 [1, 1] = .ok [(4, 1), (4, 1)] ∧
    simulateDriven (fun (_ : ℝ) (s x m : ℝ) => s / 2 + x + m) (fun _ s => s / 4 + 1 / 10) 4 2 [1, 1]
      = .ok [(4, 11 / 10), (41 / 10, 9 / 8)] := by
  refine ⟨⟨fun _ _ s s' _ _ => ?_, fun _ _ s x x' _ => ?_, fun _ s _ => ?_, fun _ _ s x _ => ?_⟩, ?_, ?_⟩
  · rw [Real.dist_eq, Real.dist_eq, show s / 2 + s / 4 + _ - (s' / 2 + s' / 4 + _) = 3 / 4 * (s - s') by ring, abs_mul,
      abs_of_pos (by norm_num)]
  · rw [Real.dist_eq, Real.dist_eq, show s / 2 + x + _ - (s / 2 + x' + _) = x - x' by ring, one_mul]
  · rw [Real.dist_eq, show s / 4 - (s / 4 + 1 / 10) = -(1 / 10) by ring, abs_neg, abs_of_pos (by norm_num)]
  · rw [dist_self]
  · simp [simulateDriven, firstRows, simLoop, bind, Except.bind, pure, Except.pure]
    norm_num
  · simp [simulateDriven, firstRows, simLoop, bind, Except.bind, pure, Except.pure]
    norm_num

/-- Non-vacuity of the theorems on distributions: on the nodes 0 and 3 of a grid, `s' = s / 3 + 1` is replaced by
`s' = s / 3 + 13 / 10`, one tenth of a grid step more.  The chain forgets a third of its starting point every period, the
bound is `2 * (1 / 10) / (1 - 1 / 3) = 3 / 10`, and it is reached. -/
example : ∃ (grid : UniformGrid ℚ) (r r' : ErgodicResult ℚ), UniformGrid.mk' [0] [3] [2] = .ok grid ∧
    ergodicDistMC ergExSolve grid [[0]] [[1]] (fun _ _ => []) (fun _ s _ _ => [s.getD 0 0 / 3 + 1]) = .ok r ∧
    ergodicDistMC ergExSolve grid [[0]] [[1]] (fun _ _ => []) (fun _ s _ _ => [s.getD 0 0 / 3 + 13 / 10]) = .ok r' ∧
    Forgets (chainOf 2 r.pi) 1 (1 / 3) ∧
    ∑ q ∈ Finset.range 2, |r'.mu.getD q 0 - r.mu.getD q 0| = 1 * (2 * (1 / 10)) / (1 - 1 / 3) := by
  refine ⟨⟨[0], [3], [2], [[0], [3]]⟩, ⟨[[2 / 3, 1 / 3], [1 / 3, 2 / 3]], [1 / 2, 1 / 2], [[0, 3]]⟩,
    ⟨[[17 / 30, 13 / 30], [7 / 30, 23 / 30]], [7 / 20, 13 / 20], [[0, 3]]⟩, ?_, ?_, ?_, ?_, ?_⟩
  · decide +kernel
  · decide +kernel
  · decide +kernel
  · unfold Forgets chainOf
    decide +kernel
  · decide +kernel

end Dolo
