import Mathlib.Data.Rat.Defs
import Mathlib.Algebra.Order.Ring.Rat
import Mathlib.Algebra.Field.Rat
import Mathlib.Tactic.Linarith
import Mathlib.Tactic.NormNum
import Verif.Model.Egm

/-!
# C57, C94: the endogenous grid method
-/

set_option linter.unusedSectionVars false

namespace Dolo

variable {K : Type} [Field K] [LinearOrder K] [IsStrictOrderedRing K] {Pt : Type}

/-- The exogenous node whose policy is used for node `i`. -/
def Egm.at (E : Egm K Pt) (i : ℕ) : Pt := E.node (if E.iid then 0 else i)

/-- The policy within the bounds of a state. -/
def Egm.Within (E : Egm K Pt) (i : ℕ) (ss x : K) : Prop := E.lb (E.at i) ss ≤ x ∧ x ≤ E.ub (E.at i) ss

theorem egmPolicy_within (E : Egm K Pt) (st : EgmState K) (i : ℕ) (ss : K)
    (h : E.lb (E.at i) ss ≤ E.ub (E.at i) ss) : E.Within i ss (egmPolicy E st i ss) := by
  unfold Egm.Within egmPolicy
  refine ⟨le_max_right _ _, ?_⟩
  exact max_le (min_le_right _ _) h

/-- The loop: what holds of its outcome. -/
theorem egmLoop_spec (E : Egm K Pt) (tol : K) (r it : ℕ) (st : EgmState K) (prev : Option K)
    (o : EgmOut K) (h : egmLoop E tol r it st prev = .ok o) (hr : 0 < r) :
    it ≤ o.it ∧ o.it < it + r ∧
    (o.η < tol → (1 < o.it ∧
      egmDist E.nM (egmStep E o.it o.st).xa o.st.xa +
        egmDist E.nM (egmStep E o.it o.st).sa o.st.sa < tol) ∨ (1 : K) < tol) ∧
    (¬ o.η < tol → o.it + 1 = it + r) := by
  induction r generalizing it st prev with
  | zero => omega
  | succ r ih =>
    simp only [egmLoop] at h
    by_cases hbad : it ≠ 0 ∧ egmBadIndex E = true
    · rw [if_pos hbad] at h
      cases h
    rw [if_neg hbad] at h
    by_cases hη : (if it > 1 then egmDist E.nM (egmStep E it st).xa st.xa +
        egmDist E.nM (egmStep E it st).sa st.sa else 1) < tol
    · rw [if_pos hη] at h
      cases h
      refine ⟨le_refl _, by simp, ?_, fun hc => absurd hη hc⟩
      intro _
      by_cases hit : it > 1
      · rw [if_pos hit] at hη
        exact Or.inl ⟨hit, hη⟩
      · rw [if_neg hit] at hη
        exact Or.inr hη
    · rw [if_neg hη] at h
      rcases r with _ | r
      · simp only [egmLoop] at h
        cases h
        refine ⟨by simp, by simp, fun hc => absurd hc hη, fun _ => by simp⟩
      · obtain ⟨h1, h2, h3, h4⟩ := ih (it + 1) _ _ h (by omega)
        refine ⟨by omega, by omega, h3, fun hc => by have := h4 hc; omega⟩

/-- With a tolerance of at most one the loop does not stop in its first two iterations. -/
theorem egmLoop_not_first (E : Egm K Pt) (tol : K) (htol : tol ≤ 1) (r : ℕ) (st : EgmState K)
    (o : EgmOut K) (h : egmLoop E tol (r + 2) 0 st none = .ok o) : 0 < o.it := by
  rw [egmLoop, if_neg (by simp)] at h
  simp only at h
  rw [if_neg (by simpa using htol)] at h
  have := egmLoop_spec E tol (r + 1) (0 + 1) _ _ o h (by omega)
  omega

/-- **C57** (partial: at the nodes).  If at least two iterations are allowed and the tolerance is
at most one, the values at the grid nodes from which the returned policy is interpolated lie
between the bounds of the state, whenever the lower bound is below the upper one there: for every
model, process, linear interpolant and initial policy. -/
theorem C57_nodes_partial (E : Egm K Pt) (tol : K) (htol : tol ≤ 1) (maxit : ℕ) (hm : 2 ≤ maxit)
    (R : EgmRes K) (hR : egm E tol maxit = .ok R) (i : ℕ) (hi : i < E.nM) (k : ℕ) (ss : K)
    (hk : E.s[k]? = some ss) (hb : E.lb (E.at i) ss ≤ E.ub (E.at i) ss) :
    ∃ x, (R.values.getD i []).getD k 0 = x ∧ k < (R.values.getD i []).length ∧
      E.Within i ss x := by
  obtain ⟨r, rfl⟩ : ∃ r, maxit = r + 2 := ⟨maxit - 2, by omega⟩
  unfold egm at hR
  rcases ho : egmLoop E tol (r + 2) 0 (egmInit E) none with e | o
  · rw [ho] at hR; cases hR
  · rw [ho] at hR
    cases hR
    have hpos := egmLoop_not_first E tol htol r _ o ho
    have hk' : k < E.s.length := by
      rw [List.getElem?_eq_some_iff] at hk
      exact hk.1
    refine ⟨_, rfl, by simp [hi, hk'], ?_⟩
    have : (((List.range E.nM).map fun i => E.s.map fun ss => egmDr E o.it o.st i ss).getD i
        []).getD k 0 = egmPolicy E o.st i ss := by
      simp [hi, hk, egmDr, Nat.pos_iff_ne_zero.1 hpos]
    simp only
    rw [this]
    exact egmPolicy_within E o.st i ss hb

/-- **C57** (partial, the policy itself at the nodes): with an interpolation that reproduces the
values at the nodes, the returned policy is within the bounds there. -/
theorem C57_rule_at_nodes_partial (E : Egm K Pt) (cubic : List K → List K → K → K) (tol : K)
    (htol : tol ≤ 1) (maxit : ℕ) (hm : 2 ≤ maxit) (R : EgmRes K) (hR : egm E tol maxit = .ok R)
    (i : ℕ) (hi : i < E.nM) (k : ℕ) (ss : K) (hk : E.s[k]? = some ss)
    (hcubic : cubic E.s (R.values.getD i []) ss = (R.values.getD i []).getD k 0)
    (hb : E.lb (E.at i) ss ≤ E.ub (E.at i) ss) : E.Within i ss (egmRule E cubic R i ss) := by
  obtain ⟨x, h1, -, h2⟩ := C57_nodes_partial E tol htol maxit hm R hR i hi k ss hk hb
  unfold egmRule
  rw [hcubic, h1]
  exact h2

/-- **C57 fails with a single iteration** (or a tolerance above one): the returned values are
those of the initial policy, whatever the bounds. -/
theorem C57_single_iteration_fails (E : Egm K Pt) (tol : K) (maxit : ℕ)
    (h : maxit = 1 ∨ (1 ≤ maxit ∧ 1 < tol)) :
    ∃ R, egm E tol maxit = .ok R ∧
      R.values = (List.range E.nM).map fun i => E.s.map fun ss => E.dr0 i ss := by
  have : ∃ o, egmLoop E tol maxit 0 (egmInit E) none = .ok o ∧ o.it = 0 := by
    obtain ⟨r, rfl⟩ : ∃ r, maxit = r + 1 := ⟨maxit - 1, by omega⟩
    simp only [egmLoop]
    by_cases ht : (1 : K) < tol
    · exact ⟨⟨0, 1, egmInit E⟩, by simp [ht], rfl⟩
    · rcases h with h | ⟨-, h⟩
      · have : r = 0 := by omega
        subst this
        exact ⟨⟨0, 1, egmStep E 0 (egmInit E)⟩, by simp [ht, egmLoop], rfl⟩
      · exact absurd h ht
  obtain ⟨o, h1, h2⟩ := this
  refine ⟨_, by unfold egm; rw [h1]; rfl, ?_⟩
  simp [h2, egmDr]

/-- **C94** (convergence).  If `egm` reports convergence with a tolerance of at most one, then it
made at least three iterations and the policy it returns is an approximate fixed point: applying
one more step of the method to the grid and the controls it was computed from moves them by less
than the tolerance, in the sum of the two maximal changes.  Otherwise it made all `maxit`
iterations. -/
theorem C94_approximate_fixed_point (E : Egm K Pt) (tol : K) (htol : tol ≤ 1) (maxit : ℕ)
    (hm : 0 < maxit) (R : EgmRes K) (hR : egm E tol maxit = .ok R) :
    ∃ st : EgmState K,
      (R.values = (List.range E.nM).map fun i => E.s.map fun ss => egmDr E R.it st i ss) ∧
      (R.converged = true → 1 < R.it ∧ R.it < maxit ∧
        egmDist E.nM (egmStep E R.it st).xa st.xa +
          egmDist E.nM (egmStep E R.it st).sa st.sa < tol) ∧
      (R.converged = false → R.it + 1 = maxit) := by
  unfold egm at hR
  rcases ho : egmLoop E tol maxit 0 (egmInit E) none with e | o
  · rw [ho] at hR; cases hR
  · rw [ho] at hR
    cases hR
    obtain ⟨h1, h2, h3, h4⟩ := egmLoop_spec E tol maxit 0 _ _ o ho hm
    refine ⟨o.st, rfl, ?_, ?_⟩
    · intro hc
      rcases h3 (of_decide_eq_true hc) with ⟨a, b⟩ | hc
      · exact ⟨a, by simpa using h2, b⟩
      · exact absurd hc (not_lt.2 htol)
    · intro hc
      have := h4 (of_decide_eq_false hc)
      simpa using this

/-- `foldl max` is above every member. -/
theorem le_foldl_max (l : List K) (b x : K) (h : x ∈ l ∨ x = b) : x ≤ l.foldl max b := by
  induction l generalizing b x with
  | nil =>
    rcases h with h | h
    · simp at h
    · simp [h]
  | cons a l ih =>
    simp only [List.foldl_cons]
    rcases h with h | rfl
    · rcases List.mem_cons.1 h with rfl | h
      · exact le_trans (le_max_right b x) (ih (max b x) (max b x) (Or.inr rfl))
      · exact ih _ x (Or.inl h)
    · exact le_trans (le_max_left x a) (ih (max x a) (max x a) (Or.inr rfl))

theorem egmDist_nonneg (nM : ℕ) (x y : ℕ → List K) : 0 ≤ egmDist nM x y :=
  le_foldl_max _ _ _ (Or.inr rfl)

theorem egmDist_entry (nM : ℕ) (x y : ℕ → List K) (i : ℕ) (hi : i < nM) (k : ℕ) (u v : K)
    (hu : (x i)[k]? = some u) (hv : (y i)[k]? = some v) : |u - v| ≤ egmDist nM x y := by
  apply le_foldl_max
  left
  rw [List.mem_flatMap]
  refine ⟨i, List.mem_range.2 hi, ?_⟩
  apply List.mem_iff_getElem?.2
  exact ⟨k, by simp [List.getElem?_zipWith, hu, hv]⟩

/-- **C94** (what the fixed point means).  If `egm` reports convergence, then at every exogenous
node and every poststate of the grid, the control and the state that the policy is interpolated
from differ by less than the tolerance from the direct response to the conditional expectation
(weighted sum over the nodes of tomorrow, of the expectation function at tomorrow's states and the
controls of that very policy), and from the state that leads to that poststate. -/
theorem C94_euler_equation (E : Egm K Pt) (tol : K) (htol : tol ≤ 1) (maxit : ℕ)
    (hm : 0 < maxit) (R : EgmRes K) (hR : egm E tol maxit = .ok R) (hc : R.converged = true) :
    ∃ st : EgmState K,
      (R.values = (List.range E.nM).map fun i => E.s.map fun ss => egmPolicy E st i ss) ∧
      ∀ i < E.nM, ∀ (k : ℕ) (a x s : K), E.agrid[k]? = some a → (st.xa i)[k]? = some x →
        (st.sa i)[k]? = some s →
        let z := fun c => ((List.range (E.nI i)).map fun j =>
          E.iweight i j * E.h (E.inode i j) (E.gt (E.node i) a (E.inode i j))
            (egmPolicy E st j (E.gt (E.node i) a (E.inode i j))) c).sum
        let x' := E.τ (E.node i) a z
        |x' - x| < tol ∧ |E.aτ (E.node i) a x' - s| < tol := by
  obtain ⟨st, h1, h2, -⟩ := C94_approximate_fixed_point E tol htol maxit hm R hR
  obtain ⟨h3, -, h4⟩ := h2 hc
  have hne : R.it ≠ 0 := by omega
  refine ⟨st, ?_, ?_⟩
  · rw [h1]
    simp [egmDr, hne]
  · intro i hi k a x s ha hx hs z x'
    have hz : egmZ E R.it st i a = z := by
      funext c
      simp [egmZ, egmDr, hne, z]
    have hxa : ((egmStep E R.it st).xa i)[k]? = some x' := by
      simp [egmStep, ha, hz, x']
    have hsa : ((egmStep E R.it st).sa i)[k]? = some (E.aτ (E.node i) a x') := by
      simp [egmStep, ha, hz, x']
    have b1 := egmDist_entry E.nM _ st.xa i hi k _ _ hxa hx
    have b2 := egmDist_entry E.nM _ st.sa i hi k _ _ hsa hs
    have n1 := egmDist_nonneg E.nM (egmStep E R.it st).xa st.xa
    have n2 := egmDist_nonneg E.nM (egmStep E R.it st).sa st.sa
    constructor <;> linarith

/-- **C94 fails with a tolerance above one**: the method reports convergence after its first
iteration, whatever the model. -/
theorem C94_large_tolerance_fails (E : Egm K Pt) (tol : K) (htol : 1 < tol) (maxit : ℕ)
    (hm : 0 < maxit) : ∃ R, egm E tol maxit = .ok R ∧ R.converged = true ∧ R.it = 0 := by
  obtain ⟨r, rfl⟩ : ∃ r, maxit = r + 1 := ⟨maxit - 1, by omega⟩
  have : egmLoop E tol (r + 1) 0 (egmInit E) none = .ok ⟨0, 1, egmInit E⟩ := by
    simp [egmLoop, htol]
  exact ⟨_, by unfold egm; rw [this]; rfl, by simp [htol], rfl⟩

/-- **The method fails for a product of iid processes.**  When the model's process is not itself
declared iid but its discretisation has more nodes for tomorrow than nodes for today (the
discretisation of a product of iid processes has a single node for today), every call that makes a
second iteration raises an index error. -/
theorem C94_iid_product_fails (E : Egm K Pt) (hiid : E.iid = false) (i : ℕ) (hi : i < E.nM)
    (hn : E.nM < E.nI i) (tol : K) (htol : tol ≤ 1) (maxit : ℕ) (hm : 2 ≤ maxit) :
    egm E tol maxit = .error .indexError := by
  obtain ⟨r, rfl⟩ : ∃ r, maxit = r + 2 := ⟨maxit - 2, by omega⟩
  have hb : egmBadIndex E = true := by
    simp only [egmBadIndex, hiid, Bool.not_false, Bool.true_and, List.any_eq_true, List.mem_range]
    exact ⟨i, hi, by simpa using hn⟩
  have : egmLoop E tol (r + 2) 0 (egmInit E) none = .error .indexError := by
    rw [egmLoop, if_neg (by simp)]
    simp only
    rw [if_neg (by simpa using htol), egmLoop, if_pos ⟨by simp, hb⟩]
  unfold egm
  rw [this]
  rfl

/-- Conversely it always returns when the process is declared iid, or no node for tomorrow is
outside the nodes of today. -/
theorem C94_returns (E : Egm K Pt) (h : E.iid = true ∨ ∀ i < E.nM, E.nI i ≤ E.nM) (tol : K)
    (maxit : ℕ) (hm : 0 < maxit) : ∃ R, egm E tol maxit = .ok R := by
  have hb : egmBadIndex E = false := by
    rcases h with h | h
    · simp [egmBadIndex, h]
    · rw [Bool.eq_false_iff]
      intro hc
      simp only [egmBadIndex, Bool.and_eq_true, List.any_eq_true, List.mem_range] at hc
      obtain ⟨-, i, hi, hn⟩ := hc
      have := h i hi
      have := of_decide_eq_true hn
      omega
  have key : ∀ (r it : ℕ) (st : EgmState K) (prev : Option K), (0 < r ∨ prev ≠ none) →
      ∃ o, egmLoop E tol r it st prev = .ok o := by
    intro r
    induction r with
    | zero =>
      intro it st prev hp
      rcases prev with _ | η
      · simp at hp
      · exact ⟨_, rfl⟩
    | succ r ih =>
      intro it st prev _
      rw [egmLoop, if_neg (by simp [hb])]
      simp only
      generalize (if it > 1 then egmDist E.nM (egmStep E it st).xa st.xa +
        egmDist E.nM (egmStep E it st).sa st.sa else 1) = η
      by_cases hη : η < tol
      · rw [if_pos hη]
        exact ⟨_, rfl⟩
      · rw [if_neg hη]
        exact ih _ _ (some η) (Or.inr (by simp))
  obtain ⟨o, ho⟩ := key maxit 0 (egmInit E) none (Or.inl hm)
  exact ⟨_, by unfold egm; rw [ho]; rfl⟩

/-! ## Witnesses -/

/-- A model over the rationals with two poststates and a policy between 0 and 1. -/
def demoEgm : Egm ℚ Unit where
  iid := true
  nM := 1
  node := fun _ => ()
  nI := fun _ => 1
  iweight := fun _ _ => 1
  inode := fun _ _ => ()
  gt := fun _ a _ => a + 1
  h := fun _ S X _ => S + X
  τ := fun _ a z => (a + z 0) / 8
  aτ := fun _ a x => a + x
  lb := fun _ _ => 0
  ub := fun _ s => s / 4
  lin := fun _ v s => v.headD 0 * s
  dr0 := fun _ _ => 7
  agrid := [0, 1]
  s := [1, 2, 3, 4]

/-- The polynomial through the given points (of degree three for four points). -/
def lagrange (xs ys : List ℚ) (s : ℚ) : ℚ :=
  ((List.range xs.length).map fun k => ys.getD k 0 *
    ((List.range xs.length).map fun j =>
      if j = k then 1 else (s - xs.getD j 0) / (xs.getD k 0 - xs.getD j 0)).prod).sum

/-- A model whose upper bound jumps from 0 to 1 after the second of four nodes. -/
def jumpEgm : Egm ℚ Unit :=
  { demoEgm with ub := fun _ s => if s ≤ 1 then 0 else 1, lin := fun _ _ _ => 5, s := [0, 1, 2, 3] }

/-- **C57 fails between the nodes**: bounds are imposed at the nodes only, before the
interpolation; a cubic that goes through the four values at the nodes, all within the bounds,
is below the lower bound between the first two. -/
theorem C57_between_nodes_fails :
    ∃ R, egm jumpEgm (1 / 100) 3 = .ok R ∧
      (∀ k < 4, lagrange jumpEgm.s (R.values.getD 0 []) (jumpEgm.s.getD k 0) =
        (R.values.getD 0 []).getD k 0) ∧
      jumpEgm.lb (jumpEgm.at 0) (1 / 2) ≤ jumpEgm.ub (jumpEgm.at 0) (1 / 2) ∧
      ¬ jumpEgm.Within 0 (1 / 2) (egmRule jumpEgm lagrange R 0 (1 / 2)) := by
  have h : ∃ R, egm jumpEgm (1 / 100) 3 = .ok R ∧ R.values = [[0, 0, 1, 1]] := by
    rcases h : egm jumpEgm (1 / 100) 3 with e | R
    · exfalso
      have : (egm jumpEgm (1 / 100) 3).toOption.isSome = true := by decide +kernel
      rw [h] at this
      cases this
    · refine ⟨R, rfl, ?_⟩
      have : (egm jumpEgm (1 / 100) 3).toOption.map (fun R => R.values) =
          some [[0, 0, 1, 1]] := by decide +kernel
      rw [h] at this
      exact Option.some.inj this
  obtain ⟨R, hR, hv⟩ := h
  refine ⟨R, hR, ?_, ?_, ?_⟩
  · rw [hv]
    decide +kernel
  · decide +kernel
  · unfold Egm.Within egmRule
    rw [hv]
    decide +kernel

/-- Non-vacuity: the method converges on the first model; the initial policy, 7, is far above the
bounds. -/
example : (egm demoEgm (1 / 100) 30).toOption.map (fun R => (R.it, R.converged, R.values)) =
    some (3, true, [[37 / 256, 37 / 128, 111 / 256, 37 / 64]]) := by decide +kernel

end Dolo
