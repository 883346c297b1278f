import Mathlib.Tactic.FieldSimp
import Verif.Props.Howard

/-!
# C156: small changes of the model change values and the quality of decisions little
-/

set_option linter.unusedSectionVars false

namespace Dolo

open Finset

/-! ### Specification -/

variable {K : Type} [Field K] [LinearOrder K] [IsStrictOrderedRing K]

/-- How much two models differ: felicity by at most `εu` at every admissible choice, the discount factor by at most `εb`,
the probabilities of the next exogenous states by at most `εw` in sum, and the states reached so little that the function
`v`, interpolated there, differs by at most `εv`.  `v` is bounded by `V`. -/
structure ModelChange (nm N : ℕ) (adm : ℕ → ℕ → (ℕ → K) → Prop) (transition transition' : (m s x M : ℕ → K) → ℕ → K)
    (felicity felicity' : (m s x : ℕ → K) → K) (evalI : Table K → ℕ → (ℕ → K) → ℕ → K) (dp dp' : DProc K)
    (beta beta' : K) (s : ℕ → ℕ → K) (εu εb εw εv V : K) (v : Table K) : Prop where
  felicity : ∀ i < nm, ∀ n < N, ∀ y, adm i n y → |felicity' (dp'.node i) (s n) y - felicity (dp.node i) (s n) y| ≤ εu
  discount : |beta' - beta| ≤ εb
  inodes : ∀ i < nm, dp'.nInodes i = dp.nInodes i
  weights : ∀ i < nm, ∑ j ∈ range (dp.nInodes i), |dp'.iweight i j - dp.iweight i j| ≤ εw
  states : ∀ i < nm, ∀ n < N, ∀ y, adm i n y → ∀ j < dp.nInodes i,
    |evalI v j (transition' (dp'.node i) (s n) y (dp'.inode i j)) 0
      - evalI v j (transition (dp.node i) (s n) y (dp.inode i j)) 0| ≤ εv
  bounded : ∀ i < nm, ∀ n < N, |v i n 0| ≤ V

section
variable {nm N : ℕ} {adm : ℕ → ℕ → (ℕ → K) → Prop} {minimize minimize' : ℕ → ℕ → ((ℕ → K) → K) → (ℕ → K) → (ℕ → K)}
  {transition transition' : (m s x M : ℕ → K) → ℕ → K} {felicity felicity' : (m s x : ℕ → K) → K}
  {val val' : (m s x v M S X V : ℕ → K) → ℕ → K} {evalIJS evalIJS' : Table K → ℕ → ℕ → (ℕ → K) → ℕ → K}
  {evalX evalX' : Table K → ℕ → ℕ → (ℕ → K) → ℕ → K} {evalI : Table K → ℕ → (ℕ → K) → ℕ → K} {dp dp' : DProc K}
  {beta beta' : K} {s : ℕ → ℕ → K} {εu εb εw εv V : K}

private theorem lookahead_change
    (D : DynamicProgram nm N adm minimize transition felicity val evalIJS evalI dp beta s)
    (D' : DynamicProgram nm N adm minimize' transition' felicity' val' evalIJS' evalI dp' beta' s) {v : Table K}
    (hc : ModelChange nm N adm transition transition' felicity felicity' evalI dp dp' beta beta' s εu εb εw εv V v) :
    ∀ i < nm, ∀ n < N, ∀ y, adm i n y →
      |lookahead transition' felicity' evalI dp' beta' s i n y v - lookahead transition felicity evalI dp beta s i n y v|
        ≤ εu + εb * V + beta' * (εw * V + εv) := by
  intro i hi n hn y hy
  unfold lookahead
  rw [hc.inodes i hi]
  set R := range (dp.nInodes i) with hR
  set e' := fun j => evalI v j (transition' (dp'.node i) (s n) y (dp'.inode i j)) 0 with he'
  set e := fun j => evalI v j (transition (dp.node i) (s n) y (dp.inode i j)) 0 with he
  have V0 : 0 ≤ V := le_trans (abs_nonneg _) (hc.bounded i hi n hn)
  have eb : ∀ j ∈ R, |e j| ≤ V := by
    intro j hj
    obtain ⟨w, hw0, hw1, hw⟩ := D.average i hi n hn y hy j (mem_range.1 hj)
    simp only [he]
    rw [hw v, ← mul_one V, ← hw1, mul_sum]
    refine (abs_sum_le_sum_abs _ _).trans (sum_le_sum fun a ha => ?_)
    rw [mul_sum]
    refine (abs_sum_le_sum_abs _ _).trans (sum_le_sum fun b hb => ?_)
    rw [abs_mul, abs_of_nonneg (hw0 a (mem_range.1 ha) b (mem_range.1 hb)), mul_comm V]
    exact mul_le_mul_of_nonneg_left (hc.bounded a (mem_range.1 ha) b (mem_range.1 hb)) (hw0 a (mem_range.1 ha) b (mem_range.1 hb))
  have h1 : |∑ j ∈ R, dp'.iweight i j * (e' j - e j)| ≤ εv := by
    have hs := D'.weights_sum i hi
    rw [hc.inodes i hi] at hs
    rw [← mul_one εv, ← hs, mul_sum]
    refine (abs_sum_le_sum_abs _ _).trans (sum_le_sum fun j hj => ?_)
    have hw := D'.weights i hi j (by rw [hc.inodes i hi]; exact mem_range.1 hj)
    rw [abs_mul, abs_of_nonneg hw, mul_comm εv]
    exact mul_le_mul_of_nonneg_left (hc.states i hi n hn y hy j (mem_range.1 hj)) hw
  have h2 : |∑ j ∈ R, (dp'.iweight i j - dp.iweight i j) * e j| ≤ εw * V := by
    refine (abs_sum_le_sum_abs _ _).trans (le_trans ?_ (mul_le_mul_of_nonneg_right (hc.weights i hi) V0))
    rw [sum_mul]
    refine sum_le_sum fun j hj => ?_
    rw [abs_mul]
    exact mul_le_mul_of_nonneg_left (eb j hj) (abs_nonneg _)
  have h3 : |∑ j ∈ R, dp.iweight i j * e j| ≤ V := by
    rw [← mul_one V, ← D.weights_sum i hi, mul_sum]
    refine (abs_sum_le_sum_abs _ _).trans (sum_le_sum fun j hj => ?_)
    have hw := D.weights i hi j (mem_range.1 hj)
    rw [abs_mul, abs_of_nonneg hw, mul_comm V]
    exact mul_le_mul_of_nonneg_left (eb j hj) hw
  have split : felicity' (dp'.node i) (s n) y + beta' * ∑ j ∈ R, dp'.iweight i j * e' j
      - (felicity (dp.node i) (s n) y + beta * ∑ j ∈ R, dp.iweight i j * e j)
      = (felicity' (dp'.node i) (s n) y - felicity (dp.node i) (s n) y) + (beta' - beta) * ∑ j ∈ R, dp.iweight i j * e j
        + beta' * (∑ j ∈ R, (dp'.iweight i j - dp.iweight i j) * e j + ∑ j ∈ R, dp'.iweight i j * (e' j - e j)) := by
    have : ∑ j ∈ R, dp'.iweight i j * e' j = ∑ j ∈ R, dp.iweight i j * e j
        + (∑ j ∈ R, (dp'.iweight i j - dp.iweight i j) * e j + ∑ j ∈ R, dp'.iweight i j * (e' j - e j)) := by
      rw [← sum_add_distrib, ← sum_add_distrib]
      exact sum_congr rfl fun j _ => by ring
    rw [this]
    ring
  rw [split]
  refine (abs_add_le _ _).trans (add_le_add ((abs_add_le _ _).trans (add_le_add (hc.felicity i hi n hn y hy) ?_)) ?_)
  · rw [abs_mul]
    exact mul_le_mul hc.discount h3 (abs_nonneg _) (le_trans (abs_nonneg _) hc.discount)
  · rw [abs_mul, abs_of_nonneg D'.beta_nonneg]
    exact mul_le_mul_of_nonneg_left ((abs_add_le _ _).trans (add_le_add h2 h1)) D'.beta_nonneg

/-- **C156, optimal values.**  The solutions of the Bellman equations of two models differ by at most
`(εu + εb V + beta' (εw V + εv)) / (1 - beta')`. -/
theorem C156_optimum
    (D : DynamicProgram nm N adm minimize transition felicity val evalIJS evalI dp beta s)
    (D' : DynamicProgram nm N adm minimize' transition' felicity' val' evalIJS' evalI dp' beta' s) (vstar vstar' : Table K)
    (hv : BellmanSolution nm N adm (lookahead transition felicity evalI dp beta s) vstar)
    (hv' : BellmanSolution nm N adm (lookahead transition' felicity' evalI dp' beta' s) vstar')
    (hc : ModelChange nm N adm transition transition' felicity felicity' evalI dp dp' beta beta' s εu εb εw εv V vstar) :
    ∀ i < nm, ∀ n < N, |vstar' i n 0 - vstar i n 0| ≤ (εu + εb * V + beta' * (εw * V + εv)) / (1 - beta') := by
  intro i hi n hn
  have hl := lookahead_change D D' hc
  have hΔ : 0 ≤ εu + εb * V + beta' * (εw * V + εv) := by
    obtain ⟨⟨y, hy, -⟩, -⟩ := hv i hi n hn
    exact le_trans (abs_nonneg _) (hl i hi n hn y hy)
  classical
  have hpol : ∀ i n, ∃ y, i < nm → n < N → adm i n y ∧ vstar i n 0 = lookahead transition felicity evalI dp beta s i n y vstar := by
    intro i n
    by_cases hi : i < nm
    · by_cases hn : n < N
      · obtain ⟨⟨y, hy, he⟩, -⟩ := hv i hi n hn
        exact ⟨y, fun _ _ => ⟨hy, he⟩⟩
      · exact ⟨fun _ => 0, fun _ h => absurd h hn⟩
    · exact ⟨fun _ => 0, fun h => absurd h hi⟩
  choose x hx using hpol
  have h1 := sub_le_of_greedy D'.beta_lt_one (lookahead_disc D') vstar' hv' vstar _ hΔ (fun i hi n hn y hy => by
    have a1 := (hv i hi n hn).2 ⟨y, hy, rfl⟩
    have a2 := (abs_le.1 (hl i hi n hn y hy)).2
    linarith) i hi n hn
  have h2 := sub_le_of_policy D'.beta_lt_one (lookahead_disc D') x (fun i hi n hn => (hx i n hi hn).1) vstar vstar' _ hΔ
    (fun i hi n hn => by
      have a1 := (hx i n hi hn).2
      have a2 := (abs_le.1 (hl i hi n hn _ (hx i n hi hn).1)).1
      linarith)
    (fun i hi n hn => (hv' i hi n hn).2 ⟨_, (hx i n hi hn).1, rfl⟩) i hi n hn
  exact abs_le.2 ⟨by linarith, h1⟩

/-- **C156, values found.**  The values that `value_iteration` returns for the two models, with whatever tolerances,
optimisers and starting points, differ by at most that, plus `beta / (1 - beta)` times the errors reported. -/
theorem C156_values
    (D : DynamicProgram nm N adm minimize transition felicity val evalIJS evalI dp beta s)
    (D' : DynamicProgram nm N adm minimize' transition' felicity' val' evalIJS' evalI dp' beta' s) (vstar vstar' : Table K)
    (hv : BellmanSolution nm N adm (lookahead transition felicity evalI dp beta s) vstar)
    (hv' : BellmanSolution nm N adm (lookahead transition' felicity' evalI dp' beta' s) vstar')
    (hc : ModelChange nm N adm transition transition' felicity felicity' evalI dp dp' beta beta' s εu εb εw εv V vstar)
    (nx nx' : ℕ) (vcal vcal' : Table K) (tol tol' : K) (maxit maxit' : ℕ) (x0 x0' : Table K)
    (hx0 : ∀ i < nm, ∀ n < N, adm i n (x0 i n)) (hx0' : ∀ i < nm, ∀ n < N, adm i n (x0' i n))
    (r r' : VIResult (Table K) (Table K × Table K) K)
    (h : valueIterationFull nm N nx minimize transition felicity val evalX evalIJS evalI dp beta s vcal tol maxit
      x0 = .ok r)
    (h' : valueIterationFull nm N nx' minimize' transition' felicity' val' evalX' evalIJS' evalI dp' beta' s vcal' tol'
      maxit' x0' = .ok r') :
    ∀ i < nm, ∀ n < N, |r'.values.1 i n 0 - r.values.1 i n 0| ≤
      (εu + εb * V + beta' * (εw * V + εv)) / (1 - beta') + beta / (1 - beta) * r.v_err + beta' / (1 - beta') * r'.v_err := by
  intro i hi n hn
  have h1 := abs_le.1 ((C108_a_posteriori D nx vcal tol maxit x0 hx0 r h vstar hv).2.1 i hi n hn)
  have h2 := abs_le.1 ((C108_a_posteriori D' nx' vcal' tol' maxit' x0' hx0' r' h' vstar' hv').2.1 i hi n hn)
  have h3 := abs_le.1 (C156_optimum D D' vstar vstar' hv hv' hc i hi n hn)
  exact abs_le.2 ⟨by linarith [h1.1, h1.2, h2.1, h2.2, h3.1, h3.2], by linarith [h1.1, h1.2, h2.1, h2.2, h3.1, h3.2]⟩

/-- **C156, decisions.**  The controls that `value_iteration` finds for one model, used in the other, are worth at most
twice that bound less than its optimum, plus twice `beta / (1 - beta)` times the error reported. -/
theorem C156_decisions
    (D : DynamicProgram nm N adm minimize transition felicity val evalIJS evalI dp beta s)
    (D' : DynamicProgram nm N adm minimize' transition' felicity' val' evalIJS' evalI dp' beta' s) (vstar vstar' : Table K)
    (hv : BellmanSolution nm N adm (lookahead transition felicity evalI dp beta s) vstar)
    (hv' : BellmanSolution nm N adm (lookahead transition' felicity' evalI dp' beta' s) vstar')
    (hc : ModelChange nm N adm transition transition' felicity felicity' evalI dp dp' beta beta' s εu εb εw εv V vstar)
    (nx : ℕ) (vcal : Table K) (tol : K) (maxit : ℕ) (x0 : Table K) (hx0 : ∀ i < nm, ∀ n < N, adm i n (x0 i n))
    (r : VIResult (Table K) (Table K × Table K) K)
    (h : valueIterationFull nm N nx minimize transition felicity val evalX evalIJS evalI dp beta s vcal tol maxit
      x0 = .ok r) (u u' : Table K)
    (hu : ∀ i < nm, ∀ n < N, u i n 0 = lookahead transition felicity evalI dp beta s i n (r.controls i n) u)
    (hu' : ∀ i < nm, ∀ n < N, u' i n 0 = lookahead transition' felicity' evalI dp' beta' s i n (r.controls i n) u')
    (hcu : ModelChange nm N adm transition transition' felicity felicity' evalI dp dp' beta beta' s εu εb εw εv V u) :
    ∀ i < nm, ∀ n < N, u' i n 0 ≤ vstar' i n 0 ∧ vstar' i n 0 ≤ u' i n 0 +
      2 * ((εu + εb * V + beta' * (εw * V + εv)) / (1 - beta') + beta / (1 - beta) * r.v_err) := by
  intro i hi n hn
  obtain ⟨hadm, -, hval, -⟩ := C108_a_posteriori D nx vcal tol maxit x0 hx0 r h vstar hv
  have h1 := abs_le.1 (hval u hu i hi n hn)
  have h2 := abs_le.1 (C156_optimum D D' vstar vstar' hv hv' hc i hi n hn)
  have hl := lookahead_change D D' hcu
  have hΔ : 0 ≤ εu + εb * V + beta' * (εw * V + εv) := le_trans (abs_nonneg _) (hl i hi n hn _ (hadm i hi n hn))
  have h3 := sub_le_of_policy D'.beta_lt_one (lookahead_disc D') r.controls hadm u u' _ hΔ
    (fun i hi n hn => by
      have a1 := hu i hi n hn
      have a2 := (abs_le.1 (hl i hi n hn _ (hadm i hi n hn))).1
      linarith)
    (fun i hi n hn => (hu' i hi n hn).symm.le) i hi n hn
  have h4 := sub_le_of_policy D'.beta_lt_one (lookahead_disc D') r.controls hadm u' vstar' 0 le_rfl
    (fun i hi n hn => by rw [add_zero]; exact (hu' i hi n hn).le)
    (fun i hi n hn => (hv' i hi n hn).2 ⟨_, hadm i hi n hn, rfl⟩) i hi n hn
  rw [zero_div] at h4
  exact ⟨by linarith, by linarith [h1.1, h1.2, h2.1, h2.2]⟩

end

/-! ### Example -/

private def wexEval (v : Table ℚ) (_ : ℕ) (S : ℕ → ℚ) (_ : ℕ) : ℚ := (1 - S 0) * v 0 0 0 + S 0 * v 0 1 0

private def wexDp : DProc ℚ := ⟨1, fun _ => 1, fun _ _ => 0, fun _ _ _ => 0, fun _ _ => 1⟩

private def wexLook (β κ : ℚ) := lookahead (fun _ _ y _ => y) (fun _ s y : ℕ → ℚ => s 0 - κ * y 0) wexEval
  wexDp β (fun n _ => (n : ℚ))

private theorem wexLook_eq (β κ : ℚ) (i n : ℕ) (y : ℕ → ℚ) (v : Table ℚ) :
    wexLook β κ i n y v = n - κ * y 0 + β * ((1 - y 0) * v 0 0 0 + y 0 * v 0 1 0) := by
  simp [wexLook, lookahead, wexEval, wexDp]

/-- The model of `Howard.lean` with discount factor `β` and the cost `κ` of moving to the better state. -/
private theorem wex_program {β κ : ℚ} (h0 : 0 ≤ β) (h1 : β < 1) :
    DynamicProgram (K := ℚ) 1 2 (fun _ _ y => 0 ≤ y 0 ∧ y 0 ≤ 1)
      (fun _ _ h _ => if h (fun _ => 0) ≤ h (fun _ => 1) then fun _ => 0 else fun _ => 1)
      (fun _ _ y _ => y) (fun _ s y => s 0 - κ * y 0)
      (fun _ s y _ _ _ _ V _ => s 0 - κ * y 0 + β * V 0) (fun v _ j S k => wexEval v j S k) wexEval
      wexDp β (fun n _ => (n : ℚ)) := by
  refine ⟨h0, h1, fun _ _ => rfl, fun _ _ _ _ => by simp [wexDp], fun _ _ => by simp [wexDp], fun _ _ _ _ _ _ _ _ => rfl,
    fun _ _ _ _ => rfl, ?_, ?_⟩
  · intro i hi n hn y hy j hj
    refine ⟨fun _ b => if b = 0 then 1 - y 0 else y 0, ?_, ?_, ?_⟩
    · intro a _ b _
      beta_reduce
      split_ifs
      · linarith [hy.2]
      · exact hy.1
    · simp [Finset.sum_range_succ]
    · intro v
      simp [Finset.sum_range_succ, wexEval]
  · intro i hi n hn v x hx h
    have e : ∀ y, h y = -(n - κ * y 0 + β * ((1 - y 0) * v 0 0 0 + y 0 * v 0 1 0)) := by
      intro y
      have := wexLook_eq β κ i n y v
      simp only [h]
      rw [← this]
      rfl
    have e2 : ∀ y, h y = (1 - y 0) * h (fun _ => 0) + y 0 * h (fun _ => 1) := by
      intro y
      rw [e, e, e]
      ring
    by_cases hc : h (fun _ => 0) ≤ h (fun _ => 1)
    · rw [if_pos hc]
      refine ⟨⟨le_refl _, by norm_num⟩, fun y hy => ?_⟩
      rw [e2 y]
      nlinarith [hy.1, hy.2]
    · rw [if_neg hc]
      refine ⟨⟨by norm_num, le_refl _⟩, fun y hy => ?_⟩
      push Not at hc
      rw [e2 y]
      nlinarith [hy.1, hy.2]

private theorem wex_solution {β κ : ℚ} (h1 : β < 1) (hκ : κ ≤ β) :
    BellmanSolution 1 2 (fun _ _ y => 0 ≤ y 0 ∧ y 0 ≤ 1) (wexLook β κ)
      (fun _ n _ => (n : ℚ) - 1 + (1 - κ) / (1 - β)) := by
  have hne : 1 - β ≠ 0 := by linarith
  have key : (1 - κ) / (1 - β) = 1 - κ + β * ((1 - κ) / (1 - β)) := by
    field_simp
    ring
  intro i hi n hn
  constructor
  · refine ⟨fun _ => 1, ⟨by norm_num, le_refl _⟩, ?_⟩
    rw [wexLook_eq]
    norm_num
    linarith
  · rintro u ⟨y, hy, rfl⟩
    rw [wexLook_eq]
    norm_num
    nlinarith [hy.1, hy.2]

/-- The discount factor rises from `1/2` to `3/5` and the cost falls from `1/4` to `1/5`: the values at the two points rise
from `1/2` and `3/2` to `1` and `2`, by `1/2`, which is what the bound `(1/20 + 1/10 * 3/2) / (1 - 3/5)` allows. -/
example : ∀ i : ℕ, i < 1 → ∀ n : ℕ, n < 2 →
    |((n : ℚ) - 1 + (1 - 1 / 5) / (1 - 3 / 5)) - ((n : ℚ) - 1 + (1 - 1 / 4) / (1 - 1 / 2))|
      ≤ (1 / 20 + 1 / 10 * (3 / 2) + 3 / 5 * (0 * (3 / 2) + 0)) / (1 - 3 / 5) := by
  refine fun i hi n hn => C156_optimum (wex_program (κ := 1 / 4) (by norm_num) (by norm_num))
    (wex_program (κ := 1 / 5) (by norm_num) (by norm_num)) (fun _ n _ => (n : ℚ) - 1 + (1 - 1 / 4) / (1 - 1 / 2))
    (fun _ n _ => (n : ℚ) - 1 + (1 - 1 / 5) / (1 - 3 / 5)) (wex_solution (by norm_num) (by norm_num))
    (wex_solution (by norm_num) (by norm_num)) ⟨?_, ?_, fun _ _ => rfl, ?_, ?_, ?_⟩ i hi n hn
  · intro i _ n _ y hy
    have : (n : ℚ) - 1 / 5 * y 0 - ((n : ℚ) - 1 / 4 * y 0) = y 0 / 20 := by ring
    rw [this, abs_of_nonneg (by linarith [hy.1])]
    linarith [hy.2]
  · rw [abs_le]; constructor <;> norm_num
  · intro i _; simp
  · intro i _ n _ y _ j _; simp
  · intro i _ n hn
    have : (n : ℚ) ≤ 1 := by exact_mod_cast (by omega : n ≤ 1)
    have : (0 : ℚ) ≤ n := by positivity
    rw [abs_le]
    constructor <;> norm_num <;> linarith

end Dolo
