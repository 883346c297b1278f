import Mathlib.Data.Finset.Prod
import Mathlib.Order.Bounds.Basic
import Verif.Model.Howard
import Verif.Props.Loops

/-!
# C108: `value_iteration` finds the optimal value
-/

set_option linter.unusedSectionVars false

namespace Dolo

variable {K : Type} [Field K] [LinearOrder K] [IsStrictOrderedRing K]

/-! ### Specification -/

/-- Felicity of the choice `y` at node `i` and grid point `n` plus the discounted expectation of `v`. -/
def lookahead (transition : (m s x M : ℕ → K) → ℕ → K) (felicity : (m s x : ℕ → K) → K)
    (evalI : Table K → ℕ → (ℕ → K) → ℕ → K) (dp : DProc K) (beta : K) (s : ℕ → ℕ → K) (i n : ℕ) (y : ℕ → K)
    (v : Table K) : K :=
  felicity (dp.node i) (s n) y + beta * ∑ j ∈ Finset.range (dp.nInodes i),
    dp.iweight i j * evalI v j (transition (dp.node i) (s n) y (dp.inode i j)) 0

/-- `vstar` solves the Bellman equation at every node and grid point: it is the largest value of `look i n y vstar`
among the admissible choices `y`. -/
def BellmanSolution (nm N : ℕ) (adm : ℕ → ℕ → (ℕ → K) → Prop) (look : ℕ → ℕ → (ℕ → K) → Table K → K)
    (vstar : Table K) : Prop :=
  ∀ i < nm, ∀ n < N, IsGreatest {u | ∃ y, adm i n y ∧ u = look i n y vstar} (vstar i n 0)

/-- What is assumed of the model, the process, the interpolation and the optimiser. -/
structure DynamicProgram (nm N : ℕ) (adm : ℕ → ℕ → (ℕ → K) → Prop)
    (minimize : ℕ → ℕ → ((ℕ → K) → K) → (ℕ → K) → (ℕ → K))
    (transition : (m s x M : ℕ → K) → ℕ → K) (felicity : (m s x : ℕ → K) → K)
    (val : (m s x v M S X V : ℕ → K) → ℕ → K) (evalIJS : Table K → ℕ → ℕ → (ℕ → K) → ℕ → K)
    (evalI : Table K → ℕ → (ℕ → K) → ℕ → K) (dp : DProc K) (beta : K) (s : ℕ → ℕ → K) : Prop where
  beta_nonneg : 0 ≤ beta
  beta_lt_one : beta < 1
  /-- the same number of integration nodes everywhere, whose weights are a probability -/
  inodes : ∀ i < nm, dp.nInodes i = dp.nInodes 0
  weights : ∀ i < nm, ∀ j < dp.nInodes i, 0 ≤ dp.iweight i j
  weights_sum : ∀ i < nm, ∑ j ∈ Finset.range (dp.nInodes i), dp.iweight i j = 1
  /-- the value equation of the model is `V = felicity + beta * V(1)` -/
  value : ∀ m s x v M S X V, val m s x v M S X V 0 = felicity m s x + beta * V 0
  /-- both ways of evaluating the value function agree -/
  eval : ∀ v i j S, evalIJS v i j S 0 = evalI v j S 0
  /-- the value interpolated at the states reached is an average of the values at the grid points -/
  average : ∀ i < nm, ∀ n < N, ∀ y, adm i n y → ∀ j < dp.nInodes i, ∃ w : ℕ → ℕ → K,
    (∀ a < nm, ∀ b < N, 0 ≤ w a b) ∧ ∑ a ∈ Finset.range nm, ∑ b ∈ Finset.range N, w a b = 1 ∧
    ∀ v, evalI v j (transition (dp.node i) (s n) y (dp.inode i j)) 0
      = ∑ a ∈ Finset.range nm, ∑ b ∈ Finset.range N, w a b * v a b 0
  /-- the optimiser minimises the functions it is given over the admissible choices -/
  optimal : ∀ i < nm, ∀ n < N, ∀ (v : Table K) (x : ℕ → K), adm i n x →
    let h := fun y => -lookahead transition felicity evalI dp beta s i n y v
    adm i n (minimize i n h x) ∧ ∀ y, adm i n y → h (minimize i n h x) ≤ h y

/-! ### Discounted monotone operators on tables -/

/-- `look` does not increase by more than `beta * c` when the values increase by at most `c`. -/
def Discounting (nm N : ℕ) (adm : ℕ → ℕ → (ℕ → K) → Prop) (look : ℕ → ℕ → (ℕ → K) → Table K → K) (beta : K) :
    Prop :=
  ∀ i < nm, ∀ n < N, ∀ y, adm i n y → ∀ (v v' : Table K) (c : K),
    (∀ a < nm, ∀ b < N, v a b 0 ≤ v' a b 0 + c) → look i n y v ≤ look i n y v' + beta * c

private theorem exists_sup (nm N : ℕ) (d : ℕ → ℕ → K) :
    (∀ a < nm, ∀ b < N, d a b ≤ 0) ∨
    ∃ a < nm, ∃ b < N, 0 < d a b ∧ ∀ a' < nm, ∀ b' < N, d a' b' ≤ d a b := by
  by_cases h : ∀ a < nm, ∀ b < N, d a b ≤ 0
  · exact .inl h
  · right
    push Not at h
    obtain ⟨a, ha, b, hb, hab⟩ := h
    obtain ⟨p, hp, hmax⟩ := Finset.exists_max_image (Finset.range nm ×ˢ Finset.range N) (fun p => d p.1 p.2)
      ⟨(a, b), by simp [ha, hb]⟩
    rw [Finset.mem_product, Finset.mem_range, Finset.mem_range] at hp
    have h2 : ∀ a' < nm, ∀ b' < N, d a' b' ≤ d p.1 p.2 := fun a' ha' b' hb' =>
      hmax (a', b') (by simp [ha', hb'])
    exact ⟨p.1, hp.1, p.2, hp.2, lt_of_lt_of_le hab (h2 a ha b hb), h2⟩

/-- If a table of differences never exceeds `beta` times its positive supremum by more than `δ`, it is at most
`δ / (1 - beta)`. -/
theorem le_of_self (nm N : ℕ) (beta δ : K) (hb1 : beta < 1) (hδ : 0 ≤ δ) (d : ℕ → ℕ → K)
    (h : ∀ c, 0 ≤ c → (∀ a < nm, ∀ b < N, d a b ≤ c) → ∀ a < nm, ∀ b < N, d a b ≤ beta * c + δ) :
    ∀ a < nm, ∀ b < N, d a b ≤ δ / (1 - beta) := by
  have hb : 0 < 1 - beta := by linarith
  rcases exists_sup nm N d with h0 | ⟨a, ha, b, hb', hpos, hmax⟩
  · intro a ha b hb'
    exact le_trans (h0 a ha b hb') (div_nonneg hδ hb.le)
  · have h1 := h _ hpos.le hmax a ha b hb'
    intro a' ha' b' hb''
    refine le_trans (hmax a' ha' b' hb'') ?_
    rw [le_div_iff₀ hb]
    linarith

variable {nm N : ℕ} {adm : ℕ → ℕ → (ℕ → K) → Prop} {look : ℕ → ℕ → (ℕ → K) → Table K → K} {beta : K}

/-- Below a table that the policy `x` raises, up to `δ`. -/
theorem sub_le_of_policy (hb1 : beta < 1) (hd : Discounting nm N adm look beta) (x : Table K)
    (hx : ∀ i < nm, ∀ n < N, adm i n (x i n)) (u w : Table K) (δ : K) (hδ : 0 ≤ δ)
    (hu : ∀ i < nm, ∀ n < N, u i n 0 ≤ look i n (x i n) u + δ)
    (hw : ∀ i < nm, ∀ n < N, look i n (x i n) w ≤ w i n 0) :
    ∀ i < nm, ∀ n < N, u i n 0 - w i n 0 ≤ δ / (1 - beta) := by
  apply le_of_self nm N beta δ hb1 hδ
  intro c hc h a ha b hb
  have h1 := hd a ha b hb _ (hx a ha b hb) u w c (fun a ha b hb => by have := h a ha b hb; linarith)
  have h2 := hu a ha b hb
  have h3 := hw a ha b hb
  linarith

/-- A table that its greedy policy raises by at most `δ` is not far below the solution. -/
theorem sub_le_of_greedy (hb1 : beta < 1) (hd : Discounting nm N adm look beta)
    (vstar : Table K) (hv : BellmanSolution nm N adm look vstar) (w : Table K) (δ : K) (hδ : 0 ≤ δ)
    (hw : ∀ i < nm, ∀ n < N, ∀ y, adm i n y → look i n y w ≤ w i n 0 + δ) :
    ∀ i < nm, ∀ n < N, vstar i n 0 - w i n 0 ≤ δ / (1 - beta) := by
  apply le_of_self nm N beta δ hb1 hδ
  intro c hc h a ha b hb
  obtain ⟨⟨y, hy, he⟩, -⟩ := hv a ha b hb
  have h1 := hd a ha b hb y hy vstar w c (fun a ha b hb => by have := h a ha b hb; linarith)
  have h2 := hw a ha b hb y hy
  linarith

private theorem look_le_star (vstar : Table K) (hv : BellmanSolution nm N adm look vstar) {i n : ℕ} (hi : i < nm)
    (hn : n < N) {y : ℕ → K} (hy : adm i n y) : look i n y vstar ≤ vstar i n 0 :=
  (hv i hi n hn).2 ⟨y, hy, rfl⟩

/-! ### The loops -/

private theorem viLoop_inv {X V : Type} (evaluate : ℕ → X → V → V) (improve : X → V → X × V) (distX : X → X → K)
    (distV : V → V → K) (tol tol_x : K) (Inv : ℕ → K → X → V → Prop)
    (hstep : ∀ n e x v, Inv n e x v →
      Inv (n + 1) (distV (improve x (evaluate (n + 1) x v)).2 (evaluate (n + 1) x v))
        (improve x (evaluate (n + 1) x v)).1 (improve x (evaluate (n + 1) x v)).2)
    (k it : ℕ) (ev ex : K) (x : X) (v : V) (set : Bool) (h : Inv it ev x v) :
    let r := viLoop evaluate improve distX distV tol tol_x k it ev ex x v set
    Inv r.1 r.2.1 r.2.2.2.1 r.2.2.2.2.1 := by
  induction k generalizing it ev ex x v set with
  | zero => exact h
  | succ k ih =>
    unfold viLoop
    split_ifs with he
    · exact ih _ _ _ _ _ _ (hstep _ _ _ _ h)
    · exact h

/-- **C32, the budget suffices.**  If `T` is a contraction of modulus `β` on a set of tables it maps to itself,
the error reported by `evaluate_policy` is at most `tol` as soon as `β ^ k` times the first change is, for some
`k < maxit`; in any case it is at most the larger of `tol` and `β ^ (maxit - 1)` times the first change. -/
theorem C32_converges {X : Type} (T : X → X) (dist : X → X → K) (P : X → Prop) (hP : ∀ a, P a → P (T a))
    (β : K) (hβ : 0 ≤ β) (hT : ∀ a b, P a → P b → dist (T a) (T b) ≤ β * dist a b)
    (tol : K) (htol : tol < 10) (maxit : ℕ) (hmax : 1 ≤ maxit) (v0 : X) (hv0 : P v0) (dr0 : Option X) :
    let r := evaluatePolicy T dist tol maxit v0 dr0
    (∃ v, r.solution = some v ∧ P v ∧ r.error = dist (T v) v) ∧
    r.error ≤ max tol (β ^ (maxit - 1) * dist (T v0) v0) ∧
    ∀ k < maxit, β ^ k * dist (T v0) v0 ≤ tol → β ≤ 1 → 0 ≤ dist (T v0) v0 → r.error ≤ tol := by
  intro r
  obtain ⟨h1, h2, h3, v, h4, h5, h6⟩ := C32_evaluate_policy T dist tol htol maxit hmax v0 dr0
  have hPk : ∀ k, P (T^[k] v0) := by
    intro k
    induction k with
    | zero => exact hv0
    | succ k ih => rw [Function.iterate_succ_apply']; exact hP _ ih
  have hk : ∀ k, dist (T (T^[k] v0)) (T^[k] v0) ≤ β ^ k * dist (T v0) v0 := by
    intro k
    induction k with
    | zero => simp
    | succ k ih =>
      rw [Function.iterate_succ_apply', pow_succ']
      refine le_trans (hT _ _ (hP _ (hPk k)) (hPk k)) ?_
      rw [mul_assoc]
      exact mul_le_mul_of_nonneg_left ih hβ
  have hdich : r.iterations < maxit ∨ r.error ≤ β ^ (maxit - 1) * dist (T v0) v0 := by
    rcases Nat.lt_or_ge r.iterations maxit with h | h
    · exact .inl h
    · right
      have e : r.iterations = maxit := le_antisymm h2 h
      have := hk (maxit - 1)
      rw [← e] at this
      rw [← e]
      rw [← h5] at this
      exact le_trans (le_of_eq h6) this
  refine ⟨⟨v, h4, ?_, h6⟩, ?_, ?_⟩
  · rw [h5]; exact hPk _
  · rcases hdich with h | h
    · exact le_max_of_le_left (h3 h)
    · exact le_max_of_le_right h
  · intro k hk' hle hβ1 hd
    rcases hdich with h | h
    · exact h3 h
    · refine le_trans h (le_trans ?_ hle)
      exact mul_le_mul_of_nonneg_right (pow_le_pow_of_le_one hβ hβ1 (by omega)) hd

/-! ### The parts of a dynamic program -/

section parts

variable {minimize : ℕ → ℕ → ((ℕ → K) → K) → (ℕ → K) → (ℕ → K)}
  {transition : (m s x M : ℕ → K) → ℕ → K} {felicity : (m s x : ℕ → K) → K}
  {val : (m s x v M S X V : ℕ → K) → ℕ → K} {evalX evalIJS : Table K → ℕ → ℕ → (ℕ → K) → ℕ → K}
  {evalI : Table K → ℕ → (ℕ → K) → ℕ → K} {dp : DProc K} {s : ℕ → ℕ → K}

theorem lookahead_disc
    (D : DynamicProgram nm N adm minimize transition felicity val evalIJS evalI dp beta s) :
    Discounting nm N adm (lookahead transition felicity evalI dp beta s) beta := by
  intro i hi n hn y hy v v' c h
  unfold lookahead
  have hev : ∀ j ∈ Finset.range (dp.nInodes i),
      dp.iweight i j * evalI v j (transition (dp.node i) (s n) y (dp.inode i j)) 0
        ≤ dp.iweight i j * evalI v' j (transition (dp.node i) (s n) y (dp.inode i j)) 0
          + dp.iweight i j * c := by
    intro j hj
    have hj := Finset.mem_range.1 hj
    obtain ⟨w, hw0, hw1, hw⟩ := D.average i hi n hn y hy j hj
    rw [hw v, hw v', ← mul_add]
    apply mul_le_mul_of_nonneg_left _ (D.weights i hi j hj)
    have e : c = ∑ a ∈ Finset.range nm, ∑ b ∈ Finset.range N, w a b * c := by
      simp only [← Finset.sum_mul]
      rw [hw1, one_mul]
    rw [e, ← Finset.sum_add_distrib]
    apply Finset.sum_le_sum
    intro a ha
    rw [← Finset.sum_add_distrib]
    apply Finset.sum_le_sum
    intro b hb
    rw [← mul_add]
    have ha := Finset.mem_range.1 ha
    have hb := Finset.mem_range.1 hb
    exact mul_le_mul_of_nonneg_left (h a ha b hb) (hw0 a ha b hb)
  have hsum := Finset.sum_le_sum hev
  rw [Finset.sum_add_distrib, ← Finset.sum_mul, D.weights_sum i hi, one_mul] at hsum
  have := mul_le_mul_of_nonneg_left hsum D.beta_nonneg
  linarith

private theorem lookahead_const
    (D : DynamicProgram nm N adm minimize transition felicity val evalIJS evalI dp beta s) {i n : ℕ} (hi : i < nm)
    (hn : n < N) {y : ℕ → K} (hy : adm i n y) (c : K) :
    lookahead transition felicity evalI dp beta s i n y (fun _ _ _ => c)
      = felicity (dp.node i) (s n) y + beta * c := by
  unfold lookahead
  congr 2
  have : ∀ j ∈ Finset.range (dp.nInodes i),
      dp.iweight i j * evalI (fun _ _ _ => c) j (transition (dp.node i) (s n) y (dp.inode i j)) 0
        = dp.iweight i j * c := by
    intro j hj
    obtain ⟨w, hw0, hw1, hw⟩ := D.average i hi n hn y hy j (Finset.mem_range.1 hj)
    rw [hw]
    simp only [← Finset.sum_mul]
    rw [hw1, one_mul]
  rw [Finset.sum_congr rfl this, ← Finset.sum_mul, D.weights_sum i hi, one_mul]

private theorem policyUpdate_eq
    (D : DynamicProgram nm N adm minimize transition felicity val evalIJS evalI dp beta s) (x v : Table K)
    {i : ℕ} (hi : i < nm) (n : ℕ) :
    policyUpdate val transition s evalX evalIJS dp x v i n 0
      = lookahead transition felicity evalI dp beta s i n (x i n) v := by
  unfold policyUpdate
  rw [updateValue_eq]
  simp only [D.value, D.eval, mul_add, Finset.sum_add_distrib]
  rw [← Finset.sum_mul, ← D.inodes i hi, D.weights_sum i hi, one_mul]
  unfold lookahead
  rw [Finset.mul_sum]
  congr 1
  apply Finset.sum_congr rfl
  intro j _
  ring

private theorem improve_step
    (D : DynamicProgram nm N adm minimize transition felicity val evalIJS evalI dp beta s) (x : Table K)
    (hx : ∀ i < nm, ∀ n < N, adm i n (x i n)) (v w : Table K) :
    let r := improveTables minimize transition felicity evalI dp beta s x (v, w)
    r.2.2 = w ∧ (∀ i < nm, ∀ n < N, adm i n (r.1 i n)) ∧
    (∀ i < nm, ∀ n < N, r.2.1 i n 0 = lookahead transition felicity evalI dp beta s i n (r.1 i n) w) ∧
    ∀ i < nm, ∀ n < N, ∀ y, adm i n y →
      lookahead transition felicity evalI dp beta s i n y w ≤ r.2.1 i n 0 := by
  intro r
  have hcv : ∀ i n y, choiceValue transition felicity i (s n) y (fun I S => evalI w I S 0) dp beta
      = lookahead transition felicity evalI dp beta s i n y w := fun i n y => by
    rw [choiceValue_eq]; rfl
  have hval : ∀ i n, r.2.1 i n 0 = lookahead transition felicity evalI dp beta s i n (r.1 i n) w := by
    intro i n
    simp only [r, improveTables, valueStep, if_true, neg_neg, hcv]
  have hr1 : ∀ i n, r.1 i n = minimize i n
      (fun y => -lookahead transition felicity evalI dp beta s i n y w) (x i n) := by
    intro i n
    simp only [r, improveTables, valueStep, hcv]
  refine ⟨rfl, ?_, fun i _ n _ => hval i n, ?_⟩
  · intro i hi n hn
    rw [hr1]
    exact (D.optimal i hi n hn w _ (hx i hi n hn)).1
  · intro i hi n hn y hy
    have := (D.optimal i hi n hn w _ (hx i hi n hn)).2 y hy
    rw [hval, hr1]
    simp only [] at this
    linarith

/-- **C108, what the reported error says.**  Whatever the evaluation step did: the values returned are within
`beta / (1 - beta)` times the reported error of the solution of the Bellman equation, and the value of the policy
returned within twice as much.  If the loop stopped before `maxit`, the reported error is at most `tol`. -/
theorem C108_a_posteriori
    (D : DynamicProgram nm N adm minimize transition felicity val evalIJS evalI dp beta s) (nx : ℕ)
    (vcal : Table K) (tol : K) (maxit : ℕ) (x0 : Table K) (hx0 : ∀ i < nm, ∀ n < N, adm i n (x0 i n))
    (r : VIResult (Table K) (Table K × Table K) K)
    (h : valueIterationFull nm N nx minimize transition felicity val evalX evalIJS evalI dp beta s vcal tol maxit
      x0 = .ok r)
    (vstar : Table K)
    (hv : BellmanSolution nm N adm (lookahead transition felicity evalI dp beta s) vstar) :
    (∀ i < nm, ∀ n < N, adm i n (r.controls i n)) ∧
    (∀ i < nm, ∀ n < N, |r.values.1 i n 0 - vstar i n 0| ≤ beta / (1 - beta) * r.v_err) ∧
    (∀ u : Table K, (∀ i < nm, ∀ n < N,
        u i n 0 = lookahead transition felicity evalI dp beta s i n (r.controls i n) u) →
      ∀ i < nm, ∀ n < N, |u i n 0 - vstar i n 0| ≤ 2 * (beta / (1 - beta) * r.v_err)) ∧
    (r.iterations < maxit → r.v_err ≤ tol) := by
  have hb0 := D.beta_nonneg
  have hb1 := D.beta_lt_one
  have hd := lookahead_disc D
  have hstop := C31_value_iteration_partial _ _ _ _ _ _ _ _ _ h
  have hfin : (∀ i < nm, ∀ n < N, adm i n (r.controls i n)) ∧
      r.v_err = tableMax nm N 1 (fun i n k => r.values.1 i n k - r.values.2 i n k) ∧
      (∀ i < nm, ∀ n < N, r.values.1 i n 0
        = lookahead transition felicity evalI dp beta s i n (r.controls i n) r.values.2) ∧
      ∀ i < nm, ∀ n < N, ∀ y, adm i n y →
        lookahead transition felicity evalI dp beta s i n y r.values.2 ≤ r.values.1 i n 0 := by
    have hpos := hstop.1
    unfold valueIterationFull valueIteration at h
    simp only [] at h
    have hinv := viLoop_inv
      (evaluateTables (policyUpdate val transition s evalX evalIJS dp)
        (fun a b : Table K => tableMax nm N 1 fun i n k => a i n k - b i n k) vcal)
      (improveTables minimize transition felicity evalI dp beta s)
      (fun a b : Table K => tableMax nm N nx fun i n k => a i n k - b i n k)
      (fun a b : Table K × Table K => tableMax nm N 1 fun i n k => a.1 i n k - b.1 i n k) tol (1 / 10 ^ 5)
      (fun it e x v => (∀ i < nm, ∀ n < N, adm i n (x i n)) ∧ (1 ≤ it →
        e = tableMax nm N 1 (fun i n k => v.1 i n k - v.2 i n k) ∧
        (∀ i < nm, ∀ n < N, v.1 i n 0 = lookahead transition felicity evalI dp beta s i n (x i n) v.2) ∧
        ∀ i < nm, ∀ n < N, ∀ y, adm i n y →
          lookahead transition felicity evalI dp beta s i n y v.2 ≤ v.1 i n 0))
      (by
        intro n e x v hI
        rcases hw : evaluateTables (policyUpdate val transition s evalX evalIJS dp)
          (fun a b : Table K => tableMax nm N 1 fun i n k => a i n k - b i n k) vcal (n + 1) x v with ⟨w1, w⟩
        have hw1 : w1 = w := by
          unfold evaluateTables at hw
          simp only [Prod.mk.injEq] at hw
          exact hw.1.symm.trans hw.2
        subst hw1
        obtain ⟨h1, h2, h3, h4⟩ := improve_step D x hI.1 w1 w1
        refine ⟨h2, fun _ => ⟨?_, ?_, ?_⟩⟩
        · rw [h1]
        · rw [h1]; exact h3
        · rw [h1]; exact h4)
      maxit 0 100 100 x0 (fun _ _ _ => 0, vcal) false ⟨hx0, fun h => absurd h (by omega)⟩
    rcases hl : viLoop (evaluateTables (policyUpdate val transition s evalX evalIJS dp)
        (fun a b : Table K => tableMax nm N 1 fun i n k => a i n k - b i n k) vcal)
      (improveTables minimize transition felicity evalI dp beta s)
      (fun a b : Table K => tableMax nm N nx fun i n k => a i n k - b i n k)
      (fun a b : Table K × Table K => tableMax nm N 1 fun i n k => a.1 i n k - b.1 i n k) tol (1 / 10 ^ 5)
      maxit 0 100 100 x0 (fun _ _ _ => 0, vcal) false with ⟨it, ev, ex, x, v, set⟩
    rw [hl] at h hinv
    cases set with
    | false => simp at h
    | true =>
      simp only [Except.ok.injEq] at h
      subst h
      exact ⟨hinv.1, hinv.2 hpos⟩
  obtain ⟨hadm, herr, hval, hgreedy⟩ := hfin
  set w := r.values.2 with hw
  set η := r.v_err with hη
  have hη0 : 0 ≤ η := by rw [herr]; exact tableMax_nonneg _ _ _ _
  have hdist : ∀ i < nm, ∀ n < N, |r.values.1 i n 0 - w i n 0| ≤ η := by
    intro i hi n hn
    exact (tableMax_le_iff nm N 1 _ η hη0).1 (le_of_eq herr.symm) i hi n hn 0 (by omega)
  have hb : 0 < 1 - beta := by linarith
  -- the values before the last improvement, and the solution
  have up : ∀ i < nm, ∀ n < N, vstar i n 0 - w i n 0 ≤ η / (1 - beta) := by
    apply sub_le_of_greedy hb1 hd vstar hv w η hη0
    intro i hi n hn y hy
    have h1 := hgreedy i hi n hn y hy
    have h2 := abs_le.1 (hdist i hi n hn)
    linarith [h2.2]
  have lo : ∀ i < nm, ∀ n < N, w i n 0 - vstar i n 0 ≤ η / (1 - beta) := by
    apply sub_le_of_policy hb1 hd r.controls hadm w vstar η hη0
    · intro i hi n hn
      have h2 := abs_le.1 (hdist i hi n hn)
      rw [hval i hi n hn] at h2
      linarith [h2.1]
    · intro i hi n hn
      exact look_le_star vstar hv hi hn (hadm i hi n hn)
  have hvals : ∀ i < nm, ∀ n < N, |r.values.1 i n 0 - vstar i n 0| ≤ beta / (1 - beta) * η := by
    intro i hi n hn
    have e : beta / (1 - beta) * η = beta * (η / (1 - beta)) := by ring
    rw [e, abs_le]
    constructor
    · obtain ⟨⟨y, hy, he⟩, -⟩ := hv i hi n hn
      have h1 := hd i hi n hn y hy vstar w (η / (1 - beta))
        (fun a ha b hb => by have := up a ha b hb; linarith)
      have h2 := hgreedy i hi n hn y hy
      linarith
    · have h1 := hd i hi n hn _ (hadm i hi n hn) w vstar (η / (1 - beta))
        (fun a ha b hb => by have := lo a ha b hb; linarith)
      have h2 := look_le_star vstar hv hi hn (hadm i hi n hn)
      rw [hval i hi n hn]
      linarith
  refine ⟨hadm, hvals, ?_, fun h => (hstop.2.2.2.1 h).1⟩
  intro u hu i hi n hn
  have u1 : ∀ i < nm, ∀ n < N, u i n 0 - w i n 0 ≤ η / (1 - beta) := by
    apply le_of_self nm N beta η hb1 hη0
    intro c hc h a ha b hb
    have h1 := hd a ha b hb _ (hadm a ha b hb) u w c (fun a ha b hb => by have := h a ha b hb; linarith)
    have h2 := abs_le.1 (hdist a ha b hb)
    rw [hval a ha b hb] at h2
    rw [hu a ha b hb]
    linarith [h2.2]
  have u2 : ∀ i < nm, ∀ n < N, w i n 0 - u i n 0 ≤ η / (1 - beta) := by
    apply le_of_self nm N beta η hb1 hη0
    intro c hc h a ha b hb
    have h1 := hd a ha b hb _ (hadm a ha b hb) w u c (fun a ha b hb => by have := h a ha b hb; linarith)
    have h2 := abs_le.1 (hdist a ha b hb)
    rw [hval a ha b hb] at h2
    rw [hu a ha b hb]
    linarith [h2.1]
  have u3 : |u i n 0 - r.values.1 i n 0| ≤ beta / (1 - beta) * η := by
    have e : beta / (1 - beta) * η = beta * (η / (1 - beta)) := by ring
    rw [e, hu i hi n hn, hval i hi n hn, abs_le]
    have h1 := hd i hi n hn _ (hadm i hi n hn) u w (η / (1 - beta))
      (fun a ha b hb => by have := u1 a ha b hb; linarith)
    have h2 := hd i hi n hn _ (hadm i hi n hn) w u (η / (1 - beta))
      (fun a ha b hb => by have := u2 a ha b hb; linarith)
    constructor <;> linarith
  have h4 := hvals i hi n hn
  have : u i n 0 - vstar i n 0 = (u i n 0 - r.values.1 i n 0) + (r.values.1 i n 0 - vstar i n 0) := by ring
  rw [this]
  refine le_trans (abs_add_le _ _) ?_
  linarith

private theorem lookahead_bound
    (D : DynamicProgram nm N adm minimize transition felicity val evalIJS evalI dp beta s) (R : K)
    (hR : ∀ i < nm, ∀ n < N, ∀ y, adm i n y → |felicity (dp.node i) (s n) y| ≤ R * (1 - beta)) (v : Table K)
    (c : K) (hv : ∀ i < nm, ∀ n < N, |v i n 0| ≤ c) {i n : ℕ} (hi : i < nm) (hn : n < N) {y : ℕ → K}
    (hy : adm i n y) :
    |lookahead transition felicity evalI dp beta s i n y v| ≤ beta * c + R * (1 - beta) := by
  have hd := lookahead_disc D
  have h1 := hd i hi n hn y hy v (fun _ _ _ => 0) c (fun a ha b hb => by
    have := abs_le.1 (hv a ha b hb); linarith [this.2])
  have h2 := hd i hi n hn y hy (fun _ _ _ => 0) v c (fun a ha b hb => by
    have := abs_le.1 (hv a ha b hb); linarith [this.1])
  rw [lookahead_const D hi hn hy] at h1 h2
  have h3 := abs_le.1 (hR i hi n hn y hy)
  rw [abs_le]
  constructor <;> linarith [h3.1, h3.2]

private theorem star_bound
    (D : DynamicProgram nm N adm minimize transition felicity val evalIJS evalI dp beta s) (R : K) (hR0 : 0 ≤ R)
    (hR : ∀ i < nm, ∀ n < N, ∀ y, adm i n y → |felicity (dp.node i) (s n) y| ≤ R * (1 - beta)) (vstar : Table K)
    (hv : BellmanSolution nm N adm (lookahead transition felicity evalI dp beta s) vstar) :
    ∀ i < nm, ∀ n < N, |vstar i n 0| ≤ R := by
  have hb1 := D.beta_lt_one
  have hb : 0 < 1 - beta := by linarith
  have := le_of_self nm N beta (R * (1 - beta)) hb1 (mul_nonneg hR0 hb.le) (fun i n => |vstar i n 0|)
    (by
      intro c hc h a ha b hb
      obtain ⟨⟨y, hy, he⟩, -⟩ := hv a ha b hb
      have h1 := lookahead_bound D R hR vstar c h ha hb hy
      rw [he]
      exact h1)
  intro i hi n hn
  have h1 := this i hi n hn
  rwa [mul_div_cancel_right₀ _ (ne_of_gt hb)] at h1

/-- The evaluation in one pass: the values found are bounded, and one more application of the operator moves them
by at most `τ`. -/
private theorem evaluate_step
    (D : DynamicProgram nm N adm minimize transition felicity val evalIJS evalI dp beta s) (R : K) (hR0 : 0 ≤ R)
    (hR : ∀ i < nm, ∀ n < N, ∀ y, adm i n y → |felicity (dp.node i) (s n) y| ≤ R * (1 - beta)) (vcal : Table K)
    (hcal : ∀ i < nm, ∀ n < N, |vcal i n 0| ≤ R) (it : ℕ) (x : Table K)
    (hx : ∀ i < nm, ∀ n < N, adm i n (x i n)) (v : Table K × Table K) (hv : ∀ i < nm, ∀ n < N, |v.2 i n 0| ≤ R) :
    ∃ w, evaluateTables (policyUpdate val transition s evalX evalIJS dp)
        (fun a b : Table K => tableMax nm N 1 fun i n k => a i n k - b i n k) vcal it x v = (w, w) ∧
      (∀ i < nm, ∀ n < N, |w i n 0| ≤ R) ∧
      ∀ i < nm, ∀ n < N, |lookahead transition felicity evalI dp beta s i n (x i n) w - w i n 0|
        ≤ max (1 / 10 ^ 8) (2 * R * beta ^ 1999) := by
  have hb0 := D.beta_nonneg
  have hd := lookahead_disc D
  set dist : Table K → Table K → K := fun a b => tableMax nm N 1 fun i n k => a i n k - b i n k with hdist
  set T := policyUpdate val transition s evalX evalIJS dp x with hT
  have hTl : ∀ u : Table K, ∀ i < nm, ∀ n,
      T u i n 0 = lookahead transition felicity evalI dp beta s i n (x i n) u :=
    fun u i hi n => policyUpdate_eq D x u hi n
  have hdle : ∀ (a b : Table K) (c : K), 0 ≤ c → (dist a b ≤ c ↔ ∀ i < nm, ∀ n < N, |a i n 0 - b i n 0| ≤ c) := by
    intro a b c hc
    rw [hdist]
    simp only []
    rw [tableMax_le_iff _ _ _ _ _ hc]
    constructor
    · intro h i hi n hn; exact h i hi n hn 0 (by omega)
    · intro h i hi n hn k hk
      have : k = 0 := by omega
      subst this
      exact h i hi n hn
  have hd0 : ∀ a b, 0 ≤ dist a b := fun a b => tableMax_nonneg _ _ _ _
  have hcontr : ∀ a b : Table K, dist (T a) (T b) ≤ beta * dist a b := by
    intro a b
    rw [hdle _ _ _ (mul_nonneg hb0 (hd0 _ _))]
    intro i hi n hn
    have h0 := (hdle a b _ (hd0 a b)).1 (le_refl _)
    rw [hTl a i hi n, hTl b i hi n, abs_le]
    have h1 := hd i hi n hn _ (hx i hi n hn) a b (dist a b) (fun p hp q hq => by
      have := abs_le.1 (h0 p hp q hq); linarith [this.2])
    have h2 := hd i hi n hn _ (hx i hi n hn) b a (dist a b) (fun p hp q hq => by
      have := abs_le.1 (h0 p hp q hq); linarith [this.1])
    constructor <;> linarith
  set P : Table K → Prop := fun u => ∀ i < nm, ∀ n < N, |u i n 0| ≤ R with hP
  have hPT : ∀ u, P u → P (T u) := by
    intro u hu i hi n hn
    rw [hTl u i hi n]
    refine le_trans (lookahead_bound D R hR u R hu hi hn (hx i hi n hn)) (le_of_eq ?_)
    ring
  have key : ∀ (v0 : Table K) (dr0 : Option (Table K)), P v0 →
      ∃ w, (evaluatePolicy T dist (1 / 10 ^ 8) 2000 v0 dr0).solution = some w ∧ P w ∧
        ∀ i < nm, ∀ n < N, |lookahead transition felicity evalI dp beta s i n (x i n) w - w i n 0|
          ≤ max (1 / 10 ^ 8) (2 * R * beta ^ 1999) := by
    intro v0 dr0 hv0
    obtain ⟨⟨w, h1, h2, h3⟩, h4, -⟩ := C32_converges T dist P hPT beta hb0 (fun a b _ _ => hcontr a b)
      (1 / 10 ^ 8) (by norm_num) 2000 (by omega) v0 hv0 dr0
    refine ⟨w, h1, h2, ?_⟩
    have h5 : dist (T v0) v0 ≤ 2 * R := by
      rw [hdle _ _ _ (by linarith)]
      intro i hi n hn
      have e1 := abs_le.1 (hPT v0 hv0 i hi n hn)
      have e2 := abs_le.1 (hv0 i hi n hn)
      rw [abs_le]
      constructor <;> linarith [e1.1, e1.2, e2.1, e2.2]
    have h6 : dist (T w) w ≤ max (1 / 10 ^ 8) (2 * R * beta ^ 1999) := by
      rw [← h3]
      refine le_trans h4 (max_le_max (le_refl _) ?_)
      rw [mul_comm (2 * R)]
      exact mul_le_mul_of_nonneg_left h5 (pow_nonneg hb0 _)
    have h7 : (0 : K) ≤ max (1 / 10 ^ 8) (2 * R * beta ^ 1999) := le_max_of_le_left (by positivity)
    intro i hi n hn
    rw [← hTl w i hi n]
    exact (hdle _ _ _ h7).1 h6 i hi n hn
  unfold evaluateTables
  by_cases hit : it > 2
  · obtain ⟨w, h1, h2, h3⟩ := key v.2 (some v.2) hv
    refine ⟨w, ?_, h2, h3⟩
    simp only [if_pos hit]
    rw [h1]
    rfl
  · obtain ⟨w, h1, h2, h3⟩ := key vcal none hcal
    refine ⟨w, ?_, h2, h3⟩
    simp only [if_neg hit]
    rw [h1]
    rfl

/-- **C108, convergence.**  Let felicity be bounded by `R * (1 - beta)` and the calibrated value by `R`.  After
`k` passes the values returned are at most `beta / (1 - beta) * τ` above the solution of the Bellman equation and
at most `2 * R * beta ^ k + beta * (1 + beta) / (1 - beta) ^ 2 * τ` below it, and so is, up to another
`beta / (1 - beta) * τ`, the value of the policy returned, where `τ` is the accuracy of the policy evaluation: the
larger of `1e-8` and `2 * R * beta ^ 1999`. -/
theorem C108_convergence
    (D : DynamicProgram nm N adm minimize transition felicity val evalIJS evalI dp beta s) (R : K) (hR0 : 0 ≤ R)
    (hR : ∀ i < nm, ∀ n < N, ∀ y, adm i n y → |felicity (dp.node i) (s n) y| ≤ R * (1 - beta)) (nx : ℕ)
    (vcal : Table K) (hcal : ∀ i < nm, ∀ n < N, |vcal i n 0| ≤ R) (tol : K) (maxit : ℕ) (x0 : Table K)
    (hx0 : ∀ i < nm, ∀ n < N, adm i n (x0 i n)) (r : VIResult (Table K) (Table K × Table K) K)
    (h : valueIterationFull nm N nx minimize transition felicity val evalX evalIJS evalI dp beta s vcal tol maxit
      x0 = .ok r)
    (vstar : Table K)
    (hv : BellmanSolution nm N adm (lookahead transition felicity evalI dp beta s) vstar) :
    let τ := max (1 / 10 ^ 8) (2 * R * beta ^ 1999)
    let low := 2 * R * beta ^ r.iterations + beta * (1 + beta) / (1 - beta) ^ 2 * τ
    (∀ i < nm, ∀ n < N, vstar i n 0 - low ≤ r.values.1 i n 0 ∧
      r.values.1 i n 0 ≤ vstar i n 0 + beta / (1 - beta) * τ) ∧
    ∀ u : Table K, (∀ i < nm, ∀ n < N,
        u i n 0 = lookahead transition felicity evalI dp beta s i n (r.controls i n) u) →
      ∀ i < nm, ∀ n < N, vstar i n 0 - (low + beta / (1 - beta) * τ) ≤ u i n 0 ∧ u i n 0 ≤ vstar i n 0 := by
  intro τ low
  have hb0 := D.beta_nonneg
  have hb1 := D.beta_lt_one
  have hb : 0 < 1 - beta := by linarith
  have hbne : 1 - beta ≠ 0 := ne_of_gt hb
  have hd := lookahead_disc D
  have hτ0 : 0 ≤ τ := le_max_of_le_left (by positivity)
  have hstar := star_bound D R hR0 hR vstar hv
  set δ := τ * (1 + beta) / (1 - beta) ^ 2 with hδ
  have hδ0 : 0 ≤ δ := div_nonneg (mul_nonneg hτ0 (by linarith)) (pow_nonneg hb.le _)
  have hpos := (C31_value_iteration_partial _ _ _ _ _ _ _ _ _ h).1
  have hfin : (∀ i < nm, ∀ n < N, adm i n (r.controls i n)) ∧
      (∀ i < nm, ∀ n < N, r.values.1 i n 0
        = lookahead transition felicity evalI dp beta s i n (r.controls i n) r.values.2) ∧
      (∀ i < nm, ∀ n < N, ∀ y, adm i n y →
        lookahead transition felicity evalI dp beta s i n y r.values.2 ≤ r.values.1 i n 0) ∧
      (∀ i < nm, ∀ n < N, r.values.2 i n 0 ≤ r.values.1 i n 0 + τ) ∧
      (∀ i < nm, ∀ n < N, r.values.2 i n 0 - vstar i n 0 ≤ τ / (1 - beta)) ∧
      ∀ i < nm, ∀ n < N, vstar i n 0 - r.values.2 i n 0 ≤ 2 * R * beta ^ (r.iterations - 1) + δ := by
    unfold valueIterationFull valueIteration at h
    simp only [] at h
    have hinv := viLoop_inv
      (evaluateTables (policyUpdate val transition s evalX evalIJS dp)
        (fun a b : Table K => tableMax nm N 1 fun i n k => a i n k - b i n k) vcal)
      (improveTables minimize transition felicity evalI dp beta s)
      (fun a b : Table K => tableMax nm N nx fun i n k => a i n k - b i n k)
      (fun a b : Table K × Table K => tableMax nm N 1 fun i n k => a.1 i n k - b.1 i n k) tol (1 / 10 ^ 5)
      (fun it _ x v => (∀ i < nm, ∀ n < N, adm i n (x i n)) ∧ (∀ i < nm, ∀ n < N, |v.2 i n 0| ≤ R) ∧
        (1 ≤ it →
        (∀ i < nm, ∀ n < N, v.1 i n 0 = lookahead transition felicity evalI dp beta s i n (x i n) v.2) ∧
        (∀ i < nm, ∀ n < N, ∀ y, adm i n y →
          lookahead transition felicity evalI dp beta s i n y v.2 ≤ v.1 i n 0) ∧
        (∀ i < nm, ∀ n < N, v.2 i n 0 ≤ v.1 i n 0 + τ) ∧
        (∀ i < nm, ∀ n < N, v.2 i n 0 - vstar i n 0 ≤ τ / (1 - beta)) ∧
        ∀ i < nm, ∀ n < N, vstar i n 0 - v.2 i n 0 ≤ 2 * R * beta ^ (it - 1) + δ))
      (by
        intro it e x v hI
        obtain ⟨hx, hvR, hI⟩ := hI
        obtain ⟨w, hw, hwR, hwτ⟩ := evaluate_step (evalX := evalX) D R hR0 hR vcal hcal (it + 1) x hx v hvR
        rw [hw]
        obtain ⟨h1, h2, h3, h4⟩ := improve_step D x hx w w
        rw [h1]
        refine ⟨h2, hwR, fun _ => ⟨h3, h4, ?_, ?_, ?_⟩⟩
        · intro i hi n hn
          have e1 := h4 i hi n hn _ (hx i hi n hn)
          have e2 := abs_le.1 (hwτ i hi n hn)
          have e3 : τ = max (1 / 10 ^ 8) (2 * R * beta ^ 1999) := rfl
          rw [e3]
          linarith [e2.1]
        · apply sub_le_of_policy hb1 hd x hx w vstar τ hτ0
          · intro i hi n hn
            have e2 := abs_le.1 (hwτ i hi n hn)
            have e3 : τ = max (1 / 10 ^ 8) (2 * R * beta ^ 1999) := rfl
            rw [e3]
            linarith [e2.1]
          · intro i hi n hn
            exact look_le_star vstar hv hi hn (hx i hi n hn)
        · intro i hi n hn
          rw [Nat.add_sub_cancel]
          rcases Nat.eq_zero_or_pos it with h0 | h0
          · subst h0
            have e1 := abs_le.1 (hstar i hi n hn)
            have e2 := abs_le.1 (hwR i hi n hn)
            rw [pow_zero, mul_one]
            linarith [e1.2, e2.1]
          · obtain ⟨g1, g2, g3, g4, g5⟩ := hI h0
            have mono : ∀ i < nm, ∀ n < N, v.2 i n 0 - w i n 0 ≤ 2 * τ / (1 - beta) := by
              apply le_of_self nm N beta (2 * τ) hb1 (by linarith)
              intro c hc h a ha b hb
              have k1 := hd a ha b hb _ (hx a ha b hb) v.2 w c
                (fun a ha b hb => by have := h a ha b hb; linarith)
              have k2 := g3 a ha b hb
              rw [g1 a ha b hb] at k2
              have k3 : |_| ≤ τ := hwτ a ha b hb
              have k4 := abs_le.1 k3
              linarith [k4.2]
            obtain ⟨⟨y, hy, he⟩, -⟩ := hv i hi n hn
            have k1 := hd i hi n hn y hy vstar v.2 (2 * R * beta ^ (it - 1) + δ)
              (fun a ha b hb => by have := g5 a ha b hb; linarith)
            have k2 := g2 i hi n hn y hy
            rw [g1 i hi n hn] at k2
            have k3 := hd i hi n hn _ (hx i hi n hn) v.2 w (2 * τ / (1 - beta))
              (fun a ha b hb => by have := mono a ha b hb; linarith)
            have k4 : |_| ≤ τ := hwτ i hi n hn
            have k5 := abs_le.1 k4
            have k6 : beta ^ it = beta * beta ^ (it - 1) := by
              rw [← pow_succ']; congr 1; omega
            have k7 : beta * δ + beta * (2 * τ / (1 - beta)) + τ = δ := by
              rw [hδ]
              field_simp
              ring
            rw [k6]
            linarith [k5.2])
      maxit 0 100 100 x0 (fun _ _ _ => 0, vcal) false ⟨hx0, hcal, fun h => absurd h (by omega)⟩
    rcases hl : viLoop (evaluateTables (policyUpdate val transition s evalX evalIJS dp)
        (fun a b : Table K => tableMax nm N 1 fun i n k => a i n k - b i n k) vcal)
      (improveTables minimize transition felicity evalI dp beta s)
      (fun a b : Table K => tableMax nm N nx fun i n k => a i n k - b i n k)
      (fun a b : Table K × Table K => tableMax nm N 1 fun i n k => a.1 i n k - b.1 i n k) tol (1 / 10 ^ 5)
      maxit 0 100 100 x0 (fun _ _ _ => 0, vcal) false with ⟨it, ev, ex, x, v, set⟩
    rw [hl] at h hinv
    cases set with
    | false => simp at h
    | true =>
      simp only [Except.ok.injEq] at h
      subst h
      exact ⟨hinv.1, hinv.2.2 hpos⟩
  obtain ⟨hadm, hval, hgreedy, hraise, hup, hlow⟩ := hfin
  have elow : beta * (2 * R * beta ^ (r.iterations - 1) + δ) = low := by
    have e1 : beta ^ r.iterations = beta * beta ^ (r.iterations - 1) := by
      rw [← pow_succ']; congr 1; omega
    simp only [low, hδ, e1]
    ring
  have eup : beta * (τ / (1 - beta)) = beta / (1 - beta) * τ := by ring
  have hlowv : ∀ i < nm, ∀ n < N, vstar i n 0 - low ≤ r.values.1 i n 0 := by
    intro i hi n hn
    obtain ⟨⟨y, hy, he⟩, -⟩ := hv i hi n hn
    have k1 := hd i hi n hn y hy vstar r.values.2 (2 * R * beta ^ (r.iterations - 1) + δ)
      (fun a ha b hb => by have := hlow a ha b hb; linarith)
    have k2 := hgreedy i hi n hn y hy
    rw [elow] at k1
    linarith
  refine ⟨fun i hi n hn => ⟨hlowv i hi n hn, ?_⟩, ?_⟩
  · have k1 := hd i hi n hn _ (hadm i hi n hn) r.values.2 vstar (τ / (1 - beta))
      (fun a ha b hb => by have := hup a ha b hb; linarith)
    have k2 := look_le_star vstar hv hi hn (hadm i hi n hn)
    rw [eup] at k1
    rw [hval i hi n hn]
    linarith
  · intro u hu i hi n hn
    have u1 : ∀ i < nm, ∀ n < N, r.values.2 i n 0 - u i n 0 ≤ τ / (1 - beta) := by
      apply sub_le_of_policy hb1 hd r.controls hadm r.values.2 u τ hτ0
      · intro i hi n hn
        rw [← hval i hi n hn]
        exact hraise i hi n hn
      · intro i hi n hn
        exact le_of_eq (hu i hi n hn).symm
    have u2 : ∀ i < nm, ∀ n < N, u i n 0 - vstar i n 0 ≤ 0 / (1 - beta) := by
      apply sub_le_of_policy hb1 hd r.controls hadm u vstar 0 (le_refl _)
      · intro i hi n hn
        rw [add_zero]
        exact le_of_eq (hu i hi n hn)
      · intro i hi n hn
        exact look_le_star vstar hv hi hn (hadm i hi n hn)
    constructor
    · have k1 := hd i hi n hn _ (hadm i hi n hn) r.values.2 u (τ / (1 - beta))
        (fun a ha b hb => by have := u1 a ha b hb; linarith)
      rw [eup, ← hval i hi n hn, ← hu i hi n hn] at k1
      have := hlowv i hi n hn
      linarith
    · have := u2 i hi n hn
      rw [zero_div] at this
      linarith

/-- **C108, a result.**  With at least one pass allowed and a tolerance below the initial error `100`,
`value_iteration` returns a result. -/
theorem C108_returns (nx : ℕ) (vcal : Table K) (tol : K) (htol : tol < 100) (maxit : ℕ) (hmax : 1 ≤ maxit)
    (x0 : Table K) :
    ∃ r, valueIterationFull nm N nx minimize transition felicity val evalX evalIJS evalI dp beta s vcal tol maxit
      x0 = .ok r := by
  unfold valueIterationFull valueIteration
  simp only []
  rcases hl : viLoop (evaluateTables (policyUpdate val transition s evalX evalIJS dp)
      (fun a b : Table K => tableMax nm N 1 fun i n k => a i n k - b i n k) vcal)
    (improveTables minimize transition felicity evalI dp beta s)
    (fun a b : Table K => tableMax nm N nx fun i n k => a i n k - b i n k)
    (fun a b : Table K × Table K => tableMax nm N 1 fun i n k => a.1 i n k - b.1 i n k) tol (1 / 10 ^ 5)
    maxit 0 100 100 x0 (fun _ _ _ => 0, vcal) false with ⟨it, ev, ex, x, v, set⟩
  obtain ⟨h1, h2, h3, h4, h5⟩ := viLoop_spec _ _ _ _ _ _ _ _ _ _ _ _ _ _ _ _ _ _ _ hl
  rcases Nat.eq_zero_or_pos it with h0 | h0
  · rcases (h3 h0).2 with h | h
    · exact absurd htol (not_lt.2 h.1)
    · omega
  · have := (h4 h0).2.1
    subst this
    exact ⟨_, rfl⟩

end parts

/-! ### Example -/

private def vexEval (v : Table ℚ) (_ : ℕ) (S : ℕ → ℚ) (_ : ℕ) : ℚ := (1 - S 0) * v 0 0 0 + S 0 * v 0 1 0

private def vexLook := lookahead (fun _ _ y _ => y) (fun _ s y : ℕ → ℚ => s 0 - y 0 / 4) vexEval
  ⟨1, fun _ => 1, fun _ _ => 0, fun _ _ _ => 0, fun _ _ => 1⟩ (1 / 2) (fun n _ => (n : ℚ))

private theorem vexLook_eq (i n : ℕ) (y : ℕ → ℚ) (v : Table ℚ) :
    vexLook i n y v = n - y 0 / 4 + 1 / 2 * ((1 - y 0) * v 0 0 0 + y 0 * v 0 1 0) := by
  simp [vexLook, lookahead, vexEval]

/-- Two grid points `0` and `1`; the control `y` between `0` and `1` is the next state and costs `y / 4`, felicity
is the state less the cost, and the discount factor is one half.  Interpolation is linear, and the optimiser
compares the two ends of the interval, which is enough because the objective is affine.  The solution is
`1 / 2` at the first and `3 / 2` at the second point: it pays to move to `1`. -/
example :
    DynamicProgram (K := ℚ) 1 2 (fun _ _ y => 0 ≤ y 0 ∧ y 0 ≤ 1)
      (fun _ _ h _ => if h (fun _ => 0) ≤ h (fun _ => 1) then fun _ => 0 else fun _ => 1)
      (fun _ _ y _ => y) (fun _ s y => s 0 - y 0 / 4)
      (fun _ s y _ _ _ _ V _ => s 0 - y 0 / 4 + 1 / 2 * V 0) (fun v _ j S k => vexEval v j S k) vexEval
      ⟨1, fun _ => 1, fun _ _ => 0, fun _ _ _ => 0, fun _ _ => 1⟩ (1 / 2) (fun n _ => (n : ℚ)) ∧
    BellmanSolution 1 2 (fun _ _ y => 0 ≤ y 0 ∧ y 0 ≤ 1) vexLook (fun _ n _ => (n : ℚ) + 1 / 2) := by
  refine ⟨⟨by norm_num, by norm_num, fun _ _ => rfl, fun _ _ _ _ => by norm_num, fun _ _ => by simp, ?_, ?_, ?_,
    ?_⟩, ?_⟩
  · intro m s x v M S X V
    rfl
  · intro v i j S
    rfl
  · intro i hi n hn y hy j hj
    refine ⟨fun _ b => if b = 0 then 1 - y 0 else y 0, ?_, ?_, ?_⟩
    · intro a _ b _
      beta_reduce
      split_ifs
      · linarith [hy.2]
      · exact hy.1
    · simp [Finset.sum_range_succ]
    · intro v
      simp [Finset.sum_range_succ, vexEval]
  · intro i hi n hn v x hx h
    have e : ∀ y, h y = -(n - y 0 / 4 + 1 / 2 * ((1 - y 0) * v 0 0 0 + y 0 * v 0 1 0)) := by
      intro y
      have := vexLook_eq i n y v
      simp only [h]
      rw [← this]
      rfl
    have e2 : ∀ y, h y = (1 - y 0) * h (fun _ => 0) + y 0 * h (fun _ => 1) := by
      intro y
      rw [e, e, e]
      ring
    by_cases hc : h (fun _ => 0) ≤ h (fun _ => 1)
    · rw [if_pos hc]
      refine ⟨⟨le_refl _, by norm_num⟩, ?_⟩
      intro y hy
      rw [e2 y]
      nlinarith [hy.1, hy.2]
    · rw [if_neg hc]
      refine ⟨⟨by norm_num, le_refl _⟩, ?_⟩
      intro y hy
      push Not at hc
      rw [e2 y]
      nlinarith [hy.1, hy.2]
  · intro i hi n hn
    constructor
    · refine ⟨fun _ => 1, ⟨by norm_num, le_refl _⟩, ?_⟩
      rw [vexLook_eq]
      norm_num
      ring
    · rintro u ⟨y, hy, rfl⟩
      rw [vexLook_eq]
      norm_num
      linarith [hy.2]

end Dolo
