import Mathlib.Algebra.Order.Ring.Rat
import Mathlib.Tactic.NormNum
import Mathlib.Tactic.Linarith
import Mathlib.Tactic.LinearCombination
import Mathlib.Tactic.FinCases
import Mathlib.LinearAlgebra.Matrix.Defs
import Mathlib.Data.Matrix.Mul
import Verif.Model.Simulation

/-!
# C15, C16, C40, C41, C42 and C64-C68: simulation
-/

set_option linter.unusedSectionVars false

namespace Dolo

variable {K : Type} [Field K]

/-! ### C15: inverse-cdf draws -/

section draws

variable [LinearOrder K] [IsStrictOrderedRing K]

private theorem cumsumFrom_length (acc : K) (l : List K) : (cumsumFrom acc l).length = l.length := by
  induction l generalizing acc with
  | nil => rfl
  | cons x r ih => simp [cumsumFrom, ih]

/-- Cumulative probabilities as a user reads them: entry `i` is the sum of the first `i + 1`. -/
theorem C15_cumsum (l : List K) (i : ℕ) (hi : i < l.length) :
    (cumsum l)[i]? = some (l.take (i + 1)).sum := by
  have : ∀ (acc : K) (l : List K) (i : ℕ), i < l.length →
      (cumsumFrom acc l)[i]? = some (acc + (l.take (i + 1)).sum) := by
    intro acc l
    induction l generalizing acc with
    | nil => intro i h; simp at h
    | cons x r ih =>
      intro i h
      cases i with
      | zero => simp [cumsumFrom]
      | succ i =>
        simp only [cumsumFrom, List.getElem?_cons_succ, List.take_succ_cons, List.sum_cons]
        rw [ih (acc + x) i (by simpa using h), add_assoc]
  have h := this 0 l i hi
  rw [zero_add] at h
  exact h

/-- **C15, any cumulative row.**  The index returned is the first one whose cumulative probability
exceeds the draw; if there is none, it is one past the end. -/
theorem C15_choice_first (u : K) (cum : List K) :
    choice u cum ≤ cum.length ∧
    (∀ j c, j < choice u cum → cum[j]? = some c → c ≤ u) ∧
    (∀ c, cum[choice u cum]? = some c → u < c) := by
  induction cum with
  | nil => simp [choice]
  | cons a r ih =>
    obtain ⟨h1, h2, h3⟩ := ih
    by_cases h : u < a
    · simp [choice, h]
    · simp only [choice, if_neg h]
      refine ⟨by simpa using h1, ?_, ?_⟩
      · intro j c hj hc
        cases j with
        | zero =>
          simp at hc
          subst hc
          exact not_lt.1 h
        | succ j => exact h2 j c (by omega) (by simpa using hc)
      · intro c hc
        exact h3 c (by simpa using hc)

private theorem choice_cumsumFrom (u acc : K) (row : List K) (hpos : ∀ p ∈ row, 0 ≤ p) (hu : acc ≤ u)
    (i : ℕ) (hi : i < row.length) :
    choice u (cumsumFrom acc row) = i ↔
      acc + (row.take i).sum ≤ u ∧ u < acc + (row.take (i + 1)).sum := by
  induction row generalizing acc i with
  | nil => simp at hi
  | cons p r ih =>
    have hp : 0 ≤ p := hpos p (by simp)
    have hr : ∀ q ∈ r, 0 ≤ q := fun q hq => hpos q (by simp [hq])
    simp only [cumsumFrom, choice]
    by_cases h : u < acc + p
    · rw [if_pos h]
      cases i with
      | zero => simp [hu, h]
      | succ i =>
        constructor
        · intro h'; omega
        · rintro ⟨h1, -⟩
          exfalso
          simp only [List.take_succ_cons, List.sum_cons] at h1
          have : 0 ≤ (r.take i).sum := List.sum_nonneg fun q hq => hr q (List.mem_of_mem_take hq)
          linarith
    · rw [if_neg h]
      cases i with
      | zero =>
        constructor
        · intro h'; omega
        · rintro ⟨-, h2⟩
          exfalso
          simp at h2
          exact h h2
      | succ i =>
        have := ih (acc + p) hr (not_lt.1 h) i (by simpa using hi)
        simp only [Nat.add_right_cancel_iff]
        rw [this]
        simp only [List.take_succ_cons, List.sum_cons, ← add_assoc]

/-- **C15, inverse cdf.**  For a row of non-negative probabilities and a draw `u ≥ 0`, index `i` is
drawn exactly when `u` lies in `[p_0 + … + p_{i-1}, p_0 + … + p_i)`, an interval of length `p_i`. -/
theorem C15_choice_interval (u : K) (row : List K) (hpos : ∀ p ∈ row, 0 ≤ p) (hu : 0 ≤ u) (i : ℕ)
    (hi : i < row.length) :
    choice u (cumsum row) = i ↔ (row.take i).sum ≤ u ∧ u < (row.take (i + 1)).sum := by
  have := choice_cumsumFrom u 0 row hpos hu i hi
  simpa [cumsum] using this

/-- **C15, validity.**  When the draw is below the total probability, the index is valid and its
probability is positive; otherwise it is one past the end. -/
theorem C15_choice_valid (u : K) (row : List K) (hpos : ∀ p ∈ row, 0 ≤ p) (hu : 0 ≤ u) :
    (u < row.sum → ∃ p, row[choice u (cumsum row)]? = some p ∧ 0 < p) ∧
    (row.sum ≤ u → choice u (cumsum row) = row.length) := by
  have hlen : (cumsum row).length = row.length := cumsumFrom_length 0 row
  obtain ⟨h1, h2, h3⟩ := C15_choice_first u (cumsum row)
  rw [hlen] at h1
  constructor
  · intro hlt
    have hne : choice u (cumsum row) < row.length := by
      rcases Nat.lt_or_ge (choice u (cumsum row)) row.length with h | h
      · exact h
      · exfalso
        cases row with
        | nil => simp at hlt; linarith
        | cons p r =>
          have h4 := h2 r.length _ (by simp at h; omega) (C15_cumsum (p :: r) r.length (by simp))
          simp only [List.take_succ_cons, List.take_length] at h4
          linarith
    refine ⟨_, List.getElem?_eq_getElem hne, ?_⟩
    have h4 := (C15_choice_interval u row hpos hu _ hne).1 rfl
    have h5 : (row.take (choice u (cumsum row) + 1)).sum
        = (row.take (choice u (cumsum row))).sum + row[choice u (cumsum row)] := by
      rw [List.take_add_one, List.sum_append, List.getElem?_eq_getElem hne]
      simp
    rw [h5] at h4
    linarith [h4.1, h4.2]
  · intro hge
    rcases Nat.lt_or_ge (choice u (cumsum row)) row.length with h | h
    · exfalso
      have h4 := h3 _ (C15_cumsum row _ h)
      have h5 : (row.take (choice u (cumsum row) + 1)).sum ≤ row.sum := by
        conv_rhs => rw [← List.take_append_drop (choice u (cumsum row) + 1) row]
        rw [List.sum_append]
        have : 0 ≤ (row.drop (choice u (cumsum row) + 1)).sum :=
          List.sum_nonneg fun q hq => hpos q (List.mem_of_mem_drop hq)
        linarith
      linarith
    · omega

/-- The second of three states is drawn; and a row whose sum falls short of one can return a
non-existing state. -/
example : choice (1 / 2 : ℚ) (cumsum [1 / 4, 1 / 2, 1 / 4]) = 1 ∧
    choice (99 / 100 : ℚ) (cumsum [1 / 2, 2 / 5]) = 2 := by
  norm_num [choice, cumsum, cumsumFrom]

/-! ### C16: simulated Markov paths -/

/-- A path of states all of whose transitions have positive probability under `P`. -/
def FeasiblePath (P : List (List K)) (path : List ℕ) : Prop :=
  (∀ i ∈ path, i < P.length) ∧
  ∀ t i j, path[t]? = some i → path[t + 1]? = some j →
    ∃ row p, P[i]? = some row ∧ row[j]? = some p ∧ 0 < p

private theorem mcPath_ok (P : List (List K)) (hsq : ∀ row ∈ P, row.length = P.length)
    (hpos : ∀ row ∈ P, ∀ p ∈ row, 0 ≤ p) (hsum : ∀ row ∈ P, row.sum = 1)
    (us : List K) (hus : ∀ u ∈ us, 0 ≤ u ∧ u < 1) (i : ℕ) (hi : i < P.length) :
    ∃ path, mcPath (P.map cumsum) i us = .ok path ∧ path.length = us.length + 1 ∧
      path[0]? = some i ∧ FeasiblePath P path := by
  induction us generalizing i with
  | nil =>
    refine ⟨[i], rfl, rfl, rfl, ?_, ?_⟩
    · simpa using hi
    · intro t a b _ hb
      simp at hb
  | cons u us ih =>
    have hrow : P[i] ∈ P := List.getElem_mem hi
    have hu := hus u (by simp)
    obtain ⟨p, hp, hp0⟩ := (C15_choice_valid u P[i] (hpos _ hrow) hu.1).1
      (by rw [hsum _ hrow]; exact hu.2)
    set j := choice u (cumsum P[i]) with hj
    have hjl : j < P.length := by
      obtain ⟨h, -⟩ := List.getElem?_eq_some_iff.1 hp
      rwa [hsq _ hrow] at h
    obtain ⟨path, h1, h2, h3, h4, h5⟩ := ih (fun v hv => hus v (by simp [hv])) j hjl
    refine ⟨i :: path, ?_, by simp [h2], by simp, ?_, ?_⟩
    · simp only [mcPath, pyGet, List.getElem?_map, List.getElem?_eq_getElem hi, Option.map_some,
        bind, Except.bind, ← hj, h1, pure, Except.pure]
    · intro k hk
      rcases List.mem_cons.1 hk with rfl | hk
      · exact hi
      · exact h4 k hk
    · intro t a b ha hb
      cases t with
      | zero =>
        simp only [List.getElem?_cons_zero, Option.some.injEq] at ha
        simp only [Nat.zero_add, List.getElem?_cons_succ, h3, Option.some.injEq] at hb
        subst ha hb
        exact ⟨P[i], p, List.getElem?_eq_getElem hi, hp, hp0⟩
      | succ t => exact h5 t a b (by simpa using ha) (by simpa using hb)

/-- The block of draws used by path `n`. -/
def blockOf (T n : ℕ) (draws : List K) : List K := (draws.drop (n * (T - 1))).take (T - 1)

private theorem simulateMcIndices_eq (C : List (List K)) (T : ℕ) (hT : T ≠ 0) (i0s : List ℕ)
    (draws : List K) (paths : List (List ℕ))
    (hpaths : simulateMcIndices C T i0s draws = .ok paths) :
    paths.length = i0s.length ∧
    ∀ n i0, i0s[n]? = some i0 → ∃ p, paths[n]? = some p ∧
      mcPath C i0 (blockOf T n draws) = .ok p := by
  induction i0s generalizing draws paths with
  | nil =>
    simp only [simulateMcIndices, if_neg hT] at hpaths
    cases hpaths
    simp
  | cons i r ih =>
    simp only [simulateMcIndices, if_neg hT, bind, Except.bind] at hpaths
    split at hpaths
    · cases hpaths
    · rename_i p hp
      split at hpaths
      · cases hpaths
      · rename_i rest hrest
        cases hpaths
        obtain ⟨h1, h2⟩ := ih _ _ hrest
        refine ⟨by simp [h1], ?_⟩
        intro n i0 hn
        cases n with
        | zero =>
          simp only [List.getElem?_cons_zero, Option.some.injEq] at hn
          subst hn
          exact ⟨p, by simp, by simpa [blockOf] using hp⟩
        | succ n =>
          obtain ⟨q, hq1, hq2⟩ := h2 n i0 (by simpa using hn)
          refine ⟨q, by simpa using hq1, ?_⟩
          rw [← hq2]
          congr 1
          simp only [blockOf, List.drop_drop]
          congr 2
          ring

private theorem simulateMcIndices_ok (P : List (List K)) (T : ℕ) (hT : T ≠ 0)
    (hsq : ∀ row ∈ P, row.length = P.length)
    (hpos : ∀ row ∈ P, ∀ p ∈ row, 0 ≤ p) (hsum : ∀ row ∈ P, row.sum = 1)
    (i0s : List ℕ) (hi : ∀ i ∈ i0s, i < P.length)
    (draws : List K) (hus : ∀ u ∈ draws, 0 ≤ u ∧ u < 1) :
    ∃ paths, simulateMcIndices (P.map cumsum) T i0s draws = .ok paths := by
  induction i0s generalizing draws with
  | nil => exact ⟨[], by simp [simulateMcIndices, hT]⟩
  | cons i r ih =>
    obtain ⟨p, hp, -⟩ := mcPath_ok P hsq hpos hsum (draws.take (T - 1))
      (fun u hu => hus u (List.mem_of_mem_take hu)) i (hi i (by simp))
    obtain ⟨rest, hrest⟩ := ih (fun j hj => hi j (by simp [hj])) (draws.drop (T - 1))
      (fun u hu => hus u (List.mem_of_mem_drop hu))
    exact ⟨p :: rest, by simp [simulateMcIndices, hT, hp, hrest, bind, Except.bind, pure,
      Except.pure]⟩

/-- **C16.**  For a stochastic matrix, draws in `[0,1)` and a valid initial state, the simulation
succeeds; there are `N` paths of `T` dates, each starts at `i0`, stays in the state set and only makes
transitions of positive probability. -/
theorem C16_simulated_paths (P : List (List K)) (N T i0 : ℕ) (hT : T ≠ 0)
    (hsq : ∀ row ∈ P, row.length = P.length)
    (hpos : ∀ row ∈ P, ∀ p ∈ row, 0 ≤ p) (hsum : ∀ row ∈ P, row.sum = 1)
    (hi : i0 < P.length) (draws : List K) (hlen : draws.length = N * (T - 1))
    (hus : ∀ u ∈ draws, 0 ≤ u ∧ u < 1) :
    ∃ paths, simulateMarkovChain P N T (some i0) draws = .ok paths ∧ paths.length = N ∧
      ∀ path ∈ paths, path.length = T ∧ path[0]? = some i0 ∧ FeasiblePath P path := by
  obtain ⟨paths, hp⟩ := simulateMcIndices_ok P T hT hsq hpos hsum (List.replicate N i0)
    (by intro i h; rw [List.eq_of_mem_replicate h]; exact hi) draws hus
  obtain ⟨h1, h2⟩ := simulateMcIndices_eq _ T hT _ _ _ hp
  refine ⟨paths, hp, by simpa using h1, ?_⟩
  intro path hpath
  obtain ⟨n, hn, rfl⟩ := List.mem_iff_getElem.1 hpath
  have hnN : n < N := by simpa [h1] using hn
  obtain ⟨p, hp1, hp2⟩ := h2 n i0 (by simp [hnN])
  rw [List.getElem?_eq_getElem hn] at hp1
  cases hp1
  obtain ⟨p', q1, q2, q3, q4⟩ := mcPath_ok P hsq hpos hsum (blockOf T n draws)
    (fun u hu => hus u (List.mem_of_mem_drop (List.mem_of_mem_take hu))) i0 hi
  rw [hp2] at q1
  cases q1
  refine ⟨?_, q3, q4⟩
  rw [q2]
  simp only [blockOf, List.length_take, List.length_drop, hlen]
  have : n * (T - 1) + (T - 1) ≤ N * (T - 1) := by
    calc n * (T - 1) + (T - 1) = (n + 1) * (T - 1) := by ring
      _ ≤ N * (T - 1) := Nat.mul_le_mul_right _ hnN
  rw [Nat.min_eq_left (by omega)]
  omega

/-- **C16, independence of paths.**  Path `n` only depends on its own block of draws: changing the
draws outside the block leaves the path unchanged (for any matrix). -/
theorem C16_paths_independent (P : List (List K)) (N T i0 n : ℕ) (hT : T ≠ 0) (hn : n < N)
    (draws draws' : List K) (hsame : blockOf T n draws = blockOf T n draws')
    (paths paths' : List (List ℕ))
    (h : simulateMarkovChain P N T (some i0) draws = .ok paths)
    (h' : simulateMarkovChain P N T (some i0) draws' = .ok paths') :
    paths[n]? = paths'[n]? := by
  obtain ⟨-, h2⟩ := simulateMcIndices_eq _ T hT _ _ _ h
  obtain ⟨-, h2'⟩ := simulateMcIndices_eq _ T hT _ _ _ h'
  obtain ⟨p, hp1, hp2⟩ := h2 n i0 (by simp [hn])
  obtain ⟨p', hp1', hp2'⟩ := h2' n i0 (by simp [hn])
  rw [hsame, hp2'] at hp2
  cases hp2
  rw [hp1, hp1']

/-- **C16, values.**  What `MarkovChain.simulate` returns at date `t` of path `n` is the node of the
simulated state. -/
theorem C16_simulated_values (c : MChain K) (N T i0 : ℕ) (draws : List K)
    (inds : List (List ℕ)) (hinds : simulateMarkovChain c.transitions N T (some i0) draws = .ok inds)
    (vals : List (List (List K))) (hv : c.simulate N T i0 true draws = .ok vals)
    (n t i : ℕ) (path : List ℕ) (hn : inds[n]? = some path) (ht : path[t]? = some i) :
    ∃ vpath v, vals[n]? = some vpath ∧ vpath[t]? = some v ∧ c.values[i]? = some v := by
  have hget : ∀ {α β : Type} (f : α → Except Err β) (l : List α) (r : List β), l.mapM f = .ok r →
      ∀ (k : ℕ) (a : α), l[k]? = some a → ∃ b, r[k]? = some b ∧ f a = .ok b := by
    intro α β f l
    induction l with
    | nil => intro r _ k a hk; simp at hk
    | cons x l ih =>
      intro r hr k a hk
      simp only [List.mapM_cons, bind, Except.bind, pure, Except.pure] at hr
      split at hr
      · cases hr
      · rename_i y hy
        split at hr
        · cases hr
        · rename_i ys hys
          cases hr
          cases k with
          | zero =>
            simp only [List.getElem?_cons_zero, Option.some.injEq] at hk
            subst hk
            exact ⟨y, rfl, hy⟩
          | succ k =>
            obtain ⟨b, hb1, hb2⟩ := ih ys hys k a (by simpa using hk)
            exact ⟨b, by simpa using hb1, hb2⟩
  simp only [MChain.simulate, if_true, hinds, bind, Except.bind] at hv
  obtain ⟨vpath, h1, h2⟩ := hget _ _ _ hv n path hn
  obtain ⟨v, h3, h4⟩ := hget _ _ _ h2 t i ht
  refine ⟨vpath, v, h1, h3, ?_⟩
  unfold pyGet at h4
  split at h4
  · rename_i x hx
    cases h4
    exact hx
  · cases h4

/-- **C16, without shocks.**  With `stochastic=False`, `MarkovChain.simulate` returns `N` paths of `T` dates which stay at
the node `i0`, whatever the random numbers; it raises `IndexError` when there is no such node. -/
theorem C16_not_stochastic (c : MChain K) (N T i0 : ℕ) (draws : List K) :
    (∀ v, c.values[i0]? = some v → c.simulate N T i0 false draws = .ok (List.replicate N (List.replicate T v))) ∧
    (c.values.length ≤ i0 → 1 ≤ N → 1 ≤ T → c.simulate N T i0 false draws = .error .indexError) := by
  constructor
  · intro v hv
    have h1 : ∀ T, gatherValues c.values (List.replicate T i0) = .ok (List.replicate T v) := by
      intro T
      induction T with
      | zero => rfl
      | succ T ih =>
        have h0 : pyGet c.values i0 = .ok v := by simp [pyGet, hv]
        unfold gatherValues at ih ⊢
        simp [List.replicate_succ, List.mapM_cons, ih, h0, bind, Except.bind, pure, Except.pure]
    simp only [MChain.simulate, Bool.false_eq_true, if_false, bind, Except.bind]
    induction N with
    | zero => rfl
    | succ N ih => simp [List.replicate_succ, List.mapM_cons, ih, h1, bind, Except.bind, pure, Except.pure]
  · intro hi hN hT
    obtain ⟨N, rfl⟩ : ∃ n, N = n + 1 := ⟨N - 1, by omega⟩
    obtain ⟨T, rfl⟩ : ∃ n, T = n + 1 := ⟨T - 1, by omega⟩
    have hnone : c.values[i0]? = none := List.getElem?_eq_none hi
    simp [MChain.simulate, List.replicate_succ, List.mapM_cons, gatherValues, pyGet, hnone, bind, Except.bind]

example : MChain.simulate (⟨[[1 / 2, 1 / 2], [0, (1 : ℚ)]], [[10], [20]]⟩ : MChain ℚ) 2 3 1 false []
    = .ok [[[20], [20], [20]], [[20], [20], [20]]] :=
  (C16_not_stochastic _ 2 3 1 []).1 [20] rfl

example : simulateMarkovChain [[1 / 2, 1 / 2], [0, (1 : ℚ)]] 2 3 (some 0) [1 / 4, 3 / 4, 1 / 2, 0]
    = .ok [[0, 0, 1], [0, 1, 1]] := by
  norm_num [simulateMarkovChain, List.replicate, simulateMcIndices, mcPath, choice, cumsum, cumsumFrom,
    pyGet, bind, Except.bind, pure, Except.pure]

end draws

/-! ### C65: states recovered from simulated values -/

/-- **C65 (partial).**  When the nodes of the chain are pairwise distinct, the states recovered from
the simulated values are the simulated states. -/
theorem C65_find_index_partial {α : Type} [DecidableEq α] (values : List α) (hnd : values.Nodup)
    (path : List ℕ) (sim : List α) (hsim : gatherValues values path = .ok sim) :
    findIndex values sim = .ok path := by
  induction path generalizing sim with
  | nil =>
    simp only [gatherValues, List.mapM_nil, pure, Except.pure] at hsim
    cases hsim; rfl
  | cons i r ih =>
    simp only [gatherValues, List.mapM_cons, bind, Except.bind, pure, Except.pure, pyGet] at hsim ih
    split at hsim
    · cases hsim
    · rename_i v hv
      split at hv
      · rename_i w hw
        cases hv
        split at hsim
        · cases hsim
        · rename_i vs hvs
          cases hsim
          have h2 := ih vs hvs
          obtain ⟨hi, hiv⟩ := List.getElem?_eq_some_iff.1 hw
          have h3 : values.findIdx (fun w => decide (w = v)) = i := by
            rw [List.findIdx_eq hi]
            refine ⟨by simp [hiv], ?_⟩
            intro j hj
            simp only [decide_eq_false_iff_not]
            intro hjv
            have := (List.Nodup.getElem_inj_iff hnd (hi := by omega) (hj := hi)).1 (hjv.trans hiv.symm)
            omega
          simp only [findIndex, List.mapM_cons, h3, hi, if_true, bind, Except.bind, pure,
            Except.pure] at h2 ⊢
          rw [h2]
      · cases hv

/-- With repeated nodes (for instance a constant process discretised with several states) the states
reported with a simulation are not the simulated ones. -/
theorem C65_find_index_fails :
    ∃ (values : List (List ℚ)) (path : List ℕ) (sim : List (List ℚ)),
      gatherValues values path = .ok sim ∧ findIndex values sim ≠ .ok path :=
  ⟨[[1], [1]], [1, 1], [[1], [1]], rfl, by decide⟩

/-! ### C42: responses of processes -/

section var

variable {d : ℕ}

/-- **C42.**  Row `t` of the VAR(1) response is `mu + rho^t e`; there are `T` rows. -/
theorem C42_var1_response (rho : Fin d → Fin d → K) (mu e : Fin d → K) (T : ℕ) (hT : T ≠ 0) :
    ∃ r, var1Response rho mu T e = .ok r ∧ r.length = T ∧
      ∀ t, t < T → r[t]? = some fun a => mu a + Matrix.mulVec (Matrix.of rho ^ t) e a := by
  refine ⟨_, by simp only [var1Response, if_neg hT]; rfl, by simp, ?_⟩
  intro t ht
  have : ∀ t, var1Deviation rho e (fun _ _ => 0) t = Matrix.mulVec (Matrix.of rho ^ t) e := by
    intro t
    induction t with
    | zero => simp [var1Deviation]
    | succ t ih =>
      funext a
      simp only [var1Deviation, add_zero]
      rw [ih, pow_succ', ← Matrix.mulVec_mulVec]
      rfl
  simp only [List.getElem?_map, List.getElem?_range ht, Option.map_some]
  congr 1
  funext a
  rw [this, add_comm]

/-- **C42, iid.**  `T + 1` rows: the impulse at date one and zero at the other dates. -/
theorem C42_iid_response (e : Fin d → K) (T : ℕ) (hT : T ≠ 0) :
    ∃ r, iidResponse T e = .ok r ∧ r.length = T + 1 ∧ r[1]? = some e ∧
      ∀ t, t ≤ T → t ≠ 1 → r[t]? = some fun _ => 0 := by
  refine ⟨_, by simp only [iidResponse, if_neg hT]; rfl, by simp, ?_, ?_⟩
  · have : 1 < T + 1 := by omega
    simp [this]
  · intro t ht h1
    have : t < T + 1 := by omega
    simp [this, h1]

/-! ### C64: simulated vector autoregressions -/

/-- **C64, dynamics.**  A simulated VAR(1) path follows `z' = mu + rho (z - mu) + eps'` at every date,
where `eps'` is the innovation of the later date. -/
theorem C64_var1_dynamics (rho : Fin d → Fin d → K) (mu : Fin d → K) (T : ℕ)
    (m0 : Option (Fin d → K)) (innov : ℕ → Fin d → K) (hT : T ≠ 0) :
    ∃ r, var1Simulate rho mu T m0 true innov = .ok r ∧ r.length = T ∧
      r[0]? = some (fun a => m0.getD (fun _ => 0) a + mu a) ∧
      ∀ t z z', r[t]? = some z → r[t + 1]? = some z' →
        ∀ a, z' a = mu a + ∑ b, rho a b * (z b - mu b) + innov (t + 1) a := by
  refine ⟨_, by simp only [var1Simulate, Bool.not_true, Bool.false_eq_true, if_false, if_neg hT]; rfl,
    by simp, by
      simp only [List.getElem?_map, List.getElem?_range (Nat.pos_of_ne_zero hT), Option.map_some,
        var1Deviation], ?_⟩
  intro t z z' hz hz' a
  have ht : t + 1 < T := by
    obtain ⟨h, -⟩ := List.getElem?_eq_some_iff.1 hz'
    simpa using h
  simp only [List.getElem?_map, List.getElem?_range ht,
    List.getElem?_range (by omega : t < T), Option.map_some, Option.some.injEq] at hz hz'
  subst hz hz'
  simp only [var1Deviation, mulVec, add_sub_cancel_right]
  ring

/-- **C64 (partial).**  The path starts at the requested value when the process has zero mean. -/
theorem C64_var1_start_partial (rho : Fin d → Fin d → K) (mu : Fin d → K) (T : ℕ)
    (m0 : Fin d → K) (innov : ℕ → Fin d → K) (hT : T ≠ 0) (hmu : ∀ a, mu a = 0) :
    ∃ r, var1Simulate rho mu T (some m0) true innov = .ok r ∧ r[0]? = some m0 := by
  obtain ⟨r, h1, -, h3, -⟩ := C64_var1_dynamics rho mu T (some m0) innov hT
  refine ⟨r, h1, ?_⟩
  rw [h3]
  congr 1
  funext a
  simp [hmu]

/-- With a non-zero mean, the path starts at `m0 + mu` and not at the requested `m0`. -/
theorem C64_var1_start_fails :
    ∃ (rho : Fin 1 → Fin 1 → ℚ) (mu m0 : Fin 1 → ℚ) (r : List (Fin 1 → ℚ)) (z : Fin 1 → ℚ),
      var1Simulate rho mu 3 (some m0) true (fun _ _ => 0) = .ok r ∧ r[0]? = some z ∧
        m0 0 = 5 ∧ z 0 = 7 := by
  obtain ⟨r, h1, -, h3, -⟩ := C64_var1_dynamics (fun _ _ : Fin 1 => (1 / 2 : ℚ)) (fun _ => 2) 3
    (some fun _ => 5) (fun _ _ => 0) (by norm_num)
  exact ⟨_, _, _, r, _, h1, h3, rfl, by norm_num⟩

/-- The deterministic simulation of a VAR(1) (`stochastic=False`) always raises. -/
theorem C64_var1_deterministic_fails (rho : Fin d → Fin d → K) (mu : Fin d → K) (T : ℕ)
    (m0 : Option (Fin d → K)) (innov : ℕ → Fin d → K) :
    var1Simulate rho mu T m0 false innov = .error .indexError := by
  simp [var1Simulate]

/-! ### C66: the scalar check of the VAR(1) discretisation -/

/-- The autoregression matrix is a multiple of the identity. -/
def IsScalar (rho : Fin (d + 1) → Fin (d + 1) → K) : Prop :=
  ∃ r, ∀ a b, rho a b = if a = b then r else 0

section
variable [LinearOrder K] [IsStrictOrderedRing K]

/-- **C66 (partial).**  Scalar matrices are accepted, and matrices with an entry off by more than one
are refused. -/
theorem C66_scalar_check_partial (rho : Fin (d + 1) → Fin (d + 1) → K) :
    (IsScalar rho → var1ScalarCheck rho = .ok (rho 0 0)) ∧
    ((∃ a b, 1 < |(if a = b then (1 : K) else 0) * rho 0 0 - rho a b|) →
      var1ScalarCheck rho = .error .nameError) := by
  constructor
  · rintro ⟨r, hr⟩
    unfold var1ScalarCheck
    rw [if_pos]
    intro a b
    rw [hr a b, hr 0 0]
    by_cases h : a = b <;> simp [h]
  · rintro ⟨a, b, hab⟩
    unfold var1ScalarCheck
    rw [if_neg]
    intro h
    exact absurd (h a b) (not_le.2 hab)

/-- Non-scalar matrices are accepted and discretised as if they were scalar: the chain returned for
`rho = [[9/10, 1/2], [0, 1/5]]` is the chain returned for `9/10` times the identity. -/
theorem C66_scalar_check_fails :
    ∃ rho rho' : Fin 2 → Fin 2 → ℚ, ¬ IsScalar (d := 1) rho ∧ IsScalar (d := 1) rho' ∧ rho ≠ rho' ∧
      ∀ (mdisc : ℚ → Except Err (List (List ℚ) × List (List ℚ))) (mu : Fin 2 → ℚ),
        var1DiscretizeMc (d := 1) mdisc rho mu = var1DiscretizeMc (d := 1) mdisc rho' mu := by
  let rho : Fin 2 → Fin 2 → ℚ := fun a b =>
    if a = 0 then (if b = 0 then 9 / 10 else 1 / 2) else (if b = 0 then 0 else 1 / 5)
  let rho' : Fin 2 → Fin 2 → ℚ := fun a b => if a = b then 9 / 10 else 0
  have hns : ¬ IsScalar (d := 1) rho := by
    rintro ⟨r, hr⟩
    have := hr 0 1
    norm_num [rho] at this
  have hs : IsScalar (d := 1) rho' := ⟨9 / 10, fun a b => rfl⟩
  refine ⟨rho, rho', hns, hs, ?_, ?_⟩
  · intro h; exact hns (h ▸ hs)
  · intro mdisc mu
    have h1 : var1ScalarCheck (d := 1) rho = .ok (9 / 10) := by
      unfold var1ScalarCheck
      rw [if_pos]
      · simp [rho]
      · intro a b
        fin_cases a <;> fin_cases b <;> norm_num [rho, abs_le]
    have h2 : var1ScalarCheck (d := 1) rho' = .ok (9 / 10) := by
      rw [(C66_scalar_check_partial (d := 1) rho').1 hs]
      simp [rho']
    simp only [var1DiscretizeMc, h1, h2]

/-- **C72.**  For a scalar autoregression, the chain returned by `VAR1.discretize(to="mc")` has the transition
matrix of the centred discretisation of `rho[0,0]`, and its nodes are those of the centred discretisation
plus the mean. -/
theorem C72_var1_discretize_mean {d : ℕ} (mdisc : K → Except Err (List (List K) × List (List K)))
    (rho : Fin (d + 1) → Fin (d + 1) → K) (mu : Fin (d + 1) → K) (hs : IsScalar rho)
    (P Q : List (List K)) (h : mdisc (rho 0 0) = .ok (P, Q)) (hP : ∀ row ∈ P, row.length = d + 1) :
    ∃ c, var1DiscretizeMc mdisc rho mu = .ok c ∧ c.transitions = Q ∧ c.values.length = P.length ∧
      ∀ (k : ℕ) (a : Fin (d + 1)) (row : List K), P[k]? = some row →
        ∃ v z, c.values[k]? = some v ∧ v.length = d + 1 ∧ row[a.val]? = some z ∧
          v[a.val]? = some (mu a + z) := by
  have hc : var1ScalarCheck rho = .ok (rho 0 0) := (C66_scalar_check_partial rho).1 hs
  refine ⟨⟨Q, P.map fun row => List.zipWith (· + ·) row (List.ofFn mu)⟩, ?_, rfl, by simp, ?_⟩
  · unfold var1DiscretizeMc
    rw [hc]
    simp only [bind, Except.bind, h, pure, Except.pure]
  · intro k a row hk
    have hl := hP row (List.mem_of_getElem? hk)
    have ha : a.val < row.length := by rw [hl]; exact a.isLt
    refine ⟨List.zipWith (· + ·) row (List.ofFn mu), row[a.val], by rw [List.getElem?_map, hk, Option.map_some],
      by rw [List.length_zipWith, hl, List.length_ofFn, min_self], List.getElem?_eq_getElem ha, ?_⟩
    have hsome : (List.ofFn mu)[a.val]? = some (mu a) := by
      rw [List.getElem?_ofFn, dif_pos a.isLt]
    simp only [List.getElem?_zipWith, List.getElem?_eq_getElem ha, hsome]
    rw [add_comm]

example : ∃ c : MChain ℚ, var1DiscretizeMc (d := 1)
    (fun r => .ok ([[0, 1], [2, 3]], [[r, 1 - r], [1 - r, r]])) (fun a b => if a = b then 9 / 10 else 0)
    (fun a => if a = 0 then 10 else 20) = .ok c ∧ c.values = [[10, 21], [12, 23]] := by
  refine ⟨⟨[[9 / 10, 1 - 9 / 10], [1 - 9 / 10, 9 / 10]], [[10, 21], [12, 23]]⟩, ?_, rfl⟩
  have hc : var1ScalarCheck (d := 1) (fun a b => if a = b then (9 / 10 : ℚ) else 0) = .ok (9 / 10) := by
    rw [(C66_scalar_check_partial (d := 1) _).1 ⟨9 / 10, fun a b => rfl⟩]
    rfl
  unfold var1DiscretizeMc
  rw [hc]
  simp [bind, Except.bind, pure, Except.pure]
  norm_num

end

end var

/-! ### C40: simulated paths of a model -/

section model

variable {M S X : Type}

/-- What a simulation should be: controls follow the decision rule and states the transition equation,
with the exogenous values of the two dates involved. -/
def CorrectSimulation (g : M → S → X → M → S) (dr : M → S → X) (s0 : S) (ms : List M)
    (sim : List (S × X)) : Prop :=
  sim.length = ms.length ∧
  (∀ p, sim[0]? = some p → p.1 = s0) ∧
  (∀ (t : ℕ) (m : M) (p : S × X), ms[t]? = some m → sim[t]? = some p → p.2 = dr m p.1) ∧
  (∀ (t : ℕ) (m m' : M) (p p' : S × X), ms[t]? = some m → ms[t + 1]? = some m' → sim[t]? = some p →
    sim[t + 1]? = some p' → p'.1 = g m p.1 p.2 m')

private theorem simLoop_length (g : M → S → X → M → S) (dr : M → S → X) (mp : M) (s : S) (ms : List M) :
    (simLoop g dr mp s ms).length = ms.length := by
  induction ms generalizing mp s with
  | nil => rfl
  | cons m r ih => simp [simLoop, ih]

private theorem simLoop_zero (g : M → S → X → M → S) (dr : M → S → X) (mp : M) (s : S) (m : M)
    (r : List M) : (simLoop g dr mp s (m :: r))[0]? = some (s, dr m s) := by
  simp [simLoop]

private theorem simLoop_dr (g : M → S → X → M → S) (dr : M → S → X) (mp : M) (s : S) (ms : List M)
    (t : ℕ) (m : M) (p : S × X) (hm : ms[t]? = some m)
    (hp : (simLoop g dr mp s ms)[t]? = some p) : p.2 = dr m p.1 := by
  induction ms generalizing mp s t with
  | nil => simp at hm
  | cons m' r ih =>
    cases t with
    | zero =>
      simp only [List.getElem?_cons_zero, Option.some.injEq] at hm
      simp only [simLoop, List.getElem?_cons_zero, Option.some.injEq] at hp
      subst hm hp; rfl
    | succ t => exact ih _ _ t (by simpa using hm) (by simpa [simLoop] using hp)

private theorem simLoop_step (g : M → S → X → M → S) (dr : M → S → X) (mp : M) (s : S) (ms : List M)
    (t : ℕ) (m0 m : M) (p p' : S × X) (hm0 : (mp :: ms)[t]? = some m0) (hm : ms[t]? = some m)
    (hp : (simLoop g dr mp s ms)[t]? = some p)
    (hp' : (simLoop g dr mp s ms)[t + 1]? = some p') : p'.1 = g m0 p.1 p.2 m := by
  induction ms generalizing mp s t with
  | nil => simp at hm
  | cons m1 r ih =>
    cases t with
    | zero =>
      simp only [List.getElem?_cons_zero, Option.some.injEq] at hm0 hm
      simp only [simLoop, List.getElem?_cons_zero, Option.some.injEq] at hp
      subst hm0 hm hp
      cases r with
      | nil => simp [simLoop] at hp'
      | cons m2 r =>
        simp only [simLoop, Nat.zero_add, List.getElem?_cons_succ, List.getElem?_cons_zero,
          Option.some.injEq] at hp'
        subst hp'; rfl
    | succ t =>
      exact ih _ _ t (by simpa using hm0) (by simpa using hm) (by simpa [simLoop] using hp)
        (by simpa [simLoop] using hp')

/-- What the code computes: controls do follow the decision rule, but the state of date `t + 1` is the
transition evaluated with the exogenous values of dates `t - 1` and `t` (at date `0`, twice the initial
one), one date late. -/
theorem C40_simulate_exact (g : M → S → X → M → S) (dr : M → S → X) (s0 : S) (ms : List M)
    (hne : ms ≠ []) :
    ∃ sim, simulateDriven g dr s0 ms.length ms = .ok sim ∧ sim.length = ms.length ∧
      (∀ p, sim[0]? = some p → p.1 = s0) ∧
      (∀ (t : ℕ) (m : M) (p : S × X), ms[t]? = some m → sim[t]? = some p → p.2 = dr m p.1) ∧
      (∀ (t : ℕ) (m0 m : M) (p p' : S × X), ms[t - 1]? = some m0 → ms[t]? = some m →
        sim[t]? = some p → sim[t + 1]? = some p' → p'.1 = g m0 p.1 p.2 m) := by
  match ms, hne with
  | m0 :: r, _ =>
    refine ⟨simLoop g dr m0 s0 (m0 :: r), ?_, simLoop_length _ _ _ _ _, ?_, ?_, ?_⟩
    · simp [simulateDriven, firstRows, bind, Except.bind, pure, Except.pure]
    · intro p hp
      rw [simLoop_zero] at hp
      cases hp; rfl
    · exact fun t m p hm hp => simLoop_dr g dr m0 s0 (m0 :: r) t m p hm hp
    · intro t mm m p p' h1 h2 h3 h4
      refine simLoop_step g dr m0 s0 (m0 :: r) t mm m p p' ?_ h2 h3 h4
      cases t with
      | zero => simpa using h1
      | succ t => simpa using h1

/-- **C40 (partial).**  The simulation is correct when the driving process is constant; more generally
when the transition gives the same result with the exogenous values one date earlier. -/
theorem C40_simulate_partial (g : M → S → X → M → S) (dr : M → S → X) (s0 : S) (ms : List M)
    (hne : ms ≠ [])
    (hlag : ∀ (t : ℕ) (m0 m m' : M), ms[t - 1]? = some m0 → ms[t]? = some m → ms[t + 1]? = some m' →
      ∀ s x, g m0 s x m = g m s x m') :
    ∃ sim, simulateDriven g dr s0 ms.length ms = .ok sim ∧ CorrectSimulation g dr s0 ms sim := by
  obtain ⟨sim, h1, h2, h3, h4, h5⟩ := C40_simulate_exact g dr s0 ms hne
  refine ⟨sim, h1, h2, h3, h4, ?_⟩
  intro t m m' p p' hm hm' hp hp'
  have ht : t - 1 < ms.length := by
    obtain ⟨h, -⟩ := List.getElem?_eq_some_iff.1 hm
    omega
  have h6 := h5 t _ m p p' (List.getElem?_eq_getElem ht) hm hp hp'
  rw [h6]
  exact hlag t _ m m' (List.getElem?_eq_getElem ht) hm hm' p.1 p.2

/-- **C40 (partial), constant exogenous values.** -/
theorem C40_simulate_constant_partial (g : M → S → X → M → S) (dr : M → S → X) (s0 : S) (m : M) (T : ℕ)
    (hT : T ≠ 0) :
    ∃ sim, simulateDriven g dr s0 T (List.replicate T m) = .ok sim ∧
      CorrectSimulation g dr s0 (List.replicate T m) sim := by
  obtain ⟨sim, h1, h2⟩ := C40_simulate_partial g dr s0 (List.replicate T m) (by simpa using hT) (by
    intro t a b c ha hb hc s x
    have h1 := List.eq_of_mem_replicate (List.mem_of_getElem? ha)
    have h2 := List.eq_of_mem_replicate (List.mem_of_getElem? hb)
    have h3 := List.eq_of_mem_replicate (List.mem_of_getElem? hc)
    subst h1 h2 h3
    rfl)
  exact ⟨sim, by simpa using h1, h2⟩

/-- The transition equation is violated: with `g(m, s, x, M) = M` (the state is tomorrow's shock) and
shocks `0, 1, 2`, the simulated states are `5, 0, 1` instead of `5, 1, 2`. -/
theorem C40_simulate_fails :
    ∃ (g : ℚ → ℚ → ℚ → ℚ → ℚ) (dr : ℚ → ℚ → ℚ) (s0 : ℚ) (ms : List ℚ) (sim : List (ℚ × ℚ)),
      simulateDriven g dr s0 ms.length ms = .ok sim ∧ ¬ CorrectSimulation g dr s0 ms sim := by
  refine ⟨fun _ _ _ m' => m', fun _ _ => 0, 5, [0, 1, 2], [(5, 0), (0, 0), (1, 0)], rfl, ?_⟩
  rintro ⟨-, -, -, h⟩
  have := h 0 0 1 (5, 0) (0, 0) rfl rfl rfl rfl
  norm_num at this

/-- Simulations of a drawn process satisfy the decision rule as well, with the same delay. -/
theorem C40_simulate_process_exact (g : M → S → X → M → S) (dr : M → S → X) (s0 : S) (m0 : M)
    (ms : List M) (hne : ms ≠ []) :
    ∃ sim, simulateProcess g dr s0 m0 ms.length ms = .ok sim ∧ sim.length = ms.length ∧
      (∀ p, sim[0]? = some p → p.1 = s0) ∧
      (∀ (t : ℕ) (m : M) (p : S × X), ms[t]? = some m → sim[t]? = some p → p.2 = dr m p.1) ∧
      (∀ (t : ℕ) (m1 m : M) (p p' : S × X), (m0 :: ms)[t]? = some m1 → ms[t]? = some m →
        sim[t]? = some p → sim[t + 1]? = some p' → p'.1 = g m1 p.1 p.2 m) := by
  refine ⟨simLoop g dr m0 s0 ms, ?_, simLoop_length _ _ _ _ _, ?_, ?_, ?_⟩
  · simp [simulateProcess, firstRows, hne, bind, Except.bind, pure, Except.pure]
  · intro p hp
    cases ms with
    | nil => exact absurd rfl hne
    | cons m r => rw [simLoop_zero] at hp; cases hp; rfl
  · exact fun t m p hm hp => simLoop_dr g dr m0 s0 ms t m p hm hp
  · exact fun t m1 m p p' h1 h2 h3 h4 => simLoop_step g dr m0 s0 ms t m1 m p p' h1 h2 h3 h4

/-! ### C41: zero impulse -/

/-- **C41.**  For a model with iid shocks whose calibration is a fixed point at zero shocks, the response
to a zero impulse stays at the steady state at every date (horizon at least two). -/
theorem C41_zero_impulse_partial {d : ℕ} (rho : Fin d → Fin d → K) (mu : Fin d → K)
    (g : (Fin d → K) → S → X → (Fin d → K) → S) (dr : (Fin d → K) → S → X) (s : S) (x : X) (T : ℕ)
    (hT : 2 ≤ T) (hg : g (fun _ => 0) s x (fun _ => 0) = s) (hdr : dr (fun _ => 0) s = x) :
    modelResponse .iid rho mu g dr s T (fun _ => 0) = .ok (List.replicate T (s, x)) := by
  have hm : iidResponse (T - 1) (fun _ : Fin d => (0 : K))
      = .ok (List.replicate T fun _ => 0) := by
    simp only [iidResponse, if_neg (by omega : ¬ T - 1 = 0)]
    have : T - 1 + 1 = T := by omega
    rw [this]
    congr 1
    apply List.ext_getElem (by simp)
    intro i h1 h2
    simp
  obtain ⟨n, rfl⟩ : ∃ n, T = n + 1 := ⟨T - 1, by omega⟩
  have hloop : ∀ n, simLoop g dr (fun _ => 0) s (List.replicate n fun _ => 0)
      = List.replicate n (s, x) := by
    intro n
    induction n with
    | zero => rfl
    | succ n ih => simp only [List.replicate_succ, simLoop, hdr, hg, ih]
  simp only [modelResponse]
  rw [hm]
  simp only [bind, Except.bind, simulateDriven, Nat.succ_ne_zero, if_false, List.replicate_succ,
    firstRows, List.length_cons, List.length_replicate, lt_irrefl, List.take_succ_cons,
    List.take_replicate, Nat.min_self, pure, Except.pure]
  congr 1
  simp only [simLoop, hdr, hg, hloop]

example : modelResponse (d := 1) (S := ℚ) (X := ℚ) .iid (fun _ _ => 0) (fun _ => 0)
    (fun _ s x m => s / 2 + x + m 0) (fun m s => m 0 + s / 4) 0 3 (fun _ => 0)
    = .ok [(0, 0), (0, 0), (0, 0)] := by
  have := C41_zero_impulse_partial (d := 1) (S := ℚ) (X := ℚ) (fun _ _ => 0) (fun _ => 0)
    (fun _ s x m => s / 2 + x + m 0) (fun m s => m 0 + s / 4) 0 0 3 (by norm_num) (by norm_num)
    (by norm_num)
  simpa using this

/-! ### C67: impulse responses are available for every process -/

/-- For models driven by a VAR(1) or AR(1) process the impulse response always raises. -/
theorem C67_response_var1_fails {d : ℕ} (rho : Fin d → Fin d → K) (mu : Fin d → K)
    (g : (Fin d → K) → S → X → (Fin d → K) → S) (dr : (Fin d → K) → S → X) (s : S) (T : ℕ)
    (e : Fin d → K) : ∃ err, modelResponse .var1 rho mu g dr s T e = .error err := by
  by_cases hT : T - 1 = 0
  · exact ⟨.indexError, by simp [modelResponse, var1Response, hT, bind, Except.bind]⟩
  · exact ⟨.attributeError, by simp [modelResponse, var1Response, hT, bind, Except.bind]⟩

/-- **C67 (partial).**  For iid processes and a horizon of at least two the response is computed: it has
`T` dates. -/
theorem C67_response_iid_partial {d : ℕ} (rho : Fin d → Fin d → K) (mu : Fin d → K)
    (g : (Fin d → K) → S → X → (Fin d → K) → S) (dr : (Fin d → K) → S → X) (s : S) (T : ℕ) (hT : 2 ≤ T)
    (e : Fin d → K) : ∃ sim, modelResponse .iid rho mu g dr s T e = .ok sim ∧ sim.length = T := by
  obtain ⟨r, h1, h2, -, -⟩ := C42_iid_response e (T - 1) (by omega)
  have hl : r.length = T := by omega
  obtain ⟨sim, h3, h4, -⟩ := C40_simulate_exact g dr s r (by rintro rfl; simp at hl; omega)
  refine ⟨sim, ?_, by rw [h4, hl]⟩
  simp only [modelResponse]
  rw [h1]
  simp only [bind, Except.bind]
  rw [← hl, h3]

/-! ### C68: replication with a seed -/

/-- **C68 (partial).**  When the process does not use the generator (a driving process is supplied), the
simulation does not depend on the generator's state. -/
theorem C68_seed_partial {R : Type} (g : M → S → X → M → S) (dr : M → S → X) (s0 : S) (m0 : M) (T : ℕ)
    (draw : R → List M × R) (hdraw : ∀ r r', (draw r).1 = (draw r').1) (seeded : ℕ → R) (seed : ℕ)
    (r r' : R) :
    simulateSeeded g dr s0 m0 T draw seeded seed r = simulateSeeded g dr s0 m0 T draw seeded seed r' := by
  simp only [simulateSeeded, hdraw r r']

/-- The seed does not determine the simulation: the process is drawn before the generator is seeded. -/
theorem C68_seed_fails :
    ∃ (draw : ℚ → List ℚ × ℚ) (seeded : ℕ → ℚ) (r r' : ℚ),
      (simulateSeeded (fun _ s _ _ => s) (fun m _ => m) (0 : ℚ) (0 : ℚ) 1 draw seeded 42 r).1
        ≠ (simulateSeeded (fun _ s _ _ => s) (fun m _ => m) (0 : ℚ) (0 : ℚ) 1 draw seeded 42 r').1 := by
  refine ⟨fun r => ([r], r + 1), fun n => n, 0, 1, ?_⟩
  simp [simulateSeeded, simulateProcess, firstRows, bind, Except.bind, pure, Except.pure, simLoop]

/-- Two consecutive calls with the same seed, the first call starting from state `r`: the second one
starts from the seeded state, so from the second call on results are replicated. -/
theorem C68_second_call_replicates {R : Type} (g : M → S → X → M → S) (dr : M → S → X) (s0 : S) (m0 : M)
    (T : ℕ) (draw : R → List M × R) (seeded : ℕ → R) (seed : ℕ) (r r' : R) :
    (simulateSeeded g dr s0 m0 T draw seeded seed
      (simulateSeeded g dr s0 m0 T draw seeded seed r).2).1
    = (simulateSeeded g dr s0 m0 T draw seeded seed
      (simulateSeeded g dr s0 m0 T draw seeded seed r').2).1 := rfl

end model

end Dolo
