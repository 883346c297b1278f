import Mathlib.Tactic.Linarith
import Mathlib.Tactic.Ring
import Mathlib.Tactic.NormNum
import Mathlib.Tactic.FinCases
import Mathlib.Data.List.Forall2
import Mathlib.Data.Rat.Defs
import Mathlib.Algebra.Field.Rat
import Verif.Model.PerfectForesight
import Verif.Lemmas.DecisionRule

/-!
# Perfect foresight: shock paths and the stacked residual (C37, C38, C84-C86)
-/

set_option linter.unusedSectionVars false

namespace Dolo

/-! ## C37: shock paths -/

/-- The specification: value at period `t` of a series that keeps its last value. -/
def heldSeries {K : Type} [Zero K] (sh : List K) (t : ℕ) : K := sh.getD (min t (sh.length - 1)) 0

theorem dictColumn_ok {K : Type} [Zero K] (T : ℕ) (sh : List K) (h0 : sh ≠ [])
    (h1 : sh.length ≤ T + 1) :
    ∃ col, dictColumn T sh = .ok col ∧ col.length = T + 1 ∧
      ∀ t, t ≤ T → col.getD t 0 = heldSeries sh t := by
  have hl : 0 < sh.length := List.length_pos_iff.2 h0
  refine ⟨sh ++ List.replicate (T + 1 - sh.length) (sh.getLast h0), ?_, ?_, ?_⟩
  · unfold dictColumn
    rw [if_neg (by omega), List.getLast?_eq_getLast_of_ne_nil h0]
  · simp; omega
  · intro t ht
    unfold heldSeries
    by_cases c : t < sh.length
    · rw [show min t (sh.length - 1) = t by omega]
      simp [List.getD_eq_getElem?_getD, List.getElem?_append, c]
    · rw [show min t (sh.length - 1) = sh.length - 1 by omega]
      have e : (sh.getLast h0) = sh[sh.length - 1]'(by omega) := List.getLast_eq_getElem h0
      simp only [List.getD_eq_getElem?_getD, List.getElem?_append, if_neg c,
        List.getElem?_replicate, if_pos (show t - sh.length < T + 1 - sh.length by omega),
        Option.getD_some, e]
      rw [List.getElem?_eq_getElem (by omega)]; rfl

/-- **C37** (dict and DataFrame input).  Whenever every given series has between `1` and
`T + 1` entries the call succeeds, the path has exactly `T + 1` rows, and in row `t` the `k`-th
exogenous variable has the `t`-th given value, the last given value once the series is
exhausted, and its calibrated value if it was not given. -/
theorem C37_dict {K : Type} [Zero K] (exo : List (String × K)) (d : String → Option (List K))
    (T : ℕ) (hd : ∀ k v sh, (k, v) ∈ exo → d k = some sh → sh ≠ [] ∧ sh.length ≤ T + 1) :
    ∃ rows, shocksToEpsilons exo (.dict d) T = .ok rows ∧ rows.length = T + 1 ∧
      ∀ t, t ≤ T → ∃ row, rows[t]? = some row ∧ row.length = exo.length ∧
        ∀ (k : ℕ) name v, exo[k]? = some (name, v) →
          row[k]? = some (match d name with
            | some sh => heldSeries sh t
            | none => v) := by
  have hcols : ∃ cols, dictColumns exo d T = .ok cols ∧
      List.Forall₂ (fun (kv : String × K) (col : List K) => ∀ t, t ≤ T →
        col.getD t 0 = (match d kv.1 with | some sh => heldSeries sh t | none => kv.2))
        exo cols := by
    unfold dictColumns
    induction exo with
    | nil => exact ⟨[], rfl, .nil⟩
    | cons kv exo ih =>
      obtain ⟨cols, e, hf⟩ := ih fun k v sh hm => hd k v sh (List.mem_cons_of_mem _ hm)
      rw [List.mapM_cons, e]
      rcases hk : d kv.1 with _ | sh
      · refine ⟨List.replicate (T + 1) kv.2 :: cols, by simp; rfl, .cons ?_ hf⟩
        intro t ht
        simp [hk, List.getD_eq_getElem?_getD, Nat.lt_succ_of_le ht]
      · obtain ⟨h0, h1⟩ := hd kv.1 kv.2 sh (by simp) hk
        obtain ⟨col, ec, -, hc⟩ := dictColumn_ok T sh h0 h1
        refine ⟨col :: cols, by simp [ec]; rfl, .cons ?_ hf⟩
        intro t ht
        rw [hk]; exact hc t ht
  obtain ⟨cols, e, hf⟩ := hcols
  refine ⟨(List.range (T + 1)).map (rowOfColumns cols), ?_, by simp, ?_⟩
  · simp [shocksToEpsilons, e]
  · intro t ht
    refine ⟨rowOfColumns cols t, ?_, ?_, ?_⟩
    · simp [List.getElem?_range (Nat.lt_succ_of_le ht)]
    · simp [rowOfColumns, hf.length_eq]
    · intro k name v hk
      obtain ⟨hk1, hk2⟩ := List.getElem?_eq_some_iff.1 hk
      have hk3 : k < cols.length := hf.length_eq ▸ hk1
      have := (List.forall₂_iff_get.1 hf).2 k hk1 hk3 t ht
      simp only [rowOfColumns, List.getElem?_map, List.getElem?_eq_getElem hk3, Option.map_some]
      simp only [List.get_eq_getElem, hk2] at this
      rw [this]

/-- A series longer than the simulation (more than `T + 1` values) is an error, never silently
truncated; an empty series is an error too. -/
theorem C37_dict_bad_length {K : Type} [Zero K] (name : String) (v : K)
    (d : String → Option (List K)) (sh : List K) (T : ℕ) (hk : d name = some sh)
    (h : sh = [] ∨ T + 1 < sh.length) :
    ∃ e, shocksToEpsilons [(name, v)] (.dict d) T = .error e := by
  rcases h with h | h
  · exact ⟨.indexError, by simp [shocksToEpsilons, dictColumns, hk, h, dictColumn]⟩
  · exact ⟨.valueError, by simp [shocksToEpsilons, dictColumns, hk, dictColumn, h]⟩

/-- **C37** (array input): what the array branch does.  With `R` rows given, `1 ≤ R ≤ T + 2`,
row `t` of the path is the given row `t + 1`, not `t` (then the last one).  The first given row
is dropped as soon as there are two. -/
theorem C37_array_partial {K : Type} [Zero K] (exo : List (String × K)) (l : List (List K))
    (T : ℕ) (h0 : l ≠ []) (h1 : l.length ≤ T + 2) :
    ∃ rows, shocksToEpsilons exo (.rows l) T = .ok rows ∧ rows.length = T + 1 ∧
      ∀ t, t ≤ T → rows[t]? = l[min (t + 1) (l.length - 1)]? := by
  have hl : 0 < l.length := List.length_pos_iff.2 h0
  refine ⟨l.tail ++ List.replicate (T + 1 - (l.length - 1)) (l.getLast h0), ?_, ?_, ?_⟩
  · simp only [shocksToEpsilons, arrayRows]
    rw [List.getLast?_eq_getLast_of_ne_nil h0]
    simp only []
    rw [if_neg (by omega)]
  · simp; omega
  · intro t ht
    by_cases c : t < l.length - 1
    · rw [show min (t + 1) (l.length - 1) = t + 1 by omega]
      simp [List.getElem?_append, c]
    · rw [show min (t + 1) (l.length - 1) = l.length - 1 by omega]
      have e : (l.getLast h0) = l[l.length - 1]'(by omega) := List.getLast_eq_getElem h0
      rw [List.getElem?_append, if_neg (by simpa using c), List.getElem?_replicate,
        if_pos (by simp; omega), e, List.getElem?_eq_getElem (by omega)]

/-- With no shocks given, every row is the calibrated vector. -/
theorem C37_none {K : Type} [Zero K] (exo : List (String × K)) (T : ℕ) :
    ∃ rows, shocksToEpsilons exo .none T = .ok rows ∧ rows.length = T + 1 ∧
      ∀ t, t ≤ T → rows[t]? = some (exo.map (·.2)) := by
  obtain ⟨rows, e, h1, h2⟩ := C37_array_partial exo [exo.map (·.2)] T (by simp) (by simp)
  exact ⟨rows, e, h1, fun t ht => by simpa using h2 t ht⟩

/-- The dict that says the same thing as an array: each exogenous name with its column. -/
def dictOfRows {K : Type} [Zero K] (exo : List (String × K)) (l : List (List K)) :
    String → Option (List K) :=
  fun name => ((exo.map (·.1)).idxOf? name).map fun k => l.map fun r => r.getD k 0

/-- **C37** (array against dict).  The array path is the path of the dict built from the rows
*after the first one*: all the information of the first row is lost. -/
theorem C37_array_is_dict_of_tail_partial {K : Type} [Zero K] (exo : List (String × K))
    (hn : (exo.map (·.1)).Nodup) (r0 r1 : List K) (l : List (List K)) (T : ℕ)
    (hw : ∀ r ∈ r1 :: l, r.length = exo.length) (h1 : l.length ≤ T) :
    shocksToEpsilons exo (.rows (r0 :: r1 :: l)) T =
      shocksToEpsilons exo (.dict (dictOfRows exo (r1 :: l))) T := by
  obtain ⟨A, eA, lA, hA⟩ := C37_array_partial exo (r0 :: r1 :: l) T (by simp) (by simp; omega)
  obtain ⟨B, eB, lB, hB⟩ := C37_dict exo (dictOfRows exo (r1 :: l)) T (by
    intro k v sh _ hs
    simp only [dictOfRows, Option.map_eq_some_iff] at hs
    obtain ⟨j, -, rfl⟩ := hs
    simp; omega)
  rw [eA, eB]
  congr 1
  apply List.ext_getElem? fun t => ?_
  by_cases ht : t ≤ T
  · obtain ⟨row, er, lr, hr⟩ := hB t ht
    rw [hA t ht, er]
    have hlt : min t l.length < (r1 :: l).length := by simp
    have e1 : (r0 :: r1 :: l)[min (t + 1) ((r0 :: r1 :: l).length - 1)]? =
        some ((r1 :: l)[min t l.length]'hlt) := by
      rw [show min (t + 1) ((r0 :: r1 :: l).length - 1) = min t l.length + 1 by simp,
        List.getElem?_cons_succ, List.getElem?_eq_getElem hlt]
    rw [e1]
    congr 1
    apply List.ext_getElem? fun (k : ℕ) => ?_
    have hwl := hw _ (List.getElem_mem hlt)
    by_cases hk : k < exo.length
    · rw [hr k exo[k].1 exo[k].2 (by simp [List.getElem?_eq_getElem hk])]
      have hidx : (exo.map (·.1)).idxOf? exo[k].1 = some k := by
        rw [List.idxOf?_eq_some_iff]
        refine ⟨by simpa using hk, by simp, ?_⟩
        intro j hj
        have := (List.nodup_iff_injective_get.1 hn)
        intro heq
        have h2 := @this ⟨j, by simp; omega⟩ ⟨k, by simpa using hk⟩ (by simpa using heq)
        simp at h2; omega
      simp only [dictOfRows, hidx, Option.map_some, heldSeries]
      rw [List.getElem?_eq_getElem (by omega)]
      simp only [List.length_map, List.length_cons, Nat.add_sub_cancel]
      rw [List.getD_eq_getElem?_getD, List.getElem?_map, List.getElem?_eq_getElem hlt]
      simp only [Option.map_some, Option.getD_some]
      rw [List.getD_eq_getElem?_getD, List.getElem?_eq_getElem (by omega)]
      rfl
    · rw [List.getElem?_eq_none (by omega), List.getElem?_eq_none (by omega)]
  · rw [List.getElem?_eq_none (by omega), List.getElem?_eq_none (by omega)]

/-- **C37 fails for arrays**: the array `[[1], [0]]` and the dict `{e: [1, 0]}` describe the same
one-period shock, but give different exogenous paths; in the array version the shock never
happens. -/
theorem C37_array_equals_dict_fails :
    ∃ (exo : List (String × ℚ)) (l : List (List ℚ)) (T : ℕ),
      (∀ r ∈ l, r.length = exo.length) ∧ l.length ≤ T + 1 ∧ l ≠ [] ∧
      shocksToEpsilons exo (.rows l) T ≠ shocksToEpsilons exo (.dict (dictOfRows exo l)) T ∧
      shocksToEpsilons exo (.rows l) T = .ok [[0], [0], [0]] := by
  refine ⟨[("e", 0)], [[1], [0]], 2, by simp, by simp, by simp, ?_, ?_⟩
  · decide +kernel
  · decide +kernel

/-- Non-vacuity of `C37_dict`: two shocks, one given for two periods out of four, the other left
at its calibrated value. -/
example : shocksToEpsilons (K := ℚ) [("z", 5), ("e", 0)]
    (.dict fun k => if k = "e" then some [1, 2] else none) 3 =
      .ok [[5, 1], [5, 2], [5, 2], [5, 2]] := by decide +kernel

/-! ## C38: the stacked residual -/

section residual

variable {K : Type} [Field K] {S X E : Type}

/-- A perfect-foresight path over the periods `0, …, N - 1`. -/
structure IsPFPath (g : (E → K) → (S → K) → (X → K) → (E → K) → S → K)
    (f : (E → K) → (S → K) → (X → K) → (E → K) → (S → K) → (X → K) → X → K)
    (N : ℕ) (start : S → K) (m : ℕ → E → K) (s : ℕ → S → K) (x : ℕ → X → K) : Prop where
  initial : s 0 = start
  transition : ∀ t, t + 1 < N → s (t + 1) = g (m t) (s t) (x t) (m (t + 1))
  arbitrage : ∀ t, t + 1 < N → f (m t) (s t) (x t) (m (t + 1)) (s (t + 1)) (x (t + 1)) = 0
  terminal : x (N - 1) = x (N - 2)

/-- The entries of the residual. -/
theorem detResidual_entries (g : (E → K) → (S → K) → (X → K) → (E → K) → S → K)
    (f : (E → K) → (S → K) → (X → K) → (E → K) → (S → K) → (X → K) → X → K)
    (N : ℕ) (hN : 2 ≤ N) (guess : ℕ → S ⊕ X → K) (start : S → K) (m : ℕ → E → K) :
    ∃ res, detResidual g f N guess start m = .ok res ∧
      (∀ a, res 0 (.inl a) = start a - guess 0 (.inl a)) ∧
      (∀ i a, i + 1 < N → res (i + 1) (.inl a) =
        g (m i) (stOf guess i) (ctOf guess i) (m (i + 1)) a - guess (i + 1) (.inl a)) ∧
      (∀ i b, i + 1 < N → res i (.inr b) =
        f (m i) (stOf guess i) (ctOf guess i) (m (i + 1)) (stOf guess (i + 1))
          (ctOf guess (i + 1)) b) ∧
      (∀ b, res (N - 1) (.inr b) = guess (N - 2) (.inr b) - guess (N - 1) (.inr b)) := by
  unfold detResidual
  rw [if_neg (by omega)]
  refine ⟨_, rfl, ?_, ?_, ?_, ?_⟩
  · intro a
    simp [putRows, stOf]
  · intro i a hi
    simp [putRows, stOf, hi]
  · intro i b hi
    have h1 : i < N - 1 := by omega
    have h2 : ¬ (N - 1 ≤ i) := by omega
    simp [putRows, h1, h2]
  · intro b
    have h2 : N - 1 < N := by omega
    simp [putRows, ctOf, h2]

/-- **C38.** For every horizon `N ≥ 2` the stacked residual is computed without error, and all
its entries vanish exactly when the guess is a perfect-foresight path: it starts at the given
state, every pair of consecutive periods satisfies the transition and the arbitrage equations
with the shocks of the two periods, and the last control repeats the previous one. -/
theorem C38_residual_zero_iff (g : (E → K) → (S → K) → (X → K) → (E → K) → S → K)
    (f : (E → K) → (S → K) → (X → K) → (E → K) → (S → K) → (X → K) → X → K)
    (N : ℕ) (hN : 2 ≤ N) (guess : ℕ → S ⊕ X → K) (start : S → K) (m : ℕ → E → K) :
    ∃ res, detResidual g f N guess start m = .ok res ∧
      ((∀ i c, i < N → res i c = 0) ↔
        IsPFPath g f N start m (fun t a => guess t (.inl a)) (fun t b => guess t (.inr b))) := by
  obtain ⟨res, e, h1, h2, h3, h4⟩ := detResidual_entries g f N hN guess start m
  refine ⟨res, e, ?_, ?_⟩
  · intro h
    refine ⟨?_, ?_, ?_, ?_⟩
    · funext a
      have := h 0 (.inl a) (by omega)
      rw [h1] at this
      exact (sub_eq_zero.1 this).symm
    · intro t ht
      funext a
      have := h (t + 1) (.inl a) ht
      rw [h2 t a ht] at this
      exact (sub_eq_zero.1 this).symm
    · intro t ht
      funext b
      have := h t (.inr b) (by omega)
      rw [h3 t b ht] at this
      exact this
    · funext b
      have := h (N - 1) (.inr b) (by omega)
      rw [h4] at this
      exact (sub_eq_zero.1 this).symm
  · rintro ⟨p1, p2, p3, p4⟩ i c hi
    rcases c with a | b
    · rcases i with _ | i
      · rw [h1, ← p1]; simp
      · rw [h2 i a hi]
        exact sub_eq_zero.2 (congrFun (p2 i hi) a).symm
    · by_cases c : i + 1 < N
      · rw [h3 i b c]
        exact congrFun (p3 i c) b
      · obtain rfl : i = N - 1 := by omega
        rw [h4]
        exact sub_eq_zero.2 (congrFun p4 b).symm

/-- With fewer than two periods there is no residual: the call raises. -/
theorem C38_short_raises (g : (E → K) → (S → K) → (X → K) → (E → K) → S → K)
    (f : (E → K) → (S → K) → (X → K) → (E → K) → (S → K) → (X → K) → X → K)
    (N : ℕ) (hN : N < 2) (guess : ℕ → S ⊕ X → K) (start : S → K) (m : ℕ → E → K) :
    detResidual g f N guess start m = .error .indexError := by
  simp [detResidual, hN]

end residual

/-- Non-vacuity of `C38`: a genuinely moving path.  One state with transition
`S = s / 2 + x + M`, one control with arbitrage condition `x = s / 4`. The path
`s = 4, 3, 9/4`, with shocks `0`, has controls `1, 3/4, 3/4`. -/
example : IsPFPath (K := ℚ) (S := Unit) (X := Unit) (E := Unit)
    (fun _ s x M _ => s () / 2 + x () + M ()) (fun _ s x _ _ _ _ => x () - s () / 4) 3
    (fun _ => 4) (fun _ _ => 0) (fun t _ => if t = 0 then 4 else if t = 1 then 3 else 9 / 4)
    (fun t _ => if t = 0 then 1 else 3 / 4) := by
  refine ⟨by funext a; simp, ?_, ?_, by funext a; simp⟩
  · intro t ht
    obtain rfl | rfl : t = 0 ∨ t = 1 := by omega
    · funext a; norm_num
    · funext a; norm_num
  · intro t ht
    obtain rfl | rfl : t = 0 ∨ t = 1 := by omega
    · funext a; norm_num
    · funext a; norm_num

/-! ## C84: the state the simulation starts from -/

section start

variable {K : Type} [Field K] {S X E : Type}

/-- **C84** (solved part).  If the solver returns a zero of the function it was given, the
returned table has one row for each of the periods `0, …, T` (and one more, dated `-1`, holding
the initial steady state, exactly when it was asked for and a shock path was given), the rows
carry the exogenous path, and states and controls form a perfect-foresight path. -/
theorem C84_solution_partial (M : PFModel K S X E)
    (newton : ((ℕ → S ⊕ X → K) → Except Err (ℕ → S ⊕ X → K)) → (ℕ → S ⊕ X → K) →
      Except Err (ℕ → S ⊕ X → K))
    (T : ℕ) (given keep : Bool) (eps : ℕ → E → K) (s0 : Option (S → K)) (m0 : Option (E → K))
    (hnewton : ∀ st sol, pfStart M T given eps s0 m0 = .ok st →
      newton (fun v => detResidual M.g M.f (T + 1) v st.2.2 eps) (pfGuess M T st.2.2) = .ok sol →
      ∃ res, detResidual M.g M.f (T + 1) sol st.2.2 eps = .ok res ∧
        ∀ i c, i < T + 1 → res i c = 0)
    (table : List (ℤ × (S ⊕ X → K) × (E → K)))
    (h : deterministicSolve M newton T given keep eps s0 m0 = .ok table) :
    ∃ (sol : ℕ → S ⊕ X → K) (st : (S → K) × (X → K) × (S → K)),
      pfStart M T given eps s0 m0 = .ok st ∧
      IsPFPath M.g M.f (T + 1) st.2.2 eps (fun t a => sol t (.inl a))
        (fun t b => sol t (.inr b)) ∧
      (given = true → keep = true →
        table = (-1, Sum.elim st.1 st.2.1, eps 0) ::
          (List.range (T + 1)).map fun (i : ℕ) => ((i : ℤ), sol i, eps i)) ∧
      ((given = false ∨ keep = false) →
        table = (List.range (T + 1)).map fun (i : ℕ) => ((i : ℤ), sol i, eps i)) := by
  unfold deterministicSolve at h
  rcases hst : pfStart M T given eps s0 m0 with e | ⟨a, b, c⟩
  · simp [hst] at h; cases h
  · rw [hst] at h
    change (do
      let sol ← newton (fun v => detResidual M.g M.f (T + 1) v c eps) (pfGuess M T c)
      pure (pfTable T given keep a b sol eps)) = Except.ok table at h
    rcases hs : newton (fun v => detResidual M.g M.f (T + 1) v c eps) (pfGuess M T c) with e | sol
    · rw [hs] at h; cases h
    · rw [hs] at h
      have ht : pfTable T given keep a b sol eps = table := by
        simpa using Except.ok.inj h
      have hT : T ≠ 0 := by
        rintro rfl
        simp [pfStart] at hst
      refine ⟨sol, (a, b, c), rfl, ?_, ?_, ?_⟩
      · obtain ⟨res, e, hz⟩ := hnewton _ _ hst hs
        obtain ⟨res', e', hiff⟩ := C38_residual_zero_iff M.g M.f (T + 1) (by omega) sol c eps
        have : res' = res := by
          have e2 := e'.symm.trans e
          exact Except.ok.inj e2
        subst this
        exact hiff.1 hz
      · rintro rfl rfl
        rw [← ht]; rfl
      · intro hk
        rw [← ht]
        have : (given && keep) = false := by rcases hk with rfl | rfl <;> simp
        simp [pfTable, this]

/-- `(s, x)` is a steady state for the exogenous values `m`. -/
def IsSteady (M : PFModel K S X E) (m : E → K) (s : S → K) (x : X → K) : Prop :=
  M.g m s x m = s ∧ M.f m s x m s x = 0

/-- **C84** (partial).  When the exogenous path does not move between its first two dates and
`find_steady_state` does find a steady state, the state at date `0` is the steady state that is
consistent with the first exogenous value. -/
theorem C84_start_partial (M : PFModel K S X E) (T : ℕ) (hT : 0 < T) (eps : ℕ → E → K)
    (s0 : Option (S → K)) (m0 : Option (E → K))
    (hss : IsSteady M (eps 0) (M.findSteady (eps 0)).1 (M.findSteady (eps 0)).2)
    (heps : eps 1 = eps 0) :
    pfStart M T true eps s0 m0 =
      .ok ((M.findSteady (eps 0)).1, (M.findSteady (eps 0)).2, (M.findSteady (eps 0)).1) := by
  unfold pfStart
  rw [if_neg (by omega), if_pos rfl, heps]
  simp only [hss.1]

/-- **C84** (partial).  Without an exogenous path and without explicit values, a model whose
calibration is a steady state starts at the calibrated state. -/
theorem C84_default_start_partial (M : PFModel K S X E) (T : ℕ) (hT : 0 < T) (eps : ℕ → E → K)
    (heps : eps 1 = M.cE) (hss : IsSteady M M.cE M.cS M.cX) :
    pfStart M T false eps none none = .ok (M.cS, M.cX, M.cS) := by
  unfold pfStart
  rw [if_neg (by omega), if_neg (by simp), heps]
  simp [hss.1]

/-- **C84** (partial).  Values passed as `s0` and `m0` are used, those not passed are the
calibrated ones: the path starts at the chosen state whenever the transition from it, with the
chosen exogenous value and the calibrated controls, leads back to it. -/
theorem C84_chosen_start_partial (M : PFModel K S X E) (T : ℕ) (hT : 0 < T) (eps : ℕ → E → K)
    (s : S → K) (m : E → K) (hrest : M.g m s M.cX (eps 1) = s) :
    pfStart M T false eps (some s) (some m) = .ok (s, M.cX, s) ∧
      (m = M.cE → pfStart M T false eps (some s) none = .ok (s, M.cX, s)) ∧
      (s = M.cS → pfStart M T false eps none (some m) = .ok (s, M.cX, s)) := by
  have hT' : T ≠ 0 := by omega
  refine ⟨?_, ?_, ?_⟩
  · simp [pfStart, hT', hrest]
  · rintro rfl; simp [pfStart, hT', hrest]
  · rintro rfl; simp [pfStart, hT', hrest]

/-- The model used below: one state with transition `S = s / 2 + x + M`, one control equal to
zero, one exogenous variable; steady state `s = 2 m, x = 0`. -/
def pfToy : PFModel ℚ Unit Unit Unit where
  g := fun _ s x M _ => s () / 2 + x () + M ()
  f := fun _ _ x _ _ _ _ => x ()
  cS := fun _ => 0
  cX := fun _ => 0
  cE := fun _ => 0
  findSteady := fun m => (fun _ => 2 * m (), fun _ => 0)

theorem pfToy_steady (m : Unit → ℚ) : IsSteady pfToy m (fun _ => 2 * m ()) (fun _ => 0) := by
  constructor
  · funext a; simp only [pfToy]; ring
  · funext b; rfl

/-- **C84 fails for `s0`.**  A user who passes `s0` does not get a path that starts at `s0`: the
first row of the path is the *next* state, computed with the calibrated controls.  Here
`s0 = 4` and the row dated `0` has state `2`. -/
theorem C84_s0_fails : ∃ s0 : Unit → ℚ, ∃ st,
    pfStart pfToy 3 false (fun _ _ => 0) (some s0) none = .ok st ∧ st.2.2 ≠ s0 ∧
      st.2.2 = fun _ => 2 := by
  refine ⟨fun _ => 4, _, rfl, ?_, ?_⟩
  · intro h
    have := congrFun h ()
    norm_num [pfToy] at this
  · funext a; norm_num [pfToy]

/-- **C84 fails for a shock path.**  With exogenous values `0, 1, 0, 0, …` the economy is in the
steady state `s = 0` at date `0`.  The code starts the path at the state that already contains
the shock of date `1`, and every perfect-foresight path from there receives the same shock
once more in the transition to date `1`: the state is `1` at date `0` and `3/2` at date `1`,
where the true values are `0` and `1`. -/
theorem C84_shock_counted_twice_fails :
    ∃ (eps : ℕ → Unit → ℚ) (T : ℕ) (st : (Unit → ℚ) × (Unit → ℚ) × (Unit → ℚ)),
      IsSteady pfToy (eps 0) (fun _ => 0) (fun _ => 0) ∧
      pfStart pfToy T true eps none none = .ok st ∧
      (∀ s x, IsPFPath pfToy.g pfToy.f (T + 1) st.2.2 eps s x → s 0 () = 1 ∧ s 1 () = 3 / 2) ∧
      (∃ s x, IsPFPath pfToy.g pfToy.f (T + 1) st.2.2 eps s x) ∧
      (∀ s x, IsPFPath pfToy.g pfToy.f (T + 1) (fun _ => 0) eps s x →
        s 0 () = 0 ∧ s 1 () = 1) := by
  refine ⟨fun t _ => if t = 1 then 1 else 0, 2, _, ?_, rfl, ?_, ?_, ?_⟩
  · simpa using pfToy_steady (fun _ => 0)
  · rintro s x ⟨h1, h2, h3, -⟩
    have a1 := congrFun h1 ()
    have a2 := congrFun (h2 0 (by norm_num)) ()
    have a3 := congrFun (h3 0 (by norm_num)) ()
    simp only [pfToy] at a1 a2 a3
    norm_num at a1 a2 a3
    refine ⟨by rw [a1], ?_⟩
    rw [a2, a1, a3]; norm_num
  · refine ⟨fun t _ => if t = 0 then 1 else if t = 1 then 3 / 2 else 3 / 4, fun _ _ => 0,
      ?_, ?_, ?_, rfl⟩
    · funext a; norm_num [pfToy]
    · intro t ht
      obtain rfl | rfl : t = 0 ∨ t = 1 := by omega
      · funext a; norm_num [pfToy]
      · funext a; norm_num [pfToy]
    · intro t ht; rfl
  · rintro s x ⟨h1, h2, h3, -⟩
    have a1 := congrFun h1 ()
    have a2 := congrFun (h2 0 (by norm_num)) ()
    have a3 := congrFun (h3 0 (by norm_num)) ()
    simp only [pfToy] at a1 a2 a3
    norm_num at a1 a2 a3
    refine ⟨a1, ?_⟩
    rw [a2, a1, a3]; norm_num

/-- Non-vacuity of `C84_solution_partial`: the solver returns the path `4, 2, 1, 1/2` of the toy
model (from `s0 = 8`). -/
example : ∃ table, deterministicSolve pfToy
      (fun _ _ => .ok fun t c => Sum.elim (fun _ => (4 : ℚ) / 2 ^ t) (fun _ => 0) c)
      3 false true (fun _ _ => 0) (some fun _ => 8) none = .ok table ∧ table.length = 4 ∧
    ∀ st sol, pfStart pfToy 3 false (fun _ _ => 0) (some fun _ => 8) none = .ok st →
      (Except.ok (fun (t : ℕ) (c : Unit ⊕ Unit) =>
        Sum.elim (fun _ => (4 : ℚ) / 2 ^ t) (fun _ => 0) c) : Except Err _) = .ok sol →
      ∃ res, detResidual pfToy.g pfToy.f (3 + 1) sol st.2.2 (fun _ _ => 0) = .ok res ∧
        ∀ i c, i < 3 + 1 → res i c = 0 := by
  refine ⟨_, rfl, by simp [pfTable], ?_⟩
  rintro st sol h1 h2
  obtain rfl := Except.ok.inj h1
  obtain rfl := Except.ok.inj h2
  obtain ⟨res, e, hiff⟩ := C38_residual_zero_iff pfToy.g pfToy.f (3 + 1) (by norm_num)
    (fun t c => Sum.elim (fun _ => (4 : ℚ) / 2 ^ t) (fun _ => 0) c)
    (pfToy.g (fun _ => 0) (fun _ => 8) pfToy.cX (fun _ => 0)) (fun _ _ => 0)
  refine ⟨res, e, hiff.2 ⟨?_, ?_, ?_, rfl⟩⟩
  · funext a; norm_num [pfToy]
  · intro t _; funext a; simp [pfToy, pow_succ]; ring
  · intro t _; rfl

/-- Non-vacuity of `C84_start_partial`. -/
example : pfStart pfToy 3 true (fun _ _ => 1) none none =
    .ok (fun _ => 2, fun _ => 0, fun _ => 2) := by
  have := C84_start_partial pfToy 3 (by norm_num) (fun _ _ => 1) none none
    (pfToy_steady _) rfl
  simpa [pfToy] using this

/-- Non-vacuity of `C84_chosen_start_partial`: with `m0 = 0` and next exogenous value `3` the
state `6` is a rest point of the toy transition. -/
example : pfToy.g (fun _ => 0) (fun _ => 6) pfToy.cX (fun _ => 3) = fun _ => 6 := by
  funext a; norm_num [pfToy]

/-- The default initial guess joins the starting point to the calibrated point. -/
theorem C84_guess_endpoints (M : PFModel K S X E) (T : ℕ) (hT : (T : K) ≠ 0) (s1 : S → K) :
    pfGuess M T s1 0 = Sum.elim s1 M.cX ∧ pfGuess M T s1 T = Sum.elim M.cS M.cX ∧
      ∀ i b, pfGuess M T s1 i (.inr b) = M.cX b := by
  refine ⟨?_, ?_, ?_⟩
  · funext c; rcases c with a | b <;> simp [pfGuess]
  · funext c; rcases c with a | b <;> simp [pfGuess, div_self hT]
  · intro i b; simp only [pfGuess, Sum.elim_inr]; ring

end start

/-! ## C85: the two complementarity solvers -/

/-- **C85** (partial).  The default solver receives the lower bounds, the upper bounds and the
guess as its own `lb`, `ub` and starting point. -/
theorem C85_ncpsolve_call_partial {α : Type} (lower upper guess : α) :
    (ncpCallOf "ncpsolve" lower upper guess).lb = lower ∧
      (ncpCallOf "ncpsolve" lower upper guess).ub = upper ∧
      (ncpCallOf "ncpsolve" lower upper guess).x0 = guess := ⟨rfl, rfl, rfl⟩

/-- The solutions of a scalar complementarity problem with residual `F` on `[lb, ub]`:
`x` is inside the bounds and `F x` is zero, or non-negative at the lower bound, or non-positive
at the upper bound. -/
def IsMCP (F : ℚ → ℚ) (lb ub x : ℚ) : Prop :=
  lb ≤ x ∧ x ≤ ub ∧ (F x = 0 ∨ (x = lb ∧ 0 ≤ F x) ∨ (x = ub ∧ F x ≤ 0))

/-- **C85 fails for any other solver.**  With `solver="lmmcp"` the guess is passed as upper
bound and the upper bound as lower bound, so that a solver that does its job perfectly solves
another problem.  Scalar example: `F x = x - 1` on `[0, 2]` from the guess `2` has the solution
`1` only; the problem passed to `lmmcp` has the solution `2` only. -/
theorem C85_lmmcp_call_fails :
    ∃ (F : ℚ → ℚ) (lower upper guess : ℚ),
      lower ≤ guess ∧ guess ≤ upper ∧
      (∀ x, IsMCP F (ncpCallOf "ncpsolve" lower upper guess).lb
        (ncpCallOf "ncpsolve" lower upper guess).ub x ↔ x = 1) ∧
      (∀ x, IsMCP F (ncpCallOf "lmmcp" lower upper guess).lb
        (ncpCallOf "lmmcp" lower upper guess).ub x ↔ x = 2) := by
  refine ⟨fun x => x - 1, 0, 2, 2, by norm_num, by norm_num, ?_, ?_⟩
  · intro x
    have e : (ncpCallOf "ncpsolve" (0:ℚ) 2 2) = ⟨2, 0, 2⟩ := by simp [ncpCallOf]
    rw [e]
    constructor
    · rintro ⟨h1, h2, h | ⟨rfl, h⟩ | ⟨rfl, h⟩⟩
      · linarith
      · norm_num at h
      · norm_num at h
    · rintro rfl
      exact ⟨by norm_num, by norm_num, Or.inl (by norm_num)⟩
  · intro x
    have e : (ncpCallOf "lmmcp" (0:ℚ) 2 2) = ⟨0, 2, 2⟩ := by simp [ncpCallOf]
    rw [e]
    constructor
    · rintro ⟨h1, h2, -⟩
      exact le_antisymm h2 h1
    · rintro rfl
      exact ⟨le_refl _, le_refl _, Or.inr (Or.inl ⟨rfl, by norm_num⟩)⟩

/-! ## C86: a result as initial guess -/

section reuse

variable {K : Type} [Field K] {S X E : Type}

/-- **C86** (partial).  A table obtained with `keep_steady_state=True` from a shock path can be
used as initial guess for the same horizon: what is kept of it is the path dated `0, …, T`. -/
theorem C86_reuse_partial (T : ℕ) (s0 : S → K) (x0 : X → K) (sol : ℕ → S ⊕ X → K)
    (eps : ℕ → E → K) :
    (pfUserGuess (pfTable T true true s0 x0 sol eps)).map (fun r => r.2.1) =
      (List.range (T + 1)).map sol := by
  simp [pfUserGuess, pfTable, Function.comp_def]

/-- **C86 fails otherwise**: for the default call the first date of the path is dropped, so the
guess has only `T` rows where the stacked system of the same horizon has `T + 1`. -/
theorem C86_reuse_default_fails (T : ℕ) (given : Bool) (s0 : S → K) (x0 : X → K)
    (sol : ℕ → S ⊕ X → K) (eps : ℕ → E → K) :
    (pfUserGuess (pfTable T given false s0 x0 sol eps)).length = T ∧
      (pfTable T given false s0 x0 sol eps).length = T + 1 := by
  simp [pfUserGuess, pfTable]

end reuse

end Dolo
