import Mathlib.Data.List.Nodup
import Mathlib.Data.List.Basic
import Mathlib.Tactic.NormNum
import Mathlib.Tactic.Linarith
import Verif.Model.SimulateTable

/-!
# C111: the table returned by simulate
-/

set_option linter.unusedSectionVars false

namespace Dolo

section
variable {K : Type} [DecidableEq K]

/-! ### Specification -/

/-- The entry of the table at date `t`, path `n`, in the column called `name`. -/
def SimTable.entry (d : SimTable K) (t n : ℕ) (name : String) : Option K :=
  if name ∈ d.labels then (d.rows[t]?.bind fun date => date[n]?).bind fun row => row[d.labels.idxOf name]? else none

/-- The columns called `names` contain the vector `v` at date `t` and path `n`. -/
def SimTable.Shows (d : SimTable K) (t n : ℕ) (names : List String) (v : List K) : Prop :=
  ∀ (k : ℕ) (name : String), names[k]? = some name → d.entry t n name = v[k]? ∧ k < v.length

/-- The symbols of the model and the vectors it computes have the right sizes, and names are not used twice. -/
structure WellSized (M : SimModel K) (dr : SimRule K) (a : SimArgs K) (inp : SimInputs K) : Prop where
  names : ("_i_m" :: (M.exogenous ++ M.states ++ M.controls ++ M.auxiliaries)).Nodup
  s0 : (a.s0.getD M.s0).length = M.states.length
  trans : ∀ m s x m', (M.g m s x m').length = M.states.length
  rule : ∀ m s x, dr.evalMS m s = .ok x → x.length = M.controls.length
  ruleI : ∀ i s x, dr.evalIS i s = .ok x → x.length = M.controls.length
  aux : ∀ f, M.aux = some f → ∀ m s x, (f m s x).length = M.auxiliaries.length
  dates : ∀ date ∈ inp.m, date.length = a.N ∧ ∀ m ∈ date, m.length = M.exogenous.length
  m0 : inp.m0.length = a.N

/-- A trajectory of `N` paths over `T` dates driven by `inp`, as the code computes it: paths start at `s0`, controls are
given by the rule (at the index of the exogenous state if there is one), and the next states by the transition from the
exogenous values of the *previous* date (those of `inp.m0` at the first one) to those of the current one. -/
structure Trajectory (M : SimModel K) (dr : SimRule K) (inp : SimInputs K) (N T : ℕ) (s0 : List K)
    (c : ℕ → ℕ → SimCell K) : Prop where
  exo : ∀ t < T, ∀ n < N, (inp.m[t]?.bind fun date => date[n]?) = some (c t n).m
  index : ∀ t < T, ∀ n < N, (c t n).i = inp.i.bind fun l => l[t]?.bind fun date => date[n]?
  indexed : ∀ t < T, ∀ n < N, (c t n).i.isSome = inp.i.isSome
  rule : ∀ t < T, ∀ n < N, ∀ i, (c t n).i = some i → dr.evalIS (some i) (c t n).s = .ok (c t n).x
  ruleV : ∀ t < T, ∀ n < N, (c t n).i = none → dr.evalMS (c t n).m (c t n).s = .ok (c t n).x
  start : ∀ n < N, (c 0 n).s = s0
  first : ∀ n < N, 1 < T → ∃ mp, inp.m0[n]? = some mp ∧ (c 1 n).s = M.g mp (c 0 n).s (c 0 n).x (c 0 n).m
  next : ∀ t n, n < N → t + 2 < T →
    (c (t + 2) n).s = M.g (c t n).m (c (t + 1) n).s (c (t + 1) n).x (c (t + 1) n).m

/-! ### Lemmas -/

private theorem get_of_pyGet {α : Type} {l : List α} {i : ℕ} {v : α} (h : pyGet l i = .ok v) : l[i]? = some v := by
  unfold pyGet at h
  split at h
  · rename_i w hw
    cases h
    exact hw
  · cases h

private theorem mapM_get {α β : Type} (f : α → Except Err β) (l : List α) (r : List β) (h : l.mapM f = .ok r) :
    r.length = l.length ∧ ∀ (i : ℕ) (a : α), l[i]? = some a → ∃ b, r[i]? = some b ∧ f a = .ok b := by
  induction l generalizing r with
  | nil =>
    simp only [List.mapM_nil, pure, Except.pure, Except.ok.injEq] at h
    subst h
    exact ⟨rfl, fun i a h => by simp at h⟩
  | cons x l ih =>
    rw [List.mapM_cons] at h
    cases hx : f x with
    | error e => rw [hx] at h; simp [bind, Except.bind] at h
    | ok y =>
      cases hl : l.mapM f with
      | error e => rw [hx, hl] at h; simp [bind, Except.bind] at h
      | ok ys =>
        rw [hx, hl] at h
        simp only [bind, Except.bind, pure, Except.pure, Except.ok.injEq] at h
        subst h
        obtain ⟨h1, h2⟩ := ih ys hl
        refine ⟨by simp [h1], ?_⟩
        intro i a ha
        cases i with
        | zero => simp only [List.getElem?_cons_zero, Option.some.injEq] at ha; subst ha; exact ⟨y, rfl, hx⟩
        | succ i => simpa using h2 i a (by simpa using ha)

/-- The cells of one date. -/
private theorem date_spec (dr : SimRule K) (i : Option (List ℕ)) (m s x : List (List K)) (N : ℕ) (hm : m.length = N)
    (hs : s.length = N) (h : simControls dr i m s = .ok x) :
    x.length = N ∧ (simCells i m s x).length = N ∧
    ∀ n < N, ∃ c, (simCells i m s x)[n]? = some c ∧ m[n]? = some c.m ∧ s[n]? = some c.s ∧ x[n]? = some c.x ∧
      c.i = (i.bind fun l => l[n]?) ∧ c.i.isSome = i.isSome ∧
      (∀ j, c.i = some j → dr.evalIS (some j) c.s = .ok c.x) ∧ (c.i = none → dr.evalMS c.m c.s = .ok c.x) := by
  have key : x.length = N ∧ ∀ n < N, ∀ mm ss xx, m[n]? = some mm → s[n]? = some ss → x[n]? = some xx →
      (i.bind fun l => l[n]?).isSome = i.isSome ∧
      (∀ j, (i.bind fun l => l[n]?) = some j → dr.evalIS (some j) ss = .ok xx) ∧
      ((i.bind fun l => l[n]?) = none → dr.evalMS mm ss = .ok xx) := by
    cases i with
    | none =>
      simp only [simControls] at h
      obtain ⟨h1, h2⟩ := mapM_get _ _ _ h
      refine ⟨by simp [h1, hm, hs], ?_⟩
      intro n hn mm ss xx e1 e2 e3
      obtain ⟨b, hb, hb'⟩ := h2 n (mm, ss) (List.getElem?_zip_eq_some.2 ⟨e1, e2⟩)
      rw [e3] at hb
      simp only [Option.some.injEq] at hb
      subst hb
      exact ⟨rfl, fun j hj => by simp at hj, fun _ => hb'⟩
    | some i_m =>
      simp only [simControls] at h
      split_ifs at h with h0
      obtain ⟨h1, h2⟩ := mapM_get _ _ _ h
      refine ⟨by simpa [hs] using h1, ?_⟩
      intro n hn mm ss xx e1 e2 e3
      have hr : (List.range s.length)[n]? = some n := by simp [hs, hn]
      obtain ⟨b, hb, hb'⟩ := h2 n n hr
      rw [e3] at hb
      simp only [Option.some.injEq] at hb
      subst hb
      cases hk : pyGet i_m n with
      | error e => rw [hk] at hb'; simp [bind, Except.bind] at hb'
      | ok k =>
        cases hrow : pyGet s n with
        | error e => rw [hk, hrow] at hb'; simp [bind, Except.bind] at hb'
        | ok row =>
          rw [hk, hrow] at hb'
          simp only [bind, Except.bind] at hb'
          have e4 := get_of_pyGet hrow
          rw [e2] at e4
          simp only [Option.some.injEq] at e4
          subst e4
          have e5 := get_of_pyGet hk
          simp only [Option.bind_some, e5, Option.isSome_some]
          exact ⟨trivial, fun j hj => by simp only [Option.some.injEq] at hj; subst hj; exact hb', fun h => by simp at h⟩
  obtain ⟨hx, hkey⟩ := key
  refine ⟨hx, by simp [simCells, hm, hs, hx], ?_⟩
  intro n hn
  have e1 : m[n]? = some m[n] := List.getElem?_eq_getElem (by omega)
  have e2 : s[n]? = some s[n] := List.getElem?_eq_getElem (by omega)
  have e3 : x[n]? = some x[n] := List.getElem?_eq_getElem (by omega)
  obtain ⟨k1, k2, k3⟩ := hkey n hn _ _ _ e1 e2 e3
  refine ⟨⟨i.bind fun l => l[n]?, m[n], s[n], x[n]⟩, ?_, e1, e2, e3, rfl, k1, k2, k3⟩
  unfold simCells
  rw [List.getElem?_mapIdx]
  have : (List.zip m (List.zip s x))[n]? = some (m[n], s[n], x[n]) :=
    List.getElem?_zip_eq_some.2 ⟨e1, List.getElem?_zip_eq_some.2 ⟨e2, e3⟩⟩
  rw [this]
  rfl

private theorem next_spec (M : SimModel K) (mp s x m : List (List K)) (N : ℕ) (h1 : mp.length = N) (h2 : s.length = N)
    (h3 : x.length = N) (h4 : m.length = N) :
    (simNext M mp s x m).length = N ∧ ∀ (n : ℕ) (a b c d : List K), mp[n]? = some a → s[n]? = some b → x[n]? = some c →
      m[n]? = some d → (simNext M mp s x m)[n]? = some (M.g a b c d) := by
  refine ⟨by simp [simNext, h1, h2, h3, h4], ?_⟩
  intro n a b c d e1 e2 e3 e4
  unfold simNext
  rw [List.getElem?_map]
  have : (List.zip (List.zip mp s) (List.zip x m))[n]? = some ((a, b), (c, d)) :=
    List.getElem?_zip_eq_some.2 ⟨List.getElem?_zip_eq_some.2 ⟨e1, e2⟩, List.getElem?_zip_eq_some.2 ⟨e3, e4⟩⟩
  rw [this]
  rfl

/-- What the loop computes, from date `i` on, with the previous exogenous values `mp` and the states `s`. -/
private theorem dates_spec (M : SimModel K) (dr : SimRule K) (inp : SimInputs K) (N : ℕ)
    (hd : ∀ date ∈ inp.m, date.length = N) (k i : ℕ) (mp s : List (List K)) (hmp : mp.length = N) (hs : s.length = N)
    (cells : List (List (SimCell K))) (h : simDates M dr inp k i mp s = .ok cells) :
    cells.length = k ∧ (∀ date ∈ cells, date.length = N) ∧
    ∀ t < k, ∀ n < N, ∃ c, (cells[t]?.bind fun d => d[n]?) = some c ∧
      (inp.m[i + t]?.bind fun d => d[n]?) = some c.m ∧
      c.i = (inp.i.bind fun l => l[i + t]?.bind fun d => d[n]?) ∧ c.i.isSome = inp.i.isSome ∧
      (∀ j, c.i = some j → dr.evalIS (some j) c.s = .ok c.x) ∧ (c.i = none → dr.evalMS c.m c.s = .ok c.x) ∧
      (t = 0 → s[n]? = some c.s) ∧
      (t = 1 → ∃ c' a, (cells[0]?.bind fun d => d[n]?) = some c' ∧ mp[n]? = some a ∧ c.s = M.g a c'.s c'.x c'.m) ∧
      (∀ t', t = t' + 2 → ∃ c' c'', (cells[t' + 1]?.bind fun d => d[n]?) = some c' ∧
        (cells[t']?.bind fun d => d[n]?) = some c'' ∧ c.s = M.g c''.m c'.s c'.x c'.m) := by
  induction k generalizing i mp s cells with
  | zero =>
    simp only [simDates, Except.ok.injEq] at h
    subst h
    exact ⟨rfl, by simp, fun t ht => by omega⟩
  | succ k ih =>
    unfold simDates at h
    cases hm : pyGet inp.m i with
    | error e => rw [hm] at h; simp [bind, Except.bind] at h
    | ok m =>
      have hm' := get_of_pyGet hm
      have hmN : m.length = N := hd m (List.mem_of_getElem? hm')
      rw [hm] at h
      simp only [bind, Except.bind] at h
      -- the indices of the date
      have hidx : ∃ i_m, simIndex inp.i i = .ok i_m ∧ (i_m = inp.i.bind fun l => l[i]?) ∧
            i_m.isSome = inp.i.isSome := by
        cases hI : inp.i with
        | none => exact ⟨none, rfl, rfl, rfl⟩
        | some l =>
          rw [hI] at h
          cases hl : pyGet l i with
          | error e => simp [simIndex, hl, Functor.map, Except.map] at h
          | ok v =>
            refine ⟨some v, by simp [simIndex, hl, Functor.map, Except.map], ?_, rfl⟩
            simp [get_of_pyGet hl]
      obtain ⟨i_m, hi1, hi2, hi3⟩ := hidx
      rw [hi1] at h
      simp only [] at h
      cases hx : simControls dr i_m m s with
      | error e => rw [hx] at h; simp at h
      | ok x =>
        rw [hx] at h
        simp only [] at h
        obtain ⟨hxN, hcN, hcell⟩ := date_spec dr i_m m s x N hmN hs hx
        obtain ⟨hnN, hnext⟩ := next_spec M mp s x m N hmp hs hxN hmN
        cases hr : simDates M dr inp k (i + 1) m (simNext M mp s x m) with
        | error e => rw [hr] at h; simp at h
        | ok rest =>
          rw [hr] at h
          simp only [Except.ok.injEq] at h
          subst h
          obtain ⟨r1, r2, r3⟩ := ih (i + 1) m _ hmN hnN rest hr
          refine ⟨by simp [r1], ?_, ?_⟩
          · intro date hdate
            rcases List.mem_cons.1 hdate with rfl | hdate
            · exact hcN
            · exact r2 date hdate
          · intro t ht n hn
            obtain ⟨c0, a1, a2, a3, a4, a5, a6, a7, a8⟩ := hcell n hn
            cases t with
            | zero =>
              refine ⟨c0, by simpa using a1, by simpa [hm'] using a2, ?_, by rw [a6, hi3], a7, a8, fun _ => a3,
                fun h => by omega, fun t' h => by omega⟩
              rw [a5, hi2]
              cases inp.i <;> rfl
            | succ t =>
              obtain ⟨c, b1, b2, b3, b4, b5, b6, b7, b8, b9⟩ := r3 t (by omega) n hn
              have e : i + (t + 1) = i + 1 + t := by omega
              refine ⟨c, by simpa using b1, by rw [e]; exact b2, by rw [e]; exact b3, b4, b5, b6, fun h => by omega,
                ?_, ?_⟩
              · intro ht1
                have ht0 : t = 0 := by omega
                have hs' := b7 ht0
                have ea : mp[n]? = some mp[n] := List.getElem?_eq_getElem (by omega)
                have := hnext n _ _ _ _ ea a3 a4 a2
                rw [this] at hs'
                simp only [Option.some.injEq] at hs'
                exact ⟨c0, mp[n], by simpa using a1, ea, hs'.symm⟩
              · intro t' ht'
                cases t' with
                | zero =>
                  obtain ⟨c', a, d1, d2, d3⟩ := b8 (by omega)
                  refine ⟨c', c0, by simpa using d1, by simpa using a1, ?_⟩
                  rw [a2] at d2
                  simp only [Option.some.injEq] at d2
                  rw [d3, d2]
                | succ t'' =>
                  obtain ⟨c', c'', d1, d2, d3⟩ := b9 t'' (by omega)
                  exact ⟨c', c'', by simpa using d1, by simpa using d2, d3⟩

private theorem idxOf_mid (A B C : List String) (k : ℕ) (name : String) (hnd : (A ++ B ++ C).Nodup)
    (h : B[k]? = some name) : name ∈ A ++ B ++ C ∧ (A ++ B ++ C).idxOf name = A.length + k := by
  have hk : k < B.length := by
    obtain ⟨h', -⟩ := List.getElem?_eq_some_iff.1 h
    exact h'
  have hget : (A ++ B ++ C)[A.length + k]? = some name := by
    rw [List.append_assoc, List.getElem?_append_right (by omega), List.getElem?_append_left (by omega)]
    simpa using h
  obtain ⟨hlt, hget'⟩ := List.getElem?_eq_some_iff.1 hget
  refine ⟨List.mem_of_getElem? hget, ?_⟩
  have := List.Nodup.idxOf_getElem hnd (A.length + k) hlt
  rw [hget'] at this
  exact this

private theorem row_mid (A b C : List K) (k n : ℕ) (hA : A.length = n) (hk : k < b.length) :
    (A ++ b ++ C)[n + k]? = b[k]? := by
  rw [List.append_assoc, List.getElem?_append_right (by omega), List.getElem?_append_left (by omega)]
  congr 1
  omega

/-- Reading a block of columns. -/
private theorem shows_mid (d : SimTable K) (t n : ℕ) (A B C : List String) (hl : d.labels = A ++ B ++ C)
    (hnd : d.labels.Nodup) (a b c : List K) (hr : (d.rows[t]?.bind fun date => date[n]?) = some (a ++ b ++ c))
    (hA : a.length = A.length) (hB : b.length = B.length) : d.Shows t n B b := by
  intro k name hname
  have hk : k < B.length := by
    obtain ⟨h', -⟩ := List.getElem?_eq_some_iff.1 hname
    exact h'
  rw [hl] at hnd
  obtain ⟨h1, h2⟩ := idxOf_mid A B C k name hnd hname
  refine ⟨?_, by omega⟩
  unfold SimTable.entry
  rw [hl, if_pos h1, hr, h2]
  simp only [Option.bind_some]
  exact row_mid a b c k A.length hA (by omega)

/-! ### C111 -/

/-- What a successful call is made of. -/
private theorem table_ok (cast : ℕ → K) (M : SimModel K) (dr : SimRule K) (process : SimProcess K) (a : SimArgs K)
    (d : SimTable K) (h : simulateTable cast M dr process a = .ok d) :
    a.T ≠ 0 ∧ ∃ inp cells, simInputs M dr process a (a.s0.getD M.s0) = .ok inp ∧
      simDates M dr inp a.T 0 inp.m0 (List.replicate a.N (a.s0.getD M.s0)) = .ok cells ∧
      d = ⟨simLabels M inp.i.isSome, cells.map fun date => date.map (simRow cast M)⟩ := by
  unfold simulateTable at h
  by_cases hT : a.T = 0
  · rw [if_pos hT] at h; simp at h
  · rw [if_neg hT] at h
    cases hi : simInputs M dr process a (a.s0.getD M.s0) with
    | error e => rw [hi] at h; simp [bind, Except.bind] at h
    | ok inp =>
      rw [hi] at h
      simp only [bind, Except.bind] at h
      cases hc : simDates M dr inp a.T 0 inp.m0 (List.replicate a.N (a.s0.getD M.s0)) with
      | error e => rw [hc] at h; simp at h
      | ok cells =>
        rw [hc] at h
        simp only [] at h
        split_ifs at h
        · simp only [Except.ok.injEq] at h
          exact ⟨hT, inp, cells, rfl, hc, h.symm⟩

/-- **C111.**  In the table returned by `simulate`, there are `T` dates of `N` paths, and there is a trajectory of the
model such that the columns named after the states and the controls contain the states and controls of the trajectory, at
every date and for every path; if the model has auxiliary variables, the columns named after the exogenous variables and
the auxiliary variables contain the driving process and the auxiliary variables of the same date and path; for a discrete
process the column `_i_m` contains the index of the exogenous state. -/
theorem C111_table (cast : ℕ → K) (M : SimModel K) (dr : SimRule K) (process : SimProcess K) (a : SimArgs K)
    (d : SimTable K) (h : simulateTable cast M dr process a = .ok d) (inp : SimInputs K)
    (hinp : simInputs M dr process a (a.s0.getD M.s0) = .ok inp) (hw : WellSized M dr a inp) :
    d.rows.length = a.T ∧ (∀ date ∈ d.rows, date.length = a.N) ∧
    ∃ c, Trajectory M dr inp a.N a.T (a.s0.getD M.s0) c ∧
      ∀ t < a.T, ∀ n < a.N,
        d.Shows t n M.states (c t n).s ∧ d.Shows t n M.controls (c t n).x ∧
        (∀ f, M.aux = some f → d.Shows t n M.exogenous (c t n).m ∧
          d.Shows t n M.auxiliaries (f (c t n).m (c t n).s (c t n).x)) ∧
        (∀ i, (c t n).i = some i → d.entry t n "_i_m" = some (cast i)) := by
  obtain ⟨hT, inp', cells, hi, hc, hd⟩ := table_ok cast M dr process a d h
  rw [hinp] at hi
  simp only [Except.ok.injEq] at hi
  subst hi
  obtain ⟨k1, k2, k3⟩ := dates_spec M dr inp a.N (fun date hdate => (hw.dates date hdate).1) a.T 0 inp.m0 _ hw.m0
    (by simp) cells hc
  simp only [Nat.zero_add] at k3
  -- the cells as a function
  let c : ℕ → ℕ → SimCell K := fun t n => ((cells[t]?.bind fun d => d[n]?)).getD ⟨none, [], [], []⟩
  have hcell : ∀ t n x, (cells[t]?.bind fun d => d[n]?) = some x → c t n = x := by
    intro t n x hx
    show ((cells[t]?.bind fun d => d[n]?)).getD _ = x
    rw [hx]; rfl
  have hget : ∀ t < a.T, ∀ n < a.N, (cells[t]?.bind fun d => d[n]?) = some (c t n) := by
    intro t ht n hn
    obtain ⟨x, hx, -⟩ := k3 t ht n hn
    rw [hcell t n x hx, hx]
  have htraj : Trajectory M dr inp a.N a.T (a.s0.getD M.s0) c := by
    constructor
    · intro t ht n hn
      obtain ⟨x, hx, h1, -⟩ := k3 t ht n hn
      rw [hcell t n x hx]; exact h1
    · intro t ht n hn
      obtain ⟨x, hx, -, h1, -⟩ := k3 t ht n hn
      rw [hcell t n x hx]; exact h1
    · intro t ht n hn
      obtain ⟨x, hx, -, -, h1, -⟩ := k3 t ht n hn
      rw [hcell t n x hx]; exact h1
    · intro t ht n hn
      obtain ⟨x, hx, -, -, -, h1, -⟩ := k3 t ht n hn
      rw [hcell t n x hx]; exact h1
    · intro t ht n hn
      obtain ⟨x, hx, -, -, -, -, h1, -⟩ := k3 t ht n hn
      rw [hcell t n x hx]; exact h1
    · intro n hn
      obtain ⟨x, hx, -, -, -, -, -, h1, -⟩ := k3 0 (by omega) n hn
      have := h1 rfl
      rw [List.getElem?_replicate, if_pos hn] at this
      rw [hcell 0 n x hx]
      simpa using this.symm
    · intro n hn h1T
      obtain ⟨x, hx, -, -, -, -, -, -, h1, -⟩ := k3 1 h1T n hn
      obtain ⟨c', mp, e1, e2, e3⟩ := h1 rfl
      exact ⟨mp, e2, by rw [hcell 1 n x hx, hcell 0 n c' e1]; exact e3⟩
    · intro t n hn ht
      obtain ⟨x, hx, -, -, -, -, -, -, -, h1⟩ := k3 (t + 2) ht n hn
      obtain ⟨c', c'', e1, e2, e3⟩ := h1 t rfl
      rw [hcell _ n x hx, hcell _ n c' e1, hcell _ n c'' e2]; exact e3
  -- sizes
  have hslen : ∀ t < a.T, ∀ n < a.N, (c t n).s.length = M.states.length := by
    intro t ht n hn
    match t with
    | 0 => rw [htraj.start n hn]; exact hw.s0
    | 1 =>
      obtain ⟨mp, -, e⟩ := htraj.first n hn ht
      rw [e]; exact hw.trans _ _ _ _
    | t + 2 => rw [htraj.next t n hn ht]; exact hw.trans _ _ _ _
  have hxlen : ∀ t < a.T, ∀ n < a.N, (c t n).x.length = M.controls.length := by
    intro t ht n hn
    cases hi : (c t n).i with
    | none => exact hw.rule _ _ _ (htraj.ruleV t ht n hn hi)
    | some i => exact hw.ruleI _ _ _ (htraj.rule t ht n hn i hi)
  have hmlen : ∀ t < a.T, ∀ n < a.N, (c t n).m.length = M.exogenous.length := by
    intro t ht n hn
    have e := htraj.exo t ht n hn
    cases hm : inp.m[t]? with
    | none => rw [hm] at e; simp at e
    | some date =>
      rw [hm] at e
      simp only [Option.bind_some] at e
      exact (hw.dates date (List.mem_of_getElem? hm)).2 _ (List.mem_of_getElem? e)
  refine ⟨by rw [hd]; simp [k1], ?_, c, htraj, ?_⟩
  · intro date hdate
    rw [hd] at hdate
    simp only [List.mem_map] at hdate
    obtain ⟨l, hl, rfl⟩ := hdate
    simpa using k2 l hl
  intro t ht n hn
  have hrow : (d.rows[t]?.bind fun date => date[n]?) = some (simRow cast M (c t n)) := by
    have e := hget t ht n hn
    rw [hd]
    simp only [List.getElem?_map]
    cases hct : cells[t]? with
    | none => rw [hct] at e; simp at e
    | some l =>
      rw [hct] at e
      simp only [Option.bind_some] at e
      simp [e]
  have hlab : d.labels = simLabels M inp.i.isSome := by rw [hd]
  have hidx := htraj.indexed t ht n hn
  -- the first column
  let P : List String := if inp.i.isSome then ["_i_m"] else []
  let p : List K := match (c t n).i with | some i => [cast i] | none => []
  have hPp : p.length = P.length := by
    show (match (c t n).i with | some i => [cast i] | none => [] : List K).length
      = (if inp.i.isSome then ["_i_m"] else []).length
    rw [← hidx]
    cases (c t n).i <;> rfl
  have hnd := hw.names
  have hs := hslen t ht n hn
  have hx := hxlen t ht n hn
  have hm := hmlen t ht n hn
  cases haux : M.aux with
  | none =>
    have hl : d.labels = P ++ (M.states ++ M.controls) := by rw [hlab]; simp [simLabels, haux, P]
    have hr : simRow cast M (c t n) = p ++ ((c t n).s ++ (c t n).x) := by
      simp only [simRow, haux]
      rfl
    have hnd' : d.labels.Nodup := by
      rw [hl]
      refine List.Nodup.sublist ?_ hnd
      have h1 : (M.states ++ M.controls).Sublist (M.exogenous ++ M.states ++ M.controls ++ M.auxiliaries) := by
        have : M.exogenous ++ M.states ++ M.controls ++ M.auxiliaries
            = M.exogenous ++ ((M.states ++ M.controls) ++ M.auxiliaries) := by simp
        rw [this]
        exact (List.sublist_append_left _ _).trans (List.sublist_append_right _ _)
      show ((if inp.i.isSome then ["_i_m"] else []) ++ (M.states ++ M.controls)).Sublist _
      split_ifs
      · exact h1.cons_cons _
      · exact h1.cons _
    rw [hr] at hrow
    refine ⟨?_, ?_, fun f hf => by simp at hf, ?_⟩
    · exact shows_mid d t n P M.states M.controls (by rw [hl]; simp) hnd' p _ (c t n).x
        (by rw [hrow]; simp) hPp hs
    · exact shows_mid d t n (P ++ M.states) M.controls [] (by rw [hl]; simp) hnd' (p ++ (c t n).s) _ []
        (by rw [hrow]; simp) (by simp [hPp, hs]) hx
    · intro i hi
      have hP : P = ["_i_m"] := by
        show (if inp.i.isSome then ["_i_m"] else []) = _
        rw [← hidx, hi]; rfl
      have hp : p = [cast i] := by
        show (match (c t n).i with | some i => [cast i] | none => [] : List K) = _
        rw [hi]
      have := shows_mid d t n [] P (M.states ++ M.controls) (by rw [hl]; simp) hnd' [] p ((c t n).s ++ (c t n).x)
        (by rw [hrow]; simp) rfl hPp 0 "_i_m" (by rw [hP]; rfl)
      rw [this.1, hp]; rfl
  | some f =>
    have hl : d.labels = P ++ (M.exogenous ++ M.states ++ M.controls ++ M.auxiliaries) := by
      rw [hlab]; simp [simLabels, haux, P]
    have hr : simRow cast M (c t n) = p ++ ((c t n).m ++ (c t n).s ++ (c t n).x ++ f (c t n).m (c t n).s (c t n).x) := by
      simp only [simRow, haux]
      rfl
    have ha := hw.aux f haux (c t n).m (c t n).s (c t n).x
    have hnd' : d.labels.Nodup := by
      rw [hl]
      refine List.Nodup.sublist ?_ hnd
      show ((if inp.i.isSome then ["_i_m"] else []) ++ _).Sublist _
      split_ifs
      · exact List.Sublist.refl _
      · exact List.Sublist.cons _ (List.Sublist.refl _)
    rw [hr] at hrow
    refine ⟨?_, ?_, ?_, ?_⟩
    · exact shows_mid d t n (P ++ M.exogenous) M.states (M.controls ++ M.auxiliaries) (by rw [hl]; simp) hnd'
        (p ++ (c t n).m) _ ((c t n).x ++ f (c t n).m (c t n).s (c t n).x) (by rw [hrow]; simp)
        (by simp [hPp, hm]) hs
    · exact shows_mid d t n (P ++ M.exogenous ++ M.states) M.controls M.auxiliaries (by rw [hl]; simp) hnd'
        (p ++ (c t n).m ++ (c t n).s) _ (f (c t n).m (c t n).s (c t n).x) (by rw [hrow]; simp)
        (by simp [hPp, hm, hs]) hx
    · intro f' hf'
      simp only [Option.some.injEq] at hf'
      subst hf'
      constructor
      · exact shows_mid d t n P M.exogenous (M.states ++ M.controls ++ M.auxiliaries) (by rw [hl]; simp) hnd'
          p _ ((c t n).s ++ (c t n).x ++ f (c t n).m (c t n).s (c t n).x) (by rw [hrow]; simp) hPp hm
      · exact shows_mid d t n (P ++ M.exogenous ++ M.states ++ M.controls) M.auxiliaries [] (by rw [hl]; simp) hnd'
          (p ++ (c t n).m ++ (c t n).s ++ (c t n).x) _ [] (by rw [hrow]; simp) (by simp [hPp, hm, hs, hx]) ha
    · intro i hi
      have hP : P = ["_i_m"] := by
        show (if inp.i.isSome then ["_i_m"] else []) = _
        rw [← hidx, hi]; rfl
      have hp : p = [cast i] := by
        show (match (c t n).i with | some i => [cast i] | none => [] : List K) = _
        rw [hi]
      have := shows_mid d t n [] P (M.exogenous ++ M.states ++ M.controls ++ M.auxiliaries) (by rw [hl]; simp) hnd' [] p
        ((c t n).m ++ (c t n).s ++ (c t n).x ++ f (c t n).m (c t n).s (c t n).x)
        (by rw [hrow]; simp) rfl hPp 0 "_i_m" (by rw [hP]; rfl)
      rw [this.1, hp]; rfl

/-- **C111, what drives the simulation.**  An array of values is used as it is; an array of indices through the nodes of
the rule; without either, the process draws the exogenous values. -/
theorem C111_inputs (M : SimModel K) (dr : SimRule K) (process : SimProcess K) (a : SimArgs K) (s0 : List K)
    (inp : SimInputs K) (h : simInputs M dr process a s0 = .ok inp) :
    (∀ m, a.driving = some (.values m) → inp.m = m ∧ inp.i = none ∧ m[0]? = some inp.m0) ∧
    (∀ i nodes, a.driving = some (.indices i) → dr.nodes = .ok nodes → inp.i = some i ∧
      inp.m.length = i.length ∧ inp.m[0]? = some inp.m0 ∧
      ∀ (t n : ℕ) (row : List ℕ) (j : ℕ), i[t]? = some row → row[n]? = some j →
        (inp.m[t]?.bind fun date => date[n]?) = nodes[j]?) ∧
    (∀ sim, a.driving = none → process = .continuous sim → sim a.m0 = .ok inp.m ∧ inp.i = none ∧
      inp.m0 = List.replicate a.N (a.m0.getD M.m0)) ∧
    (∀ values node sim, a.driving = none → process = .discrete values node sim → sim (a.i0.getD 0) = .ok inp.m ∧
      inp.i.isSome = true ∧ ∃ m0, node (a.i0.getD 0) = .ok m0 ∧ inp.m0 = List.replicate a.N m0) := by
  refine ⟨?_, ?_, ?_, ?_⟩
  · intro m hm
    simp only [simInputs, hm, bind, Except.bind] at h
    cases h1 : dr.evalMS (a.m0.getD M.m0) s0 with
    | error e => rw [h1] at h; simp at h
    | ok x =>
      rw [h1] at h
      cases h2 : pyGet m 0 with
      | error e => rw [h2] at h; simp at h
      | ok m0 =>
        rw [h2] at h
        simp only [Except.ok.injEq] at h
        subst h
        exact ⟨rfl, rfl, get_of_pyGet h2⟩
  · intro i nodes hi hn
    simp only [simInputs, hi, hn, bind, Except.bind] at h
    cases h1 : (i.mapM fun row => row.mapM fun i => pyGet nodes i : Except Err (List (List (List K)))) with
    | error e => rw [h1] at h; simp at h
    | ok m =>
      rw [h1] at h
      simp only [] at h
      cases h2 : dr.evalIS a.i0 s0 with
      | error e => rw [h2] at h; simp at h
      | ok x =>
        rw [h2] at h
        cases h3 : pyGet m 0 with
        | error e => rw [h3] at h; simp at h
        | ok m0 =>
          rw [h3] at h
          simp only [Except.ok.injEq] at h
          subst h
          obtain ⟨k1, k2⟩ := mapM_get _ _ _ h1
          refine ⟨rfl, k1, get_of_pyGet h3, ?_⟩
          intro t n row j e1 e2
          obtain ⟨b, hb, hb'⟩ := k2 t row e1
          obtain ⟨-, k4⟩ := mapM_get _ _ _ hb'
          obtain ⟨v, hv, hv'⟩ := k4 n j e2
          simp only []
          rw [hb, Option.bind_some, hv, get_of_pyGet hv']
  · intro sim hd hp
    subst hp
    simp only [simInputs, hd, bind, Except.bind] at h
    cases h1 : sim a.m0 with
    | error e => rw [h1] at h; simp at h
    | ok m =>
      rw [h1] at h
      simp only [] at h
      cases h2 : dr.evalMS (a.m0.getD M.m0) s0 with
      | error e => rw [h2] at h; simp at h
      | ok x =>
        rw [h2] at h
        simp only [Except.ok.injEq] at h
        subst h
        exact ⟨rfl, rfl, rfl⟩
  · intro values node sim hd hp
    subst hp
    simp only [simInputs, hd, bind, Except.bind] at h
    cases h1 : sim (a.i0.getD 0) with
    | error e => rw [h1] at h; simp at h
    | ok m =>
      rw [h1] at h
      simp only [] at h
      cases h2 : m.mapM (findIndex values) with
      | error e => rw [h2] at h; simp at h
      | ok i =>
        rw [h2] at h
        simp only [] at h
        cases h3 : node (a.i0.getD 0) with
        | error e => rw [h3] at h; simp at h
        | ok m0 =>
          rw [h3] at h
          simp only [] at h
          cases h4 : dr.evalIS (some (a.i0.getD 0)) s0 with
          | error e => rw [h4] at h; simp at h
          | ok x =>
            rw [h4] at h
            simp only [Except.ok.injEq] at h
            subst h
            exact ⟨rfl, rfl, m0, rfl, rfl⟩

/-- **C111 fails for exogenous variables.**  In a model without auxiliary variables, the table has no column for any
exogenous variable. -/
theorem C111_exogenous_fails (cast : ℕ → K) (M : SimModel K) (dr : SimRule K) (process : SimProcess K) (a : SimArgs K)
    (haux : M.aux = none) (hnd : ("_i_m" :: (M.exogenous ++ M.states ++ M.controls ++ M.auxiliaries)).Nodup)
    (d : SimTable K) (h : simulateTable cast M dr process a = .ok d) (name : String) (hn : name ∈ M.exogenous) :
    name ∉ d.labels ∧ ∀ t n, d.entry t n name = none := by
  obtain ⟨-, inp, cells, -, -, hd⟩ := table_ok cast M dr process a d h
  have hnot : name ∉ d.labels := by
    rw [hd]
    simp only [simLabels, haux]
    rw [List.nodup_cons, List.append_assoc, List.append_assoc, List.nodup_append] at hnd
    obtain ⟨h1, -, -, h2⟩ := hnd
    intro hmem
    rcases List.mem_append.1 hmem with hmem | hmem
    · split_ifs at hmem
      · simp only [List.mem_singleton] at hmem
        subst hmem
        exact h1 (List.mem_append_left _ hn)
      · simp at hmem
    · have : name ∈ M.states ++ (M.controls ++ M.auxiliaries) := by
        rcases List.mem_append.1 hmem with h | h
        · exact List.mem_append_left _ h
        · exact List.mem_append_right _ (List.mem_append_left _ h)
      exact h2 name hn name this rfl
  refine ⟨hnot, fun t n => ?_⟩
  unfold SimTable.entry
  rw [if_neg hnot]

/-- **C111, driving indices need an initial index.**  With a driving process of indices and no `i0`, every rule that can
not be evaluated at the index `None` makes `simulate` raise, although the initial index is the first one of the driving
process and the value computed with `i0` is overwritten. -/
theorem C111_indices_fail (cast : ℕ → K) (M : SimModel K) (dr : SimRule K) (process : SimProcess K) (a : SimArgs K)
    (hdr : ∀ s, ∃ e, dr.evalIS none s = .error e) (i : List (List ℕ)) (hd : a.driving = some (.indices i))
    (hi0 : a.i0 = none) : ∃ e, simulateTable cast M dr process a = .error e := by
  have hin : ∃ e, simInputs M dr process a (a.s0.getD M.s0) = .error e := by
    simp only [simInputs, hd, hi0, bind, Except.bind]
    cases dr.nodes with
    | error e => exact ⟨e, rfl⟩
    | ok nodes =>
      simp only []
      cases (i.mapM fun row => row.mapM fun i => pyGet nodes i : Except Err (List (List (List K)))) with
      | error e => exact ⟨e, rfl⟩
      | ok m =>
        obtain ⟨e, he⟩ := hdr (a.s0.getD M.s0)
        simp only [he]
        exact ⟨e, rfl⟩
  obtain ⟨e, he⟩ := hin
  unfold simulateTable
  split_ifs
  · exact ⟨_, rfl⟩
  · simp only [he, bind, Except.bind]
    exact ⟨e, rfl⟩

end

/-- A model with one variable of each kind. -/
def simExample : SimModel ℚ where
  exogenous := ["z"]
  states := ["k"]
  controls := ["c"]
  auxiliaries := ["y"]
  m0 := [0]
  s0 := [1]
  g := fun m s x m' => [s.sum + m.sum + m'.sum - x.sum]
  aux := some fun m s _ => [m.sum + s.sum]

/-- A rule for it, on two nodes. -/
def simExampleRule : SimRule ℚ where
  evalMS := fun m s => .ok [(m.sum + s.sum) / 2]
  evalIS := fun i s => match i with
    | some i => .ok [(i + s.sum) / 2]
    | none => .error .typeError
  nodes := .ok [[-1], [1]]

/-- Two paths over two dates driven by indices. -/
example : (simulateTable (fun i => (i : ℚ)) simExample simExampleRule (.continuous fun _ => .ok [])
    { N := 2, T := 2, i0 := some 0, driving := some (.indices [[0, 1], [1, 0]]) }).toOption.map
      (fun d => (d.labels, d.rows, d.entry 1 1 "k", d.entry 0 1 "y")) =
    some (["_i_m", "z", "k", "c", "y"],
      [[[0, -1, 1, 1 / 2, 0], [1, 1, 1, 1, 2]], [[1, 1, -3 / 2, -1 / 4, -1 / 2], [0, -1, 2, 1, 1]]],
      some 2, some 2) := by
  decide +kernel

end Dolo
