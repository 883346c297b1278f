import Mathlib.Data.Rat.Defs
import Mathlib.Data.List.Basic
import Mathlib.Tactic.SplitIfs
import Verif.Model.EvalFormula

/-!
# C101: formulas evaluated on a table
-/

set_option linter.unusedSectionVars false

namespace Dolo

variable {V : Type}

/-! ### Specification -/

/-- Meaning of a formula, given the meanings of the symbols and of the dated variables. -/
def Formula.meaning (sym : String → V) (var : String → ℤ → V) : Formula V → V
  | .num v => v
  | .sym k => sym k
  | .var k t => var k t
  | .un f a => f (a.meaning sym var)
  | .bin f a b => f (a.meaning sym var) (b.meaning sym var)

/-- Meaning of the symbols at row `i`: `t` is the date of the row, the others are the numbers of the
context. -/
def symAt (nan : V) (fr : Frame V) (context : PyDict V) (i : ℕ) (k : String) : V :=
  if k = "t" then fr.index.getD i nan else (context.get? k).getD nan

/-- Meaning of `k(t)` at row `i` in the notation of dolo: the value of `k`, `t` periods later. -/
def varAt (nan : V) (fr : Frame V) (i : ℕ) (k : String) (t : ℤ) : V :=
  if 0 ≤ (i : ℤ) + t then ((fr.cols.get? k).getD []).getD ((i : ℤ) + t).toNat nan else nan

/-- The value at row `i` of a result. -/
def FVal.row (nan : V) (i : ℕ) : FVal V → V
  | .sc v => v
  | .col l => l.getD i nan

/-- All columns have as many rows as the index. -/
def Frame.WF (fr : Frame V) : Prop := ∀ k c, fr.cols.get? k = some c → c.length = fr.index.length

/-- Symbols of a formula. -/
def Formula.syms : Formula V → List String
  | .num _ => []
  | .sym k => [k]
  | .var _ _ => []
  | .un _ a => a.syms
  | .bin _ a b => a.syms ++ b.syms

/-- A number, or a column with `n` rows. -/
def FVal.HasRows (n : ℕ) : FVal V → Prop
  | .sc _ => True
  | .col l => l.length = n

/-! ### Helper lemmas -/

theorem FVal.map_row (nan : V) (n i : ℕ) (hi : i < n) (f : V → V) (x : FVal V) (hx : x.HasRows n) :
    (x.map f).HasRows n ∧ (x.map f).row nan i = f (x.row nan i) := by
  cases x with
  | sc v => exact ⟨trivial, rfl⟩
  | col l =>
    have hx : l.length = n := hx
    refine ⟨by simp [FVal.map, FVal.HasRows, hx], ?_⟩
    simp [FVal.map, FVal.row, List.getD_eq_getElem?_getD, hx, hi]

theorem FVal.map₂_row (nan : V) (n i : ℕ) (hi : i < n) (f : V → V → V) (x y : FVal V)
    (hx : x.HasRows n) (hy : y.HasRows n) :
    (x.map₂ f y).HasRows n ∧ (x.map₂ f y).row nan i = f (x.row nan i) (y.row nan i) := by
  cases x with
  | sc v =>
    cases y with
    | sc w => exact ⟨trivial, rfl⟩
    | col l =>
      have hy : l.length = n := hy
      refine ⟨by simp [FVal.map₂, FVal.HasRows, hy], ?_⟩
      simp [FVal.map₂, FVal.row, List.getD_eq_getElem?_getD, hy, hi]
  | col l =>
    have hx : l.length = n := hx
    cases y with
    | sc w =>
      refine ⟨by simp [FVal.map₂, FVal.HasRows, hx], ?_⟩
      simp [FVal.map₂, FVal.row, List.getD_eq_getElem?_getD, hx, hi]
    | col l' =>
      have hy : l'.length = n := hy
      refine ⟨by simp [FVal.map₂, FVal.HasRows, hx, hy], ?_⟩
      simp [FVal.map₂, FVal.row, List.getD_eq_getElem?_getD, hx, hy, hi]

/-- The context after the loop over the variables. -/
theorem frameEnv_spec (nan : V) (fr : Frame V) (vs : List (String × ℤ)) (dd : FEnv V) :
    (∀ dd', frameEnv nan fr vs dd = .ok dd' →
      (∀ k, dd' (.sym k) = dd (.sym k)) ∧
      (∀ k t, (k, t) ∈ vs → ∃ c, fr.cols.get? k = some c ∧ dd' (.var k t) = some (.col (pdShift nan c t))) ∧
      (∀ k t, (k, t) ∉ vs → dd' (.var k t) = dd (.var k t))) ∧
    ((∀ k t, (k, t) ∈ vs → (fr.cols.get? k).isSome) → ∃ dd', frameEnv nan fr vs dd = .ok dd') := by
  induction vs generalizing dd with
  | nil =>
    refine ⟨?_, fun _ => ⟨dd, rfl⟩⟩
    intro dd' h
    simp only [frameEnv, Except.ok.injEq] at h
    subst h
    exact ⟨fun _ => rfl, by simp, fun _ _ _ => rfl⟩
  | cons v vs ih =>
    obtain ⟨k0, t0⟩ := v
    constructor
    · intro dd' h
      simp only [frameEnv] at h
      rcases hc : fr.cols.get? k0 with _ | c
      · simp [hc] at h
      · rw [hc] at h
        obtain ⟨g1, g2, g3⟩ := (ih (dd.set (.var k0 t0) (.col (pdShift nan c t0)))).1 dd' h
        refine ⟨?_, ?_, ?_⟩
        · intro k
          rw [g1]
          simp [FEnv.set]
        · intro k t hkt
          by_cases hm : (k, t) ∈ vs
          · exact g2 k t hm
          · rcases List.mem_cons.1 hkt with h | h
            · injection h with h1 h2
              subst h1 h2
              exact ⟨c, hc, by rw [g3 _ _ hm]; simp [FEnv.set]⟩
            · exact absurd h hm
        · intro k t hkt
          rw [List.mem_cons, not_or] at hkt
          rw [g3 k t hkt.2, FEnv.set, if_neg]
          intro h
          injection h with h1 h2
          exact hkt.1 (by rw [h1, h2])
    · intro hall
      have h0 := hall k0 t0 (by simp)
      rcases hc : fr.cols.get? k0 with _ | c
      · simp [hc] at h0
      · obtain ⟨dd', h⟩ := (ih (dd.set (.var k0 t0) (.col (pdShift nan c t0)))).2
          fun k t hkt => hall k t (by simp [hkt])
        exact ⟨dd', by simp only [frameEnv, hc]; exact h⟩

theorem pdShift_row (nan : V) (l : List V) (t : ℤ) (i : ℕ) (hi : i < l.length) :
    (pdShift nan l t).getD i nan
      = if 0 ≤ (i : ℤ) - t then l.getD ((i : ℤ) - t).toNat nan else nan := by
  simp [pdShift, List.getD_eq_getElem?_getD, hi]

/-! ### C101 -/

/-- Evaluation succeeds when every dated variable is a column and every symbol is in the context; the
value is a number or a column with as many rows as the table. -/
theorem C101_evaluates (nan : V) (e : Formula V) (fr : Frame V) (hwf : fr.WF) (context : PyDict V)
    (hv : ∀ k t, (k, t) ∈ e.vars → (fr.cols.get? k).isSome)
    (hs : ∀ k, k ∈ e.syms → k = "t" ∨ (context.get? k).isSome) :
    ∃ r, evalFormula nan e (some fr) context = .ok r ∧ r.HasRows fr.index.length ∧
      ∀ i < fr.index.length, r.row nan i
        = e.meaning (symAt nan fr context i) fun k t => varAt nan fr i k (-t) := by
  obtain ⟨dd, hdd⟩ := (frameEnv_spec nan fr e.vars (contextEnv context)).2 hv
  obtain ⟨g1, g2, -⟩ := (frameEnv_spec nan fr e.vars (contextEnv context)).1 dd hdd
  simp only [evalFormula, hdd, bind, Except.bind]
  set dd' := FEnv.set dd (.sym "t") (.col fr.index) with hdd'
  have key : ∀ e' : Formula V, (∀ k t, (k, t) ∈ e'.vars → (k, t) ∈ e.vars) →
      (∀ k, k ∈ e'.syms → k ∈ e.syms) →
      ∃ r, e'.eval dd' = .ok r ∧ r.HasRows fr.index.length ∧
      ∀ i < fr.index.length, r.row nan i
        = e'.meaning (symAt nan fr context i) fun k t => varAt nan fr i k (-t) := by
    intro e'
    induction e' with
    | num v => exact fun _ _ => ⟨_, rfl, trivial, fun _ _ => rfl⟩
    | sym k =>
      intro _ hsub
      by_cases hk : k = "t"
      · subst hk
        refine ⟨.col fr.index, by simp [Formula.eval, hdd', FEnv.set], rfl, fun i _ => ?_⟩
        simp [FVal.row, Formula.meaning, symAt]
      · have h := hs k (hsub k (by simp [Formula.syms]))
        rw [or_iff_right hk] at h
        obtain ⟨v, hv⟩ := Option.isSome_iff_exists.1 h
        refine ⟨.sc v, ?_, trivial, fun i _ => ?_⟩
        · simp [Formula.eval, hdd', FEnv.set, hk, g1, contextEnv, hv]
        · simp [FVal.row, Formula.meaning, symAt, hk, hv]
    | var k t =>
      intro hsub _
      obtain ⟨c, hc, hd⟩ := g2 k t (hsub k t (by simp [Formula.vars]))
      have hl := hwf k c hc
      refine ⟨.col (pdShift nan c t), ?_, ?_, fun i hi => ?_⟩
      · simp [Formula.eval, hdd', FEnv.set, hd]
      · simp [FVal.HasRows, pdShift, hl]
      · simp only [FVal.row, Formula.meaning, varAt, hc, Option.getD_some]
        rw [pdShift_row nan c t i (by omega), Int.sub_eq_add_neg]
    | un f a ih =>
      intro h1 h2
      obtain ⟨r, e1, e2, e3⟩ := ih h1 h2
      refine ⟨r.map f, by simp [Formula.eval, e1, bind, Except.bind, pure, Except.pure], ?_, ?_⟩
      · cases r with
        | sc v => trivial
        | col l => simpa [FVal.map, FVal.HasRows] using e2
      · intro i hi
        rw [(FVal.map_row nan _ i hi f r e2).2, e3 i hi, Formula.meaning]
    | bin f a b iha ihb =>
      intro h1 h2
      obtain ⟨r, e1, e2, e3⟩ := iha (fun k t h => h1 k t (by simp [Formula.vars, h]))
        (fun k h => h2 k (by simp [Formula.syms, h]))
      obtain ⟨r', e1', e2', e3'⟩ := ihb (fun k t h => h1 k t (by simp [Formula.vars, h]))
        (fun k h => h2 k (by simp [Formula.syms, h]))
      refine ⟨r.map₂ f r', by simp [Formula.eval, e1, e1', bind, Except.bind, pure, Except.pure], ?_, ?_⟩
      · cases r <;> cases r' <;> simp_all [FVal.map₂, FVal.HasRows]
      · intro i hi
        rw [(FVal.map₂_row nan _ i hi f r r' e2 e2').2, e3 i hi, e3' i hi, Formula.meaning]
  exact key e (fun _ _ h => h) (fun _ h => h)

/-- **C101** (partial: formulas without leads and lags).  A formula whose variables are all at date zero
has, at each row of the table, the value of the formula for the variables of that row, the numbers of the
context and the date of the row. -/
theorem C101_static_partial (nan : V) (e : Formula V) (fr : Frame V) (hwf : fr.WF) (context : PyDict V)
    (hv : ∀ k t, (k, t) ∈ e.vars → (fr.cols.get? k).isSome)
    (hs : ∀ k, k ∈ e.syms → k = "t" ∨ (context.get? k).isSome)
    (h0 : ∀ k t, (k, t) ∈ e.vars → t = 0) :
    ∃ r, evalFormula nan e (some fr) context = .ok r ∧
      ∀ i < fr.index.length, r.row nan i = e.meaning (symAt nan fr context i) (varAt nan fr i) := by
  obtain ⟨r, h1, -, h3⟩ := C101_evaluates nan e fr hwf context hv hs
  refine ⟨r, h1, fun i hi => ?_⟩
  rw [h3 i hi]
  clear h1 h3 hv hs
  induction e with
  | num v => rfl
  | sym k => rfl
  | var k t =>
    have := h0 k t (by simp [Formula.vars])
    subst this
    rfl
  | un f a ih => rw [Formula.meaning, ih h0, Formula.meaning]
  | bin f a b iha ihb =>
    rw [Formula.meaning, iha fun k t h => h0 k t (by simp [Formula.vars, h]),
      ihb fun k t h => h0 k t (by simp [Formula.vars, h]), Formula.meaning]

/-- **C101 fails for leads and lags.**  pandas' `shift(1)` moves the past into the present, so that
`k(1)` is evaluated as the value of the *previous* period: on the column `1, 2, 4` the formula `k(1)` gives
`nan, 1, 2`, while next period's values are `2, 4, nan`. -/
theorem C101_lead_fails : ∃ (fr : Frame (Option ℚ)), fr.WF ∧
    fr.cols.get? "k" = some [some 1, some 2, some 4] ∧
    ∃ r, evalFormula none (.var "k" 1) (some fr) [] = .ok r ∧
      (List.range 3).map (fun i => r.row none i) = [none, some 1, some 2] ∧
      (List.range 3).map (fun i => varAt none fr i "k" 1) = [some 2, some 4, none] := by
  refine ⟨⟨[some 0, some 1, some 2], [("k", [some 1, some 2, some 4])]⟩, ?_, rfl, _, rfl, ?_, ?_⟩
  · intro k c h
    simp only [PyDict.get?] at h
    by_cases hk : "k" = k
    · simp [hk] at h; subst h; rfl
    · simp [hk] at h
  · decide +kernel
  · decide +kernel

/-- **C101, symbols without date** are numbers of the context, also when the table has a column of that
name. -/
theorem C101_undated (nan : V) (fr : Frame V) (context : PyDict V) (k : String) (v : V) (hk : k ≠ "t")
    (hc : context.get? k = some v) : evalFormula nan (.sym k) (some fr) context = .ok (.sc v) := by
  simp [evalFormula, Formula.vars, frameEnv, bind, Except.bind, Formula.eval, FEnv.set, hk, contextEnv, hc]

/-- **C101, missing columns** raise `KeyError`; without a table, dated variables raise `NameError`. -/
theorem C101_missing (nan : V) (fr : Frame V) (context : PyDict V) (k : String) (t : ℤ)
    (hk : fr.cols.get? k = none) :
    evalFormula nan (.var k t) (some fr) context = .error .keyError ∧
    evalFormula nan (.var k t) none context = .error .nameError := by
  constructor
  · simp [evalFormula, Formula.vars, frameEnv, bind, Except.bind, hk]
  · simp [evalFormula, Formula.eval, contextEnv]

/-- Non-vacuity of `C101_static_partial`: `delta * k(0) - i(0)`. -/
example : ∃ r, evalFormula none
    (.bin (fun a b => a.bind fun x => b.map fun y => x - y)
      (.bin (fun a b => a.bind fun x => b.map fun y => x * y) (.sym "delta") (.var "k" 0)) (.var "i" 0))
    (some ⟨[some 0, some 1], [("k", [some 10, some 20]), ("i", [some 1, none])]⟩)
    [("delta", some (1 / 2 : ℚ))] = .ok r ∧
    (List.range 2).map (fun i => r.row none i) = [some 4, none] := by
  refine ⟨_, rfl, ?_⟩
  decide +kernel

end Dolo
