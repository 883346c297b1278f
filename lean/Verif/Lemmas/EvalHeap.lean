import Mathlib.Logic.Function.Iterate
import Mathlib.Tactic.Ring
import Verif.Model.EvalHeap

/-!
# Lemmas on the store of rules
-/

set_option linter.unusedSectionVars false

namespace Dolo

variable {K : Type} [Field K] [LinearOrder K]

theorem set_join_self {X : Type} (h : RuleStore X) (v : ℕ) (hv : v < h.length) : h.set v (h[v]?.join) = h := by
  have : h[v]? = some h[v] := List.getElem?_eq_getElem hv
  rw [this, Option.join_some]
  exact List.set_getElem_self hv

theorem readRule_set_self {X : Type} (h : RuleStore X) (v : ℕ) (hv : v < h.length) (x : X) :
    readRule (setRule h v x) v = .ok x := by
  simp [readRule, setRule, List.getElem?_set, hv]

theorem readRule_set_ne {X : Type} (h : RuleStore X) (v r : ℕ) (hr : r ≠ v) (x : X) :
    readRule (setRule h v x) r = readRule h r := by
  simp [readRule, setRule, List.getElem?_set, hr.symm]

theorem readRule_ok {X : Type} {h : RuleStore X} {r : ℕ} {x : X} :
    readRule h r = .ok x ↔ h[r]? = some (some x) := by
  unfold readRule
  constructor
  · intro e
    split at e
    · rename_i y hy
      cases e
      exact hy
    · exact (nomatch e)
  · intro e
    rw [e]

theorem lt_of_readRule {X : Type} {h : RuleStore X} {r : ℕ} {x : X} (e : readRule h r = .ok x) : r < h.length := by
  rw [readRule_ok] at e
  exact (List.getElem?_eq_some_iff.1 e).1

/-- The loop on objects does what the loop on tables does, to the one cell `v`. -/
theorem epHeapLoop_eq {X : Type} (U : X → X → X → X → X) (dist : X → X → K) (tol : K) (r v : ℕ) (c : X)
    (T : X → X) (k it : ℕ) (err : K) (w : X) (h : RuleStore X) (hv : v < h.length)
    (hT : ∀ y, ∃ p, readRule (setRule h v y) r = .ok p ∧ T y = U c y p y) :
    epHeapLoop U dist tol (.rule r) v c k it err w h
      = (h.set v (epLoop T dist tol k it err w (h[v]?.join)).solution,
          .ok ⟨v, (epLoop T dist tol k it err w (h[v]?.join)).iterations, tol,
            (epLoop T dist tol k it err w (h[v]?.join)).error⟩) := by
  induction k generalizing it err w h with
  | zero => simp only [epHeapLoop, epLoop, set_join_self h v hv]
  | succ k ih =>
    by_cases he : err > tol
    · obtain ⟨p, hp, hTw⟩ := hT w
      have e1 : epHeapLoop U dist tol (.rule r) v c (k + 1) it err w h
          = epHeapLoop U dist tol (.rule r) v c k (it + 1) (dist (T w) w) (T w) (setRule h v w) := by
        simp only [epHeapLoop, he, if_true, hp, readRule_set_self h v hv w, hTw]
      have e2 : epLoop T dist tol (k + 1) it err w (h[v]?.join)
          = epLoop T dist tol k (it + 1) (dist (T w) w) (T w) (some w) := by
        simp only [epLoop, he, if_true]
      have hv' : v < (setRule h v w).length := by simpa [setRule] using hv
      have hs : ∀ y, setRule (setRule h v w) v y = setRule h v y := fun y => by simp [setRule]
      rw [e1, e2, ih (it + 1) _ _ (setRule h v w) hv' (fun y => by rw [hs]; exact hT y)]
      have hj : (setRule h v w)[v]?.join = some w := by simp [setRule, List.getElem?_set, hv]
      rw [hj]
      simp [setRule]
    · simp only [epHeapLoop, epLoop, he, if_false, set_join_self h v hv]

/-- Whatever happens, only the cell `v` is written, and a result refers to it. -/
theorem epHeapLoop_frame {X : Type} (U : X → X → X → X → X) (dist : X → X → K) (tol : K) (mdr : PolicyArg X)
    (v : ℕ) (c : X) (k it : ℕ) (err : K) (w : X) (h : RuleStore X) :
    (epHeapLoop U dist tol mdr v c k it err w h).1.length = h.length ∧
    (∀ i ≠ v, (epHeapLoop U dist tol mdr v c k it err w h).1[i]? = h[i]?) ∧
    ∀ ev, (epHeapLoop U dist tol mdr v c k it err w h).2 = .ok ev → ev.solution = v := by
  have hset : ∀ (g : RuleStore X) (y : X), (setRule g v y).length = g.length ∧ ∀ i ≠ v, (setRule g v y)[i]? = g[i]? :=
    fun g y => ⟨by simp [setRule], fun i hi => by simp [setRule, List.getElem?_set, hi.symm]⟩
  induction k generalizing it err w h with
  | zero =>
    refine ⟨rfl, fun _ _ => rfl, fun ev he => ?_⟩
    simp only [epHeapLoop] at he
    cases he
    rfl
  | succ k ih =>
    obtain ⟨s1, s2⟩ := hset h w
    simp only [epHeapLoop]
    split
    · cases mdr with
      | array x => exact ⟨s1, s2, fun ev he => (nomatch he)⟩
      | rule r =>
        simp only
        split
        · obtain ⟨a, b, d⟩ := ih (it + 1) _ _ (setRule h v w)
          exact ⟨a.trans s1, fun i hi => (b i hi).trans (s2 i hi), d⟩
        · exact ⟨s1, s2, fun ev he => (nomatch he)⟩
        · exact ⟨s1, s2, fun ev he => (nomatch he)⟩
    · refine ⟨rfl, fun _ _ => rfl, fun ev he => ?_⟩
      cases he
      rfl

/-- The store after `n` passes of time iteration from `x`, the rule being `m`. -/
def tiStore {X : Type} (T : X → X) (trace : Bool) (m n : ℕ) (x : X) (h : RuleStore X) : RuleStore X :=
  h.set m (if n = 0 then h[m]?.join else some (T^[n - 1] x)) ++
    (if trace then (List.range n).map fun j => some (T^[j] x) else [])

theorem tiStore_succ {X : Type} (T : X → X) (m n : ℕ) (x : X) (h : RuleStore X) (hm : m < h.length) :
    tiStore T false m n (T x) (setRule h m x) = tiStore T false m (n + 1) x h ∧
    tiStore T true m n (T x) (setRule h m x ++ [some x]) = tiStore T true m (n + 1) x h := by
  have hmj : (setRule h m x)[m]?.join = some x := by simp [setRule, List.getElem?_set, hm]
  have hmj' : (setRule h m x ++ [some x])[m]?.join = some x := by
    rw [List.getElem?_append_left (by simpa [setRule] using hm), hmj]
  have key : (if n = 0 then some x else some (T^[n - 1] (T x))) = some (T^[n] x) := by
    cases n with
    | zero => rfl
    | succ n => rfl
  constructor
  · unfold tiStore
    rw [hmj, key]
    simp [setRule]
  · unfold tiStore
    rw [hmj', key, List.set_append_left _ _ (by simpa [setRule] using hm)]
    simp [setRule, List.range_succ_eq_map, Function.comp_def]

theorem tiHeapLoop_eq {X : Type} (update : X → X → X) (dist : X → X → K) (tol : K) (trace : Bool) (m : ℕ)
    (T : X → X) (hT : ∀ y, T y = update y y)
    (k it : ℕ) (err : K) (x : X) (last : Option X) (tr : List ℕ) (h : RuleStore X) (hm : m < h.length) :
    ∃ n, (tiLoop T dist tol k it err x last).1 = it + n ∧
      tiHeapLoop update dist tol trace m k it err x last tr h
        = (tiStore T trace m n x h,
            .ok (it + n, (tiLoop T dist tol k it err x last).2.1, (tiLoop T dist tol k it err x last).2.2,
              if trace then tr ++ (List.range n).map (h.length + ·) else tr)) := by
  induction k generalizing it err x last tr h with
  | zero =>
    refine ⟨0, rfl, ?_⟩
    cases trace <;> simp [tiHeapLoop, tiLoop, tiStore, set_join_self h m hm]
  | succ k ih =>
    by_cases he : err > tol
    · have e2 : tiLoop T dist tol (k + 1) it err x last
          = tiLoop T dist tol k (it + 1) (dist (T x) x) (T x) (some (T x)) := by
        simp only [tiLoop, he, if_true]
      have hmj : (setRule h m x)[m]?.join = some x := by simp [setRule, List.getElem?_set, hm]
      have hlen : (setRule h m x).length = h.length := by simp [setRule]
      have s1 := fun n => (tiStore_succ T m n x h hm).1
      have s2 := fun n => (tiStore_succ T m n x h hm).2
      rw [e2]
      cases trace with
      | false =>
        have hm' : m < (setRule h m x).length := by simpa [setRule] using hm
        have e1 : tiHeapLoop update dist tol false m (k + 1) it err x last tr h
            = tiHeapLoop update dist tol false m k (it + 1) (dist (T x) x) (T x) (some (T x)) tr (setRule h m x) := by
          simp only [tiHeapLoop, he, if_true, readRule_set_self h m hm x, Bool.false_eq_true, if_false, hT]
        obtain ⟨n, n2, n4⟩ := ih (it + 1) (dist (T x) x) (T x) (some (T x)) tr (setRule h m x) hm'
        refine ⟨n + 1, by rw [n2]; omega, ?_⟩
        rw [e1, n4, s1, show it + 1 + n = it + (n + 1) by omega]
        rfl
      | true =>
        have hm' : m < (setRule h m x ++ [some x]).length := by simp [setRule]; omega
        have e1 : tiHeapLoop update dist tol true m (k + 1) it err x last tr h
            = tiHeapLoop update dist tol true m k (it + 1) (dist (T x) x) (T x) (some (T x)) (tr ++ [h.length])
                (setRule h m x ++ [some x]) := by
          have hr : readRule (setRule h m x ++ [some x]) m = .ok x := by
            rw [readRule_ok, List.getElem?_append_left (by rw [hlen]; exact hm), ← readRule_ok]
            exact readRule_set_self h m hm x
          simp only [tiHeapLoop, he, if_true, hmj, hr, hT, hlen]
        obtain ⟨n, n2, n4⟩ := ih (it + 1) (dist (T x) x) (T x) (some (T x)) (tr ++ [h.length])
          (setRule h m x ++ [some x]) hm'
        refine ⟨n + 1, by rw [n2]; omega, ?_⟩
        rw [e1, n4, s2, show it + 1 + n = it + (n + 1) by omega]
        have : (List.range n).map ((setRule h m x ++ [some x]).length + ·)
            = (List.range n).map ((h.length + ·) ∘ Nat.succ) := by
          refine List.map_congr_left fun j _ => ?_
          simp [setRule]
          omega
        simp only [if_true, this, List.range_succ_eq_map, List.map_cons, List.map_map, List.append_assoc,
          List.singleton_append, Nat.add_zero]
    · refine ⟨0, by simp [tiLoop, he], ?_⟩
      cases trace <;> simp [tiHeapLoop, tiLoop, tiStore, set_join_self h m hm, he]

end Dolo
