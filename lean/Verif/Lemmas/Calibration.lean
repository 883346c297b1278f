import Verif.Model.Calibration
import Verif.Lemmas.DecisionRule

/-!
# Lemmas about dictionaries and calibration objects
-/

namespace Dolo

theorem PyDict.get?_nil {α : Type} (k : String) : PyDict.get? ([] : PyDict α) k = none := rfl

theorem PyDict.get?_cons {α : Type} (k' : String) (v : α) (d : PyDict α) (k : String) :
    PyDict.get? ((k', v) :: d) k = if k' = k then some v else PyDict.get? d k := by
  unfold PyDict.get?
  by_cases h : k' = k <;> simp [h]

theorem PyDict.has_iff {α : Type} (d : PyDict α) (k : String) :
    d.has k = true ↔ ∃ v, PyDict.get? d k = some v := by
  induction d with
  | nil => simp [PyDict.has, PyDict.get?]
  | cons kv d ih =>
    obtain ⟨k', v⟩ := kv
    rw [PyDict.get?_cons]
    by_cases h : k' = k
    · simp [PyDict.has, h]
    · simp only [PyDict.has, List.any_cons, h, decide_false, Bool.false_or, if_false] at ih ⊢
      exact ih

theorem PyDict.has_iff_mem {α : Type} (d : PyDict α) (k : String) :
    d.has k = true ↔ k ∈ d.map (·.1) := by
  simp [PyDict.has]

theorem PyDict.get?_eq_none_iff {α : Type} (d : PyDict α) (k : String) :
    PyDict.get? d k = none ↔ k ∉ d.map (·.1) := by
  rw [← PyDict.has_iff_mem, PyDict.has_iff]
  cases PyDict.get? d k <;> simp

theorem PyDict.get?_append {α : Type} (d e : PyDict α) (k : String) :
    PyDict.get? (d ++ e) k = (PyDict.get? d k).or (PyDict.get? e k) := by
  induction d with
  | nil => simp [PyDict.get?]
  | cons kv d ih =>
    obtain ⟨k', v⟩ := kv
    rw [List.cons_append, PyDict.get?_cons, PyDict.get?_cons]
    by_cases h : k' = k <;> simp [h, ih]

theorem PyDict.get?_map_replace {α : Type} (d : PyDict α) (k : String) (v : α) (k' : String) :
    PyDict.get? (d.map fun kv => if kv.1 = k then (k, v) else kv) k' =
      if k' = k then (PyDict.get? d k).map fun _ => v else PyDict.get? d k' := by
  induction d with
  | nil => simp [PyDict.get?]
  | cons kv d ih =>
    obtain ⟨k0, v0⟩ := kv
    rw [List.map_cons]
    by_cases h : k0 = k
    · subst h
      simp only [if_true]
      rw [PyDict.get?_cons, ih, PyDict.get?_cons, PyDict.get?_cons]
      by_cases h' : k' = k0
      · subst h'; simp
      · simp [h', Ne.symm h']
    · simp only [h, if_false]
      rw [PyDict.get?_cons, ih, PyDict.get?_cons, PyDict.get?_cons]
      by_cases h' : k' = k
      · subst h'; simp [h]
      · simp [h']

theorem PyDict.get?_set {α : Type} (d : PyDict α) (k : String) (v : α) (k' : String) :
    PyDict.get? (d.set k v) k' = if k' = k then some v else PyDict.get? d k' := by
  unfold PyDict.set
  by_cases h : d.any (fun kv => decide (kv.1 = k)) = true
  · rw [if_pos h, PyDict.get?_map_replace]
    obtain ⟨w, hw⟩ := (PyDict.has_iff d k).1 h
    by_cases h' : k' = k
    · simp [h', hw]
    · simp [h']
  · rw [if_neg h, PyDict.get?_append, PyDict.get?_cons, PyDict.get?_nil]
    have hn : PyDict.get? d k = none := by
      rcases hg : PyDict.get? d k with _ | w
      · rfl
      · exact absurd ((PyDict.has_iff d k).2 ⟨w, hg⟩) h
    by_cases h' : k' = k
    · subst h'; simp [hn]
    · simp [h', Ne.symm h']

theorem PyDict.get?_of_mem_nodup {α : Type} (d : PyDict α) (hd : (d.map (·.1)).Nodup)
    {k : String} {v : α} (h : (k, v) ∈ d) : PyDict.get? d k = some v := by
  induction d with
  | nil => simp at h
  | cons kv d ih =>
    obtain ⟨k0, v0⟩ := kv
    rw [PyDict.get?_cons]
    simp only [List.map_cons, List.nodup_cons] at hd
    rcases List.mem_cons.1 h with h | h
    · obtain ⟨rfl, rfl⟩ := Prod.mk.inj h
      simp
    · have : k0 ≠ k := by
        rintro rfl
        exact hd.1 (List.mem_map.2 ⟨_, h, rfl⟩)
      simp [this, ih hd.2 h]

theorem PyDict.mem_of_get? {α : Type} (d : PyDict α) {k : String} {v : α}
    (h : PyDict.get? d k = some v) : (k, v) ∈ d := by
  induction d with
  | nil => simp [PyDict.get?] at h
  | cons kv d ih =>
    obtain ⟨k0, v0⟩ := kv
    rw [PyDict.get?_cons] at h
    by_cases h' : k0 = k
    · subst h'
      simp only [if_true, Option.some.injEq] at h
      subst h
      simp
    · rw [if_neg h'] at h
      exact List.mem_cons_of_mem _ (ih h)

theorem flatGroup_spec {K : Type} (values : List K) (syms : List String) (i : ℕ) (d : PyDict K)
    (hn : syms.Nodup) (hl : i + syms.length ≤ values.length) :
    ∃ d', flatGroup values i syms d = .ok d' ∧
      (∀ (j : ℕ) s, syms[j]? = some s → PyDict.get? d' s = values[i + j]?) ∧
      (∀ s, s ∉ syms → PyDict.get? d' s = PyDict.get? d s) := by
  induction syms generalizing i d with
  | nil => exact ⟨d, rfl, by simp, by simp⟩
  | cons s0 syms ih =>
    simp only [List.length_cons] at hl
    have hi : i < values.length := by omega
    obtain ⟨hn1, hn2⟩ := List.nodup_cons.1 hn
    obtain ⟨d', e, h1, h2⟩ := ih (i + 1) (d.set s0 values[i]) hn2 (by omega)
    refine ⟨d', ?_, ?_, ?_⟩
    · simp only [flatGroup]
      rw [show pyGet values i = .ok values[i] by simp [pyGet, List.getElem?_eq_getElem hi]]
      exact e
    · intro j s hj
      rcases j with _ | j
      · simp only [List.getElem?_cons_zero, Option.some.injEq] at hj
        subst hj
        rw [h2 _ hn1, PyDict.get?_set, if_pos rfl]
        simp [List.getElem?_eq_getElem hi]
      · rw [List.getElem?_cons_succ] at hj
        rw [h1 j s hj, show i + 1 + j = i + (j + 1) by omega]
    · intro s hs
      simp only [List.mem_cons, not_or] at hs
      rw [h2 s hs.2, PyDict.get?_set, if_neg hs.1]

/-- Each symbol of a calibrated group gets its entry, all others keep theirs. -/
theorem calibrationToDict_spec {K : Type} (symbols : PyDict (List String))
    (contents : List (String × List K)) (d : PyDict K)
    (hs : ∀ g vs, (g, vs) ∈ contents → g ≠ "covariances" →
      ∃ syms, symbols.get? g = some syms ∧ syms.Nodup ∧ syms.length = vs.length)
    (hdisj : contents.Pairwise fun a b => ∀ sa sb, symbols.get? a.1 = some sa →
      symbols.get? b.1 = some sb → ∀ s ∈ sa, s ∉ sb) :
    ∃ d', calibrationToDict symbols contents d = .ok d' ∧
      (∀ g vs syms (j : ℕ) s, (g, vs) ∈ contents → g ≠ "covariances" →
        symbols.get? g = some syms → syms[j]? = some s → PyDict.get? d' s = vs[j]?) ∧
      (∀ s, (∀ g vs syms, (g, vs) ∈ contents → g ≠ "covariances" →
        symbols.get? g = some syms → s ∉ syms) → PyDict.get? d' s = PyDict.get? d s) := by
  induction contents generalizing d with
  | nil => exact ⟨d, rfl, by simp, by simp⟩
  | cons gv contents ih =>
    obtain ⟨g0, vs0⟩ := gv
    obtain ⟨hp1, hp2⟩ := List.pairwise_cons.1 hdisj
    have hs' := fun g vs hm => hs g vs (List.mem_cons_of_mem _ hm)
    by_cases hc : g0 = "covariances"
    · obtain ⟨d', e, h1, h2⟩ := ih d hs' hp2
      refine ⟨d', by simp only [calibrationToDict, if_pos hc]; exact e, ?_, ?_⟩
      · intro g vs syms j s hm hg
        rcases List.mem_cons.1 hm with hm | hm
        · exact absurd ((Prod.mk.inj hm).1.trans hc) hg
        · exact h1 g vs syms j s hm hg
      · intro s h
        exact h2 s fun g vs syms hm => h g vs syms (List.mem_cons_of_mem _ hm)
    · obtain ⟨syms0, hsy, hnd, hlen⟩ := hs g0 vs0 (by simp) hc
      obtain ⟨d1, e1, f1, f2⟩ := flatGroup_spec vs0 syms0 0 d hnd (by omega)
      obtain ⟨d', e, h1, h2⟩ := ih d1 hs' hp2
      refine ⟨d', ?_, ?_, ?_⟩
      · simp only [calibrationToDict, if_neg hc, PyDict.get, hsy]
        change (do let d ← flatGroup vs0 0 syms0 d; calibrationToDict symbols contents d) = _
        rw [e1]
        exact e
      · intro g vs syms j s hm hg hsg hj
        rcases List.mem_cons.1 hm with hm | hm
        · obtain ⟨rfl, rfl⟩ := Prod.mk.inj hm
          have : syms = syms0 := Option.some.inj (hsg.symm.trans hsy)
          subst this
          rw [h2 s, f1 j s hj, Nat.zero_add]
          intro g' vs' syms' hm' _ hsg'
          exact hp1 _ hm' _ _ hsy hsg' s (List.mem_of_getElem? hj)
        · exact h1 g vs syms j s hm hg hsg hj
      · intro s h
        rw [h2 s fun g vs syms hm => h g vs syms (List.mem_cons_of_mem _ hm)]
        exact f2 s (h g0 vs0 syms0 (by simp) hc hsy)

end Dolo
