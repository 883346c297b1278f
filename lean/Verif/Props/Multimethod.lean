import Verif.Lemmas.Multimethod

/-!
# C52: multiple dispatch
-/

set_option linter.unusedSectionVars false

namespace Dolo

variable {Cls F : Type} [DecidableEq Cls] [DecidableEq F]

/-- What can be done to a multimethod. -/
inductive MultiOp (Cls F : Type) where
  | register (types : List Cls) (func : F)
  | delete (types : List Cls)
  | call (types : List Cls)

/-- One operation (deleting a signature that is not registered raises and changes nothing). -/
def MultiOp.run (W : Classes Cls) (m : Multi Cls F) : MultiOp Cls F → Multi Cls F
  | .register types f => m.setitem W types f
  | .delete types =>
    match m.delitem W types with
    | .ok m' => m'
    | .error _ => m
  | .call types => (m.select W types).2

/-- A multimethod after a history of registrations, deletions and calls. -/
def multiRun (W : Classes Cls) (ops : List (MultiOp Cls F)) : Multi Cls F :=
  ops.foldl (MultiOp.run W) ⟨[], []⟩

/-- Specification: the functions registered after a history, by signature; the last
registration of a signature counts. -/
def registered : List (MultiOp Cls F) → List Cls → Option F
  | [], _ => none
  | ops, types => go ops none types
where
  /-- read the history from the first operation -/
  go : List (MultiOp Cls F) → Option F → List Cls → Option F
    | [], acc, _ => acc
    | .register t f :: ops, acc, types => go ops (if t = types then some f else acc) types
    | .delete t :: ops, acc, types => go ops (if t = types then none else acc) types
    | .call _ :: ops, acc, types => go ops acc types

theorem inv_run (W : Classes Cls) (ops : List (MultiOp Cls F)) : (multiRun W ops).Inv W := by
  have key : ∀ (ops : List (MultiOp Cls F)) (m : Multi Cls F), m.Inv W →
      (ops.foldl (MultiOp.run W) m).Inv W := by
    intro ops
    induction ops with
    | nil => intro m h; exact h
    | cons op ops ih =>
      intro m h
      apply ih
      cases op with
      | register types f => exact inv_setitem W m h types f
      | delete types =>
        simp only [MultiOp.run]
        rcases hd : m.delitem W types with e | m'
        · exact h
        · exact inv_delitem W m m' h types hd
      | call types => exact inv_select W m h types
  exact key ops _ ⟨by simp, by simp, by simp⟩

/-- The function of a signature. -/
def Multi.funcOf (m : Multi Cls F) (types : List Cls) : Option F :=
  (m.methods.find? fun k => decide (k.key = types)).map (·.func)

theorem find?_map_key (l : List (Overload Cls F)) (g : Overload Cls F → Overload Cls F)
    (hg : ∀ k, (g k).key = k.key) (types : List Cls) :
    (l.map g).find? (fun k => decide (k.key = types)) =
      (l.find? fun k => decide (k.key = types)).map g := by
  rw [List.find?_map]
  congr 2
  funext k
  simp [hg]

theorem funcOf_setitem (W : Classes Cls) (m : Multi Cls F) (t : List Cls) (f : F)
    (types : List Cls) :
    (m.setitem W t f).funcOf types = if t = types then some f else m.funcOf types := by
  have hr := find?_map_key m.methods (relink W t (m.parentsOf W t)) (relink_key W t _) types
  unfold Multi.setitem Multi.funcOf
  simp only
  split_ifs with hany ht ht
  · subst ht
    rw [find?_map_key _ (fun k => if k.key = t then ({ k with func := f } : Overload Cls F) else k)
      (by intro k; split_ifs <;> rfl)]
    obtain ⟨k, hk, hkt⟩ := List.any_eq_true.1 hany
    obtain ⟨k', hk'⟩ := Option.isSome_iff_exists.1
      (List.find?_isSome (p := fun k : Overload Cls F => decide (k.key = t)) |>.2 ⟨k, hk, hkt⟩)
    rw [hk']
    have := List.find?_some hk'
    simp only [decide_eq_true_eq] at this
    simp [this]
  · rw [find?_map_key _ (fun k => if k.key = t then ({ k with func := f } : Overload Cls F) else k)
      (by intro k; split_ifs <;> rfl), hr, Option.map_map, Option.map_map]
    rcases hk : m.methods.find? (fun k => decide (k.key = types)) with _ | k
    · rw [hk]; rfl
    · have := List.find?_some (p := fun k : Overload Cls F => decide (k.key = types)) hk
      simp only [decide_eq_true_eq] at this
      rw [hk]
      simp only [Option.map_some, Function.comp, relink_key, this, Ne.symm ht, if_false]
      rw [relink_func]
  · subst ht
    rw [List.find?_append]
    have : (m.methods.map (relink W t (m.parentsOf W t))).find? (fun k => decide (k.key = t)) =
        none := by
      rw [List.find?_eq_none]
      intro k hk hkt
      exact hany (List.any_eq_true.2 ⟨k, hk, hkt⟩)
    rw [this]
    simp
  · rw [List.find?_append, hr, Option.map_or, Option.map_map]
    have : ([⟨t, m.parentsOf W t, f⟩] : List (Overload Cls F)).find?
        (fun k => decide (k.key = types)) = none := by simp [ht]
    rw [this, Option.map_none, Option.or_none]
    congr 1
    funext k
    exact relink_func W t _ k

theorem funcOf_repair (W : Classes Cls) (t : List Cls) (m : Multi Cls F) (i : ℕ)
    (types : List Cls) : (m.repair W t i).funcOf types = m.funcOf types := by
  have key : ∀ (l : List (Overload Cls F)) (i : ℕ) (g : Overload Cls F → Overload Cls F),
      (∀ k, (g k).key = k.key ∧ (g k).func = k.func) →
      ((l.modify i g).find? fun k => decide (k.key = types)).map (·.func) =
        (l.find? fun k => decide (k.key = types)).map (·.func) := by
    intro l
    induction l with
    | nil => intro i g _; simp
    | cons k l ih =>
      intro i g hg
      rcases i with _ | i
      · simp only [List.modify_zero_cons, List.find?_cons, (hg k).1]
        split
        · simp [(hg k).2]
        · rfl
      · simp only [List.modify_succ_cons, List.find?_cons]
        split
        · rfl
        · exact ih i g hg
  apply key
  intro k
  split_ifs <;> exact ⟨rfl, rfl⟩

theorem funcOf_delitem (W : Classes Cls) (m m' : Multi Cls F) (t : List Cls)
    (h : m.delitem W t = .ok m') (types : List Cls) :
    m'.funcOf types = if t = types then none else m.funcOf types := by
  unfold Multi.delitem at h
  split_ifs at h with hany
  simp only [Except.ok.injEq] at h
  subst h
  have key : ∀ (l : List ℕ) (m : Multi Cls F),
      (l.foldl (Multi.repair W t) m).funcOf types = m.funcOf types := by
    intro l
    induction l with
    | nil => intro m; rfl
    | cons i l ih =>
      intro m
      rw [List.foldl_cons, ih, funcOf_repair]
  rw [key]
  unfold Multi.funcOf
  simp only [List.find?_filter]
  split_ifs with ht
  · subst ht
    rw [List.find?_eq_none.2]
    · rfl
    · intro k _
      simp
  · congr 2
    funext k
    by_cases hk : k.key = types
    · simp [hk, Ne.symm ht]
    · simp [hk]

/-- The entries of a multimethod are those of the specification. -/
theorem funcOf_run (W : Classes Cls) (ops : List (MultiOp Cls F)) (types : List Cls) :
    (multiRun W ops).funcOf types = registered ops types := by
  have key : ∀ (ops : List (MultiOp Cls F)) (m : Multi Cls F),
      (ops.foldl (MultiOp.run W) m).funcOf types =
        registered.go ops (m.funcOf types) types := by
    intro ops
    induction ops with
    | nil => intro m; rfl
    | cons op ops ih =>
      intro m
      rw [List.foldl_cons, ih]
      cases op with
      | register t f =>
        simp only [MultiOp.run, registered.go, funcOf_setitem]
      | delete t =>
        simp only [MultiOp.run, registered.go]
        rcases hd : m.delitem W t with e | m'
        · simp only
          congr 1
          split_ifs with ht
          · subst ht
            unfold Multi.delitem at hd
            split_ifs at hd with hany
            unfold Multi.funcOf
            rw [List.find?_eq_none.2]
            · rfl
            · intro k hk hkt
              exact hany (List.any_eq_true.2 ⟨k, hk, hkt⟩)
          · rfl
        · simp only [funcOf_delitem W m m' t hd]
      | call t =>
        simp only [MultiOp.run, registered.go]
        congr 1
        unfold Multi.select
        rcases m.find t with _ | f
        · simp only
          rcases m.resolve W t with e | f <;> rfl
        · rfl
  rw [multiRun, key]
  cases ops <;> rfl

theorem mem_methods_iff (W : Classes Cls) (m : Multi Cls F) (h : m.Inv W) (types : List Cls)
    (f : F) : m.funcOf types = some f ↔ ∃ k ∈ m.methods, k.key = types ∧ k.func = f := by
  unfold Multi.funcOf
  constructor
  · intro hh
    rcases hk : m.methods.find? (fun k => decide (k.key = types)) with _ | k
    · rw [hk] at hh; cases hh
    · rw [hk] at hh
      refine ⟨k, List.mem_of_find?_eq_some hk, ?_, by simpa using hh⟩
      simpa using List.find?_some hk
  · rintro ⟨k, hk, rfl, rfl⟩
    obtain ⟨k', hk'⟩ := Option.isSome_iff_exists.1
      (List.find?_isSome.2 ⟨k, hk, by simp⟩ :
        (m.methods.find? fun k' => decide (k'.key = k.key)).isSome = true)
    rw [hk']
    have h1 := List.mem_of_find?_eq_some hk'
    have h2 := List.find?_some hk'
    simp only [decide_eq_true_eq] at h2
    rw [List.inj_on_of_nodup_map h.nodup h1 hk h2]
    rfl

/-- What the selection computes: a signature among the parents at the smallest distance. -/
theorem resolve_ok (W : Classes Cls) (m : Multi Cls F) (types : List Cls) (f : F)
    (h : m.resolve W types = .ok f) :
    ∃ k ∈ m.methods, k.func = f ∧ k.key ∈ m.parentsOf W types ∧
      ∀ k' ∈ m.parentsOf W types, sigDist W types k.key ≤ sigDist W types k' := by
  unfold Multi.resolve at h
  simp only at h
  rcases hm : minDist ((m.parentsOf W types).map (sigDist W types)) with _ | d
  · rw [hm] at h
    simp at h
  · rw [hm] at h
    simp only at h
    obtain ⟨-, h2⟩ := minDist_spec _ d hm
    have hdd : (((m.methods.filter fun k => decide (k.key ∈ (m.parentsOf W types).filter
        fun k => decide (sigDist W types k = d))).map (·.func)).dedup) = [f] := by
      split at h
      · rename_i f' heq
        cases h
        exact heq
      · cases h
    have hf : f ∈ (((m.methods.filter fun k => decide (k.key ∈ (m.parentsOf W types).filter
        fun k => decide (sigDist W types k = d))).map (·.func)).dedup) := by
      rw [hdd]; simp
    rw [List.mem_dedup, List.mem_map] at hf
    obtain ⟨k, hk, rfl⟩ := hf
    rw [List.mem_filter, decide_eq_true_eq, List.mem_filter, decide_eq_true_eq] at hk
    refine ⟨k, hk.1, rfl, hk.2.1, ?_⟩
    intro k' hk'
    rw [hk.2.2]
    exact h2 _ (List.mem_map.2 ⟨k', hk', rfl⟩)

/-- `sig` applies to arguments of the given types: it is not longer, and each argument type is a
subclass of the declared one. -/
def Applies (W : Classes Cls) (sig types : List Cls) : Prop :=
  sig.length ≤ types.length ∧
    ∀ (i : ℕ) c t, sig[i]? = some c → types[i]? = some t → W.sub t c = true

theorem applies_iff (W : Classes Cls) (sig types : List Cls) :
    Applies W sig types ↔ sigLe W sig types = true := by
  induction sig generalizing types with
  | nil => simp [Applies, sigLe_nil]
  | cons c sig ih =>
    rcases types with _ | ⟨t, types⟩
    · refine ⟨?_, fun h => absurd h (sigLe_cons_nil W c sig)⟩
      rintro ⟨h, -⟩
      simp at h
    · rw [sigLe_cons, ← ih]
      constructor
      · rintro ⟨h1, h2⟩
        refine ⟨h2 0 c t rfl rfl, by simpa using h1, ?_⟩
        intro i c' t' hc' ht'
        exact h2 (i + 1) c' t' (by simpa using hc') (by simpa using ht')
      · rintro ⟨h1, h2, h3⟩
        refine ⟨by simpa using h2, ?_⟩
        intro i c' t' hc' ht'
        rcases i with _ | i
        · simp only [List.getElem?_cons_zero, Option.some.injEq] at hc' ht'
          subst hc' ht'
          exact h1
        · exact h3 i c' t' (by simpa using hc') (by simpa using ht')

/-- What a call finds. -/
theorem select_ok (W : Classes Cls) (m : Multi Cls F) (h : m.Inv W) (types : List Cls) (f : F)
    (hs : (m.select W types).1 = .ok f) :
    m.funcOf types = some f ∨ m.funcOf types = none ∧ m.resolve W types = .ok f := by
  unfold Multi.select Multi.find at hs
  unfold Multi.funcOf
  rcases hk : m.methods.find? (fun k => decide (k.key = types)) with _ | k
  · right
    refine ⟨by rw [hk]; rfl, ?_⟩
    rw [hk] at hs
    simp only at hs
    rcases hl : m.cache.lookup types with _ | g
    · rw [hl] at hs
      simp only at hs
      rcases hr : m.resolve W types with e | g
      · rw [hr] at hs; cases hs
      · rw [hr] at hs; exact hs
    · rw [hl] at hs
      cases hs
      obtain ⟨l1, l2, hl12, -⟩ := List.lookup_eq_some_iff.1 hl
      exact h.cache (types, f) (by rw [hl12]; simp)
  · left
    rw [hk] at hs
    cases hs
    rw [hk]
    rfl

/-- Above any applicable signature there is one among the parents. -/
theorem exists_parent (W : Classes Cls) (hW : W.Lawful) (m : Multi Cls F) (h : m.Inv W)
    (types : List Cls) (k : Overload Cls F) (hk : k ∈ m.methods)
    (hlt : sigLt W k.key types = true) :
    ∃ x ∈ m.parentsOf W types, sigLe W k.key x = true ∧ sigLe W x types = true := by
  obtain ⟨x, hx, hmax⟩ := exists_maximal (fun a b => sigLt W a b = true) (sigLt_irrefl W)
    (sigLt_trans hW) ((m.methods.filter fun p => sigLt W p.key types).map (·.key)) k.key
  have hxS : x ∈ (m.methods.filter fun p => sigLt W p.key types).map (·.key) := by
    rcases hx with rfl | hx
    · exact List.mem_map.2 ⟨k, List.mem_filter.2 ⟨hk, hlt⟩, rfl⟩
    · exact hx.2
  obtain ⟨p, hp, rfl⟩ := List.mem_map.1 hxS
  rw [List.mem_filter] at hp
  refine ⟨p.key, ?_, ?_, ((sigLt_iff _ _ _).1 hp.2).2⟩
  · rw [mem_parentsOf]
    refine ⟨⟨p, hp.1, rfl, hp.2⟩, ?_⟩
    intro q hq hql hpq
    exact hmax q.key (List.mem_map.2 ⟨q, List.mem_filter.2 ⟨hq, hql⟩, rfl⟩)
      (h.parents q hq _ hpq)
  · rcases hx with hx | hx
    · rw [hx]; exact sigLe_refl hW _
    · exact ((sigLt_iff _ _ _).1 hx.1).2

theorem filter_single {α : Type} (l : List α) (p : α → Bool) (a : α) (hl : l.Nodup) (ha : a ∈ l)
    (hp : ∀ x ∈ l, p x = true ↔ x = a) : l.filter p = [a] := by
  induction l with
  | nil => simp at ha
  | cons b l ih =>
    rw [List.nodup_cons] at hl
    by_cases hb : b = a
    · subst hb
      rw [List.filter_cons_of_pos ((hp b List.mem_cons_self).2 rfl)]
      rw [List.filter_eq_nil_iff.2]
      intro x hx hpx
      have := (hp x (List.mem_cons_of_mem _ hx)).1 hpx
      subst this
      exact hl.1 hx
    · rw [List.filter_cons_of_neg (fun h => hb ((hp b List.mem_cons_self).1 h))]
      exact ih hl.2 ((List.mem_cons.1 ha).resolve_left (Ne.symm hb))
        fun x hx => hp x (List.mem_cons_of_mem _ hx)

/-- **C52.** After any history of registrations, deletions and calls: if a call resolves, the
function called is registered with a signature that applies to the types of the arguments, and no
other registered signature of the same length that applies is strictly more specific. -/
theorem C52_most_specific (W : Classes Cls) (hW : W.Lawful) (ops : List (MultiOp Cls F))
    (types : List Cls) (f : F) (hs : ((multiRun W ops).select W types).1 = .ok f) :
    ∃ sig, registered ops sig = some f ∧ Applies W sig types ∧
      ∀ sig' g, registered ops sig' = some g → Applies W sig' types →
        sig'.length = sig.length → Applies W sig sig' → sig' = sig := by
  have hinv := inv_run W ops
  set m := multiRun W ops with hm
  rcases select_ok W m hinv types f hs with h1 | ⟨hnone, h1⟩
  · refine ⟨types, by rw [← funcOf_run W, ← hm, h1],
      (applies_iff W types types).2 (sigLe_refl hW types), ?_⟩
    intro sig' g hg ha hl hle
    exact (sigLe_antisymm hW _ _ ((applies_iff _ _ _).1 hle) ((applies_iff _ _ _).1 ha)).symm
  · obtain ⟨k, hk, hkf, hkp, hmin⟩ := resolve_ok W m types f h1
    obtain ⟨⟨-, -, -, hlt⟩, -⟩ := (mem_parentsOf W m types k.key).1 hkp
    have hle := ((sigLt_iff W _ _).1 hlt).2
    refine ⟨k.key, ?_, (applies_iff _ _ _).2 hle, ?_⟩
    · rw [← funcOf_run W, ← hm, mem_methods_iff W m hinv]
      exact ⟨k, hk, rfl, hkf⟩
    · intro sig' g hg ha hl hks
      by_contra hne
      rw [applies_iff] at ha hks
      rw [← funcOf_run W, ← hm] at hg
      have hst : sig' ≠ types := by
        rintro rfl
        rw [hnone] at hg; cases hg
      rw [mem_methods_iff W m hinv] at hg
      obtain ⟨k', hk', rfl, -⟩ := hg
      obtain ⟨x, hx, hxp, hxt⟩ := exists_parent W hW m hinv types k' hk'
        ((sigLt_iff _ _ _).2 ⟨hst, ha⟩)
      have hd := sigDist_lt hW k.key x types (sigLe_trans hW _ _ _ hks hxp) hxt (by
        intro hh
        apply hne
        have h3 := sigLe_take _ _ hxp
        rw [hl, hh] at h3
        exact sigLe_antisymm hW _ _ h3 hks)
      exact absurd (hmin x hx) (not_le.2 hd)

/-- **C52** (no applicable method).  A call to which no registered signature applies raises
`DispatchError`. -/
theorem C52_none_applicable (W : Classes Cls) (hW : W.Lawful) (ops : List (MultiOp Cls F))
    (types : List Cls) (hno : ∀ sig g, registered ops sig = some g → ¬ Applies W sig types) :
    ((multiRun W ops).select W types).1 = .error .dispatchError := by
  rcases hs : ((multiRun W ops).select W types).1 with e | f
  · have : e = .dispatchError := by
      unfold Multi.select at hs
      rcases hf : (multiRun W ops).find types with _ | f
      · rw [hf] at hs
        simp only at hs
        rcases hr : (multiRun W ops).resolve W types with e' | f
        · rw [hr] at hs
          simp only [Except.error.injEq] at hs
          subst hs
          unfold Multi.resolve at hr
          simp only at hr
          split at hr
          · cases hr
          · cases hr; rfl
        · rw [hr] at hs; cases hs
      · rw [hf] at hs; cases hs
    rw [this]
  · obtain ⟨sig, h1, h2, -⟩ := C52_most_specific W hW ops types f hs
    exact absurd h2 (hno sig f h1)

/-- **C52** (signatures of one length).  When all registered signatures are as long as the
argument list and one of them applies, the call resolves, to the applicable signature whose
distances (positions in the method resolution orders of the argument types) come first in
lexicographic order, strictly before those of every other applicable signature. -/
theorem C52_same_length (W : Classes Cls) (hW : W.Lawful) (ops : List (MultiOp Cls F))
    (types : List Cls)
    (hlen : ∀ sig g, registered ops sig = some g → sig.length = types.length)
    (hap : ∃ sig g, registered ops sig = some g ∧ Applies W sig types) :
    ∃ sig f, registered ops sig = some f ∧ Applies W sig types ∧
      ((multiRun W ops).select W types).1 = .ok f ∧
      ∀ sig' g, registered ops sig' = some g → Applies W sig' types → sig' ≠ sig →
        sigDist W types sig < sigDist W types sig' := by
  have hinv := inv_run W ops
  have hreg := funcOf_run W ops
  set m := multiRun W ops with hm
  simp only [← hreg] at hlen hap ⊢
  rcases hex : m.funcOf types with _ | f0
  · -- no exact match
    have hlt : ∀ sig g, m.funcOf sig = some g → Applies W sig types → sigLt W sig types = true := by
      intro sig g hg ha
      rw [sigLt_iff]
      refine ⟨?_, (applies_iff _ _ _).1 ha⟩
      rintro rfl
      rw [hex] at hg; cases hg
    obtain ⟨s0, g0, hg0, ha0⟩ := hap
    obtain ⟨k0, hk0, hk0key, -⟩ := (mem_methods_iff W m hinv s0 g0).1 hg0
    obtain ⟨x, hx, -, -⟩ := exists_parent W hW m hinv types k0 hk0 (by
      rw [hk0key]; exact hlt s0 g0 hg0 ha0)
    rcases hmd : minDist ((m.parentsOf W types).map (sigDist W types)) with _ | d
    · rw [minDist_none, List.map_eq_nil_iff] at hmd
      rw [hmd] at hx
      simp at hx
    · obtain ⟨hd1, hd2⟩ := minDist_spec _ d hmd
      obtain ⟨s1, hs1, rfl⟩ := List.mem_map.1 hd1
      obtain ⟨⟨k1, hk1, hk1key, hk1lt⟩, -⟩ := (mem_parentsOf W m types s1).1 hs1
      have hf1 : m.funcOf s1 = some k1.func :=
        (mem_methods_iff W m hinv s1 k1.func).2 ⟨k1, hk1, hk1key, rfl⟩
      have hle1 := ((sigLt_iff _ _ _).1 hk1lt).2
      -- the keys at the smallest distance are just `s1`
      have honly : ∀ k ∈ m.methods, k.key ∈ (m.parentsOf W types).filter
          (fun k => decide (sigDist W types k = sigDist W types s1)) ↔ k = k1 := by
        intro k hk
        rw [List.mem_filter, decide_eq_true_eq]
        constructor
        · rintro ⟨h1, h2⟩
          obtain ⟨⟨-, -, -, hklt⟩, -⟩ := (mem_parentsOf W m types k.key).1 h1
          have hkl := hlen k.key k.func
            ((mem_methods_iff W m hinv _ _).2 ⟨k, hk, rfl, rfl⟩)
          have := sigDist_inj hW k.key s1 types ((sigLt_iff _ _ _).1 hklt).2 hle1
            (by rw [hkl, hlen s1 _ hf1]) h2
          apply List.inj_on_of_nodup_map hinv.nodup hk hk1
          rw [this, hk1key]
        · rintro rfl
          rw [hk1key]
          exact ⟨hs1, rfl⟩
      have hres : m.resolve W types = .ok k1.func := by
        unfold Multi.resolve
        simp only [hmd]
        have hfil : (m.methods.filter fun k => decide (k.key ∈ (m.parentsOf W types).filter
            (fun k => decide (sigDist W types k = sigDist W types s1)))) =
            m.methods.filter fun k => decide (k.key = s1) := by
          apply List.filter_congr
          intro k hk
          rw [decide_eq_decide, honly k hk]
          constructor
          · rintro rfl; exact hk1key
          · intro h
            exact List.inj_on_of_nodup_map hinv.nodup hk hk1 (by rw [h, hk1key])
        rw [hfil]
        have hone : (m.methods.filter fun k => decide (k.key = s1)) = [k1] := by
          apply filter_single
          · exact List.Nodup.of_map _ hinv.nodup
          · exact hk1
          · intro k hk
            rw [decide_eq_true_eq]
            constructor
            · intro h
              exact List.inj_on_of_nodup_map hinv.nodup hk hk1 (by rw [h, hk1key])
            · rintro rfl; exact hk1key
        rw [hone]
        simp
      refine ⟨s1, k1.func, hf1, (applies_iff _ _ _).2 hle1, ?_, ?_⟩
      · unfold Multi.select Multi.find
        unfold Multi.funcOf at hex
        have hfn : m.methods.find? (fun k => decide (k.key = types)) = none := by
          simpa using hex
        rw [hfn]
        simp only
        rcases hl : m.cache.lookup types with _ | g
        · simp only [hres]
        · obtain ⟨l1, l2, hl12, -⟩ := List.lookup_eq_some_iff.1 hl
          have := hinv.cache (types, g) (by rw [hl12]; simp)
          rw [hres] at this
          simpa using this.symm
      · intro sig' g hg ha hne
        obtain ⟨k', hk', hk'key, -⟩ := (mem_methods_iff W m hinv sig' g).1 hg
        obtain ⟨y, hy, hyp, hyt⟩ := exists_parent W hW m hinv types k' hk' (by
          rw [hk'key]; exact hlt sig' g hg ha)
        have hle := hd2 _ (List.mem_map.2 ⟨y, hy, rfl⟩)
        rw [hk'key] at hyp
        obtain ⟨⟨ky, hky, hkykey, -⟩, -⟩ := (mem_parentsOf W m types y).1 hy
        have hyl := hlen y _ ((mem_methods_iff W m hinv y ky.func).2 ⟨ky, hky, hkykey, rfl⟩)
        have hsl := hlen sig' g hg
        by_cases hys : y = sig'
        · subst hys
          apply lt_of_le_of_ne hle
          intro he
          apply hne
          exact (sigDist_inj hW s1 y types hle1 hyt (by rw [hyl, hlen s1 _ hf1]) he).symm
        · have := sigDist_lt hW sig' y types hyp hyt (by
            rw [hsl, ← hyl, List.take_length]; exact hys)
          exact lt_of_le_of_lt hle this
  · refine ⟨types, f0, hex, (applies_iff _ _ _).2 (sigLe_refl hW types), ?_, ?_⟩
    · unfold Multi.funcOf at hex
      unfold Multi.select Multi.find
      rcases hfn : m.methods.find? (fun k => decide (k.key = types)) with _ | k
      · rw [hfn] at hex; cases hex
      · rw [hfn] at hex
        cases hex
        rw [hfn]
    · intro sig' g hg ha hne
      have hl := hlen sig' g hg
      exact sigDist_lt hW sig' types types ((applies_iff _ _ _).1 ha) (sigLe_refl hW types) (by
        rw [hl, List.take_length]; exact Ne.symm hne)

/-- **C52** (registration order).  For signatures of one length, the function selected depends
only on which functions are registered, not on the history. -/
theorem C52_order_irrelevant (W : Classes Cls) (hW : W.Lawful) (ops ops' : List (MultiOp Cls F))
    (types : List Cls) (hsame : ∀ sig, registered ops sig = registered ops' sig)
    (hlen : ∀ sig g, registered ops sig = some g → sig.length = types.length) :
    ((multiRun W ops).select W types).1 = ((multiRun W ops').select W types).1 := by
  by_cases hap : ∃ sig g, registered ops sig = some g ∧ Applies W sig types
  · obtain ⟨s, f, h1, h2, h3, h4⟩ := C52_same_length W hW ops types hlen hap
    simp only [hsame] at hap hlen
    obtain ⟨s', f', h1', h2', h3', h4'⟩ := C52_same_length W hW ops' types hlen hap
    have hss : s = s' := by
      by_contra hne
      have a := h4 s' f' (by rw [hsame, h1']) h2' (Ne.symm hne)
      have b := h4' s f (by rw [← hsame, h1]) h2 hne
      exact absurd a (not_lt.2 (le_of_lt b))
    subst hss
    rw [hsame, h1'] at h1
    rw [h3, h3', Option.some.inj h1]
  · push Not at hap
    rw [C52_none_applicable W hW ops types hap]
    simp only [hsame] at hap
    rw [C52_none_applicable W hW ops' types hap]

/-! ## Witnesses -/

/-- Three classes in a line: `object` (0), `A` (1), and `B`, a subclass of `A` (2). -/
def demoClasses : Classes (Fin 3) where
  sub := fun a b => decide (b ≤ a)
  mro := fun a => if a = 2 then [2, 1, 0] else if a = 1 then [1, 0] else [0]
  object := 0

theorem demoClasses_lawful : demoClasses.Lawful where
  refl := by decide
  trans := by decide
  antisymm := by decide
  mro_mem := by decide
  mro_order := by decide

/-- Non-vacuity: `f(object, A)`, `f(A, object)`, registered in two orders and called in between;
arguments of types `(B, B)` go to the second, whose first distance is smaller. -/
example : ((multiRun demoClasses [.register [0, 1] "f", .call [2, 2], .register [1, 0] "g"]).select
      demoClasses [2, 2]).1 = .ok "g" ∧
    ((multiRun demoClasses [.register [1, 0] "g", .register [0, 1] "f"]).select
      demoClasses [2, 2]).1 = .ok "g" ∧
    ((multiRun demoClasses [.register [0, 1] "f", .call [2, 2]]).select
      demoClasses [2, 2]).1 = .ok "f" ∧
    ((multiRun demoClasses ([.register [1, 1] "f"])).select demoClasses [0, 2]).1 =
      .error .dispatchError := by decide +kernel

/-- **C52 fails for signatures of different lengths**: a strictly more specific applicable
signature can be passed over, and the answer depends on the order of registration.  With
`f(object)`, `f(object, A)`, `f(A, A)` and then `f(A)` registered, a call with types `(B, A)` goes
to `f(A)`; if `f(A)` is registered first it goes to `f(A, A)`. -/
theorem C52_mixed_lengths_fails :
    ((multiRun demoClasses [.register [0] "f_o", .register [0, 1] "f_oA", .register [1, 1] "f_AA",
      .register [1] "f_A"]).select demoClasses [2, 1]).1 = .ok "f_A" ∧
    ((multiRun demoClasses [.register [0] "f_o", .register [0, 1] "f_oA", .register [1] "f_A",
      .register [1, 1] "f_AA"]).select demoClasses [2, 1]).1 = .ok "f_AA" ∧
    Applies demoClasses [1, 1] [2, 1] ∧ Applies demoClasses [1] [1, 1] := by
  refine ⟨by decide +kernel, by decide +kernel, ?_, ?_⟩
  · rw [applies_iff]; decide
  · rw [applies_iff]; decide

end Dolo
