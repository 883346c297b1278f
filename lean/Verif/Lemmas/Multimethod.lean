import Mathlib.Data.List.Nodup
import Mathlib.Tactic.Use
import Verif.Model.Multimethod

/-!
# Lemmas on signatures and dispatch
-/

set_option linter.unusedSectionVars false

namespace Dolo

variable {Cls F : Type} [DecidableEq Cls] [DecidableEq F]

/-- What is assumed of classes: `issubclass` is a partial order, the `mro` of a class lists its
superclasses, a class always before its own superclasses. -/
structure Classes.Lawful (W : Classes Cls) : Prop where
  refl : ∀ a, W.sub a a = true
  trans : ∀ a b c, W.sub a b = true → W.sub b c = true → W.sub a c = true
  antisymm : ∀ a b, W.sub a b = true → W.sub b a = true → a = b
  mro_mem : ∀ t c, W.sub t c = true → c ∈ W.mro t
  mro_order : ∀ t c d, W.sub t c = true → W.sub t d = true → W.sub c d = true →
    (W.mro t).idxOf c ≤ (W.mro t).idxOf d

theorem sigLe_nil (W : Classes Cls) (b : List Cls) : sigLe W [] b = true := by
  simp [sigLe]

theorem sigLe_cons (W : Classes Cls) (x y : Cls) (a b : List Cls) :
    sigLe W (x :: a) (y :: b) = true ↔ W.sub y x = true ∧ sigLe W a b = true := by
  simp only [sigLe, List.length_cons, List.zip_cons_cons, List.all_cons, Bool.and_eq_true,
    decide_eq_true_eq, Nat.add_le_add_iff_right]
  tauto

theorem sigLe_cons_nil (W : Classes Cls) (x : Cls) (a : List Cls) :
    ¬ sigLe W (x :: a) [] = true := by
  simp [sigLe]

theorem sigLe_refl {W : Classes Cls} (hW : W.Lawful) (a : List Cls) : sigLe W a a = true := by
  induction a with
  | nil => exact sigLe_nil W []
  | cons x a ih => exact (sigLe_cons W x x a a).2 ⟨hW.refl x, ih⟩

theorem sigLe_trans {W : Classes Cls} (hW : W.Lawful) (a b c : List Cls)
    (h1 : sigLe W a b = true) (h2 : sigLe W b c = true) : sigLe W a c = true := by
  induction a generalizing b c with
  | nil => exact sigLe_nil W c
  | cons x a ih =>
    rcases b with _ | ⟨y, b⟩
    · exact absurd h1 (sigLe_cons_nil W x a)
    · rcases c with _ | ⟨z, c⟩
      · exact absurd h2 (sigLe_cons_nil W y b)
      · rw [sigLe_cons] at h1 h2 ⊢
        exact ⟨hW.trans _ _ _ h2.1 h1.1, ih b c h1.2 h2.2⟩

theorem sigLe_antisymm {W : Classes Cls} (hW : W.Lawful) (a b : List Cls)
    (h1 : sigLe W a b = true) (h2 : sigLe W b a = true) : a = b := by
  induction a generalizing b with
  | nil =>
    rcases b with _ | ⟨y, b⟩
    · rfl
    · exact absurd h2 (sigLe_cons_nil W y b)
  | cons x a ih =>
    rcases b with _ | ⟨y, b⟩
    · exact absurd h1 (sigLe_cons_nil W x a)
    · rw [sigLe_cons] at h1 h2
      rw [hW.antisymm x y h2.1 h1.1, ih b h1.2 h2.2]

theorem sigLe_length (W : Classes Cls) (a b : List Cls) (h : sigLe W a b = true) :
    a.length ≤ b.length := by
  simp only [sigLe, Bool.and_eq_true, decide_eq_true_eq] at h
  exact h.1

theorem sigLt_iff (W : Classes Cls) (a b : List Cls) :
    sigLt W a b = true ↔ a ≠ b ∧ sigLe W a b = true := by
  simp [sigLt]

theorem sigLt_irrefl (W : Classes Cls) (a : List Cls) : ¬ sigLt W a a = true := by
  simp [sigLt_iff]

theorem sigLt_trans {W : Classes Cls} (hW : W.Lawful) (a b c : List Cls)
    (h1 : sigLt W a b = true) (h2 : sigLt W b c = true) : sigLt W a c = true := by
  rw [sigLt_iff] at h1 h2 ⊢
  refine ⟨?_, sigLe_trans hW a b c h1.2 h2.2⟩
  rintro rfl
  exact h1.1 (sigLe_antisymm hW a b h1.2 h2.2)

theorem sigLe_take {W : Classes Cls} (a b : List Cls) (h : sigLe W a b = true) :
    sigLe W a (b.take a.length) = true := by
  induction a generalizing b with
  | nil => exact sigLe_nil W _
  | cons x a ih =>
    rcases b with _ | ⟨y, b⟩
    · exact absurd h (sigLe_cons_nil W x a)
    · rw [sigLe_cons] at h
      rw [List.length_cons, List.take_succ_cons, sigLe_cons]
      exact ⟨h.1, ih b h.2⟩

/-- A more specific signature is closer. -/
theorem sigDist_lt {W : Classes Cls} (hW : W.Lawful) (k m t : List Cls)
    (h1 : sigLe W k m = true) (h2 : sigLe W m t = true) (hne : m.take k.length ≠ k) :
    sigDist W t m < sigDist W t k := by
  induction k generalizing m t with
  | nil => simp at hne
  | cons c k ih =>
    rcases m with _ | ⟨c1, m⟩
    · exact absurd h1 (sigLe_cons_nil W c k)
    · rcases t with _ | ⟨t1, t⟩
      · exact absurd h2 (sigLe_cons_nil W c1 m)
      · rw [sigLe_cons] at h1 h2
        have hc1 := hW.mro_mem t1 c1 h2.1
        have htc := hW.trans t1 c1 c h2.1 h1.1
        have hc := hW.mro_mem t1 c htc
        simp only [sigDist, List.zip_cons_cons, List.map_cons, if_pos hc1, if_pos hc]
        rw [List.cons_lt_cons_iff]
        by_cases he : c1 = c
        · right
          subst he
          refine ⟨rfl, ?_⟩
          apply ih m t h1.2 h2.2
          intro hh
          apply hne
          rw [List.length_cons, List.take_succ_cons, hh]
        · left
          apply lt_of_le_of_ne (hW.mro_order t1 c1 c h2.1 htc h1.1)
          intro hi
          exact he ((List.idxOf_inj hc1).1 hi)

/-- The distance determines the signature among applicable ones of the same length. -/
theorem sigDist_inj {W : Classes Cls} (hW : W.Lawful) (k m t : List Cls)
    (h1 : sigLe W k t = true) (h2 : sigLe W m t = true) (hl : k.length = m.length)
    (he : sigDist W t k = sigDist W t m) : k = m := by
  induction k generalizing m t with
  | nil =>
    rcases m with _ | ⟨c, m⟩
    · rfl
    · simp at hl
  | cons c k ih =>
    rcases m with _ | ⟨c1, m⟩
    · simp at hl
    · rcases t with _ | ⟨t1, t⟩
      · exact absurd h2 (sigLe_cons_nil W c1 m)
      · rw [sigLe_cons] at h1 h2
        have hc1 := hW.mro_mem t1 c1 h2.1
        have hc := hW.mro_mem t1 c h1.1
        simp only [sigDist, List.zip_cons_cons, List.map_cons, if_pos hc1, if_pos hc,
          List.cons.injEq] at he
        rw [(List.idxOf_inj hc).1 he.1, ih m t h1.2 h2.2 (by simpa using hl) he.2]

/-- A finite list has maximal elements. -/
theorem exists_maximal {α : Type} (lt : α → α → Prop) (hirr : ∀ a, ¬ lt a a)
    (htr : ∀ a b c, lt a b → lt b c → lt a c) (S : List α) (x : α) :
    ∃ m, (m = x ∨ lt x m ∧ m ∈ S) ∧ ∀ s ∈ S, ¬ lt m s := by
  classical
  induction S with
  | nil => exact ⟨x, Or.inl rfl, by simp⟩
  | cons a S ih =>
    obtain ⟨m, hm, hmax⟩ := ih
    by_cases h : lt m a
    · refine ⟨a, Or.inr ⟨?_, List.mem_cons_self⟩, ?_⟩
      · rcases hm with rfl | hm
        · exact h
        · exact htr _ _ _ hm.1 h
      · intro s hs
        rcases List.mem_cons.1 hs with rfl | hs
        · exact hirr s
        · exact fun h' => hmax s hs (htr _ _ _ h h')
    · refine ⟨m, ?_, ?_⟩
      · rcases hm with rfl | hm
        · exact Or.inl rfl
        · exact Or.inr ⟨hm.1, List.mem_cons_of_mem _ hm.2⟩
      · intro s hs
        rcases List.mem_cons.1 hs with rfl | hs
        · exact h
        · exact hmax s hs

theorem minDist_none (l : List (List ℕ)) : minDist l = none ↔ l = [] := by
  cases l with
  | nil => simp [minDist]
  | cons d ds =>
    simp only [minDist]
    rcases minDist ds with _ | e
    · simp
    · simp only
      split_ifs <;> simp

theorem minDist_spec (l : List (List ℕ)) (d : List ℕ) (h : minDist l = some d) :
    d ∈ l ∧ ∀ e ∈ l, d ≤ e := by
  induction l generalizing d with
  | nil => simp [minDist] at h
  | cons a l ih =>
    simp only [minDist] at h
    rcases hm : minDist l with _ | e
    · rw [hm] at h
      rw [(minDist_none l).1 hm]
      cases h
      simp
    · rw [hm] at h
      obtain ⟨i1, i2⟩ := ih e hm
      simp only at h
      by_cases hlt : e < a
      · rw [if_pos hlt] at h
        cases h
        refine ⟨List.mem_cons_of_mem _ i1, ?_⟩
        intro x hx
        rcases List.mem_cons.1 hx with rfl | hx
        · exact le_of_lt hlt
        · exact i2 x hx
      · rw [if_neg hlt] at h
        cases h
        refine ⟨List.mem_cons_self, ?_⟩
        intro x hx
        rcases List.mem_cons.1 hx with rfl | hx
        · exact le_refl _
        · exact le_trans (not_lt.1 hlt) (i2 x hx)

/-! ## Invariant of registrations -/

/-- Registered signatures are distinct, the recorded parents of a signature are less specific,
and cached answers are those that would be computed. -/
structure Multi.Inv (W : Classes Cls) (m : Multi Cls F) : Prop where
  nodup : (m.methods.map (·.key)).Nodup
  parents : ∀ k ∈ m.methods, ∀ q ∈ k.parents, sigLt W q k.key = true
  cache : ∀ tf ∈ m.cache, m.resolve W tf.1 = .ok tf.2

theorem mem_parentsOf (W : Classes Cls) (m : Multi Cls F) (types k : List Cls) :
    k ∈ m.parentsOf W types ↔
      (∃ p ∈ m.methods, p.key = k ∧ sigLt W k types = true) ∧
      ∀ p ∈ m.methods, sigLt W p.key types = true → k ∉ p.parents := by
  simp only [Multi.parentsOf, List.mem_filter, List.mem_map, Bool.not_eq_true',
    List.any_eq_false, decide_eq_true_eq]
  constructor
  · rintro ⟨⟨p, ⟨hp, hl⟩, rfl⟩, h⟩
    exact ⟨⟨p, hp, rfl, hl⟩, fun q hq hql => h q ⟨hq, hql⟩⟩
  · rintro ⟨⟨p, hp, rfl, hl⟩, h⟩
    exact ⟨⟨p, ⟨hp, hl⟩, rfl⟩, fun q hq => h q hq.1 hq.2⟩

theorem relink_key (W : Classes Cls) (types : List Cls) (ps : List (List Cls))
    (k : Overload Cls F) : (relink W types ps k).key = k.key := by
  unfold relink; split_ifs <;> rfl

theorem relink_func (W : Classes Cls) (types : List Cls) (ps : List (List Cls))
    (k : Overload Cls F) : (relink W types ps k).func = k.func := by
  unfold relink; split_ifs <;> rfl

theorem relink_parents (W : Classes Cls) (types : List Cls) (ps : List (List Cls))
    (k : Overload Cls F) (hk : ∀ q ∈ k.parents, sigLt W q k.key = true) :
    ∀ q ∈ (relink W types ps k).parents, sigLt W q k.key = true := by
  intro q hq
  unfold relink at hq
  split_ifs at hq with h
  · simp only [List.mem_append, List.mem_filter, List.mem_singleton] at hq
    rcases hq with hq | rfl
    · exact hk q hq.1
    · simp only [Bool.and_eq_true] at h
      exact h.1
  · exact hk q hq

theorem inv_setitem (W : Classes Cls) (m : Multi Cls F) (h : m.Inv W) (types : List Cls)
    (f : F) : (m.setitem W types f).Inv W := by
  have hkeys : (m.methods.map (relink W types (m.parentsOf W types))).map (·.key) =
      m.methods.map (·.key) := by
    rw [List.map_map]
    congr 1
    funext k
    exact relink_key W types _ k
  have hpar : ∀ k ∈ m.methods.map (relink W types (m.parentsOf W types)), ∀ q ∈ k.parents,
      sigLt W q k.key = true := by
    intro k hk
    obtain ⟨k0, hk0, rfl⟩ := List.mem_map.1 hk
    intro q hq
    rw [relink_key]
    exact relink_parents W types _ k0 (h.parents k0 hk0) q hq
  unfold Multi.setitem
  simp only
  split_ifs with hany
  · refine ⟨?_, ?_, by simp⟩
    · rw [List.map_map, show ((fun x : Overload Cls F => x.key) ∘ fun k =>
        if k.key = types then ({ k with func := f } : Overload Cls F) else k) = fun x => x.key by
          funext k; simp only [Function.comp]; split_ifs <;> rfl, hkeys]
      exact h.nodup
    · intro k hk
      obtain ⟨k0, hk0, rfl⟩ := List.mem_map.1 hk
      intro q hq
      have h1 : (if k0.key = types then ({ k0 with func := f } : Overload Cls F) else k0).parents =
          k0.parents := by split_ifs <;> rfl
      have h2 : (if k0.key = types then ({ k0 with func := f } : Overload Cls F) else k0).key =
          k0.key := by split_ifs <;> rfl
      rw [h2]
      rw [h1] at hq
      exact hpar k0 hk0 q hq
  · refine ⟨?_, ?_, by simp⟩
    · rw [List.map_append, hkeys, List.map_singleton, List.nodup_append]
      refine ⟨h.nodup, by simp, ?_⟩
      intro a ha b hb
      rw [List.mem_singleton] at hb
      subst hb
      rintro rfl
      apply hany
      rw [← hkeys] at ha
      obtain ⟨k, hk, rfl⟩ := List.mem_map.1 ha
      exact List.any_eq_true.2 ⟨k, hk, by simp⟩
    · intro k hk
      rcases List.mem_append.1 hk with hk | hk
      · exact hpar k hk
      · rw [List.mem_singleton] at hk
        subst hk
        intro q hq
        obtain ⟨⟨p, -, -, hl⟩, -⟩ := (mem_parentsOf W m types q).1 hq
        exact hl

theorem inv_repair (W : Classes Cls) (types : List Cls) (m : Multi Cls F) (i : ℕ)
    (hc : m.cache = []) (h : m.Inv W) :
    (m.repair W types i).Inv W ∧ (m.repair W types i).cache = [] := by
  refine ⟨⟨?_, ?_, ?_⟩, hc⟩
  · have : (m.repair W types i).methods.map (·.key) = m.methods.map (·.key) := by
      unfold Multi.repair
      simp only
      apply List.ext_getElem?
      intro j
      simp only [List.getElem?_map, List.getElem?_modify]
      rcases m.methods[j]? with _ | k
      · rfl
      · by_cases hij : i = j
        · simp only [hij, if_true, Option.map_eq_map, Option.map_some]
          congr 1
          split_ifs <;> rfl
        · simp [hij]
    rw [this]; exact h.nodup
  · intro k hk q hq
    unfold Multi.repair at hk
    simp only at hk
    obtain ⟨j, hj⟩ := List.mem_iff_getElem?.1 hk
    rw [List.getElem?_modify] at hj
    rcases hk0 : m.methods[j]? with _ | k0
    · rw [hk0] at hj; cases hj
    · rw [hk0] at hj
      have hmem := List.mem_of_getElem? hk0
      simp only [Option.map_eq_map, Option.map_some, Option.some.injEq] at hj
      by_cases hij : i = j
      · rw [if_pos hij] at hj
        by_cases ht : types ∈ k0.parents
        · rw [if_pos ht] at hj
          subst hj
          obtain ⟨⟨p, -, -, hl⟩, -⟩ := (mem_parentsOf W m k0.key q).1 hq
          exact hl
        · rw [if_neg ht] at hj
          subst hj
          exact h.parents k0 hmem q hq
      · rw [if_neg hij] at hj
        subst hj
        exact h.parents k0 hmem q hq
  · intro tf htf
    have : (m.repair W types i).cache = [] := hc
    rw [this] at htf
    simp at htf

theorem inv_delitem (W : Classes Cls) (m m' : Multi Cls F) (h : m.Inv W) (types : List Cls)
    (hd : m.delitem W types = .ok m') : m'.Inv W := by
  unfold Multi.delitem at hd
  split_ifs at hd with hany
  simp only [Except.ok.injEq] at hd
  subst hd
  have key : ∀ (l : List ℕ) (m : Multi Cls F), m.Inv W → m.cache = [] →
      (l.foldl (Multi.repair W types) m).Inv W := by
    intro l
    induction l with
    | nil => intro m hm _; exact hm
    | cons i l ih =>
      intro m hm hc
      obtain ⟨h1, h2⟩ := inv_repair W types m i hc hm
      exact ih _ h1 h2
  apply key _ _ _ rfl
  refine ⟨?_, ?_, by simp⟩
  · exact h.nodup.sublist (List.filter_sublist.map _)
  · intro k hk
    exact h.parents k (List.mem_filter.1 hk).1

theorem resolve_cache (W : Classes Cls) (m : Multi Cls F) (c : List (List Cls × F))
    (types : List Cls) : ({ m with cache := c } : Multi Cls F).resolve W types =
      m.resolve W types := rfl

theorem inv_select (W : Classes Cls) (m : Multi Cls F) (h : m.Inv W) (types : List Cls) :
    (m.select W types).2.Inv W := by
  unfold Multi.select
  rcases m.find types with _ | f
  · simp only
    rcases hr : m.resolve W types with e | f
    · exact h
    · refine ⟨h.nodup, h.parents, ?_⟩
      intro tf htf
      rw [resolve_cache]
      rcases List.mem_append.1 htf with htf | htf
      · exact h.cache tf htf
      · rw [List.mem_singleton] at htf
        subst htf
        exact hr
  · exact h

end Dolo
