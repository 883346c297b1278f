import Mathlib.Data.List.TakeWhile
import Verif.Model.DecodeComp

/-!
# C142: reading complementarity conditions
-/

set_option linter.unusedSectionVars false

namespace Dolo

/-- The text contains `<=`. -/
def HasLe (s : List Char) : Prop := ∃ a b, s = a ++ '<' :: '=' :: b

/-- Blanks within a line. -/
def IsPad (s : List Char) : Prop := ∀ c ∈ s, c = ' ' ∨ c = '\t'

/-- The text has one line, and begins and ends with visible characters. -/
def Trimmed (s : List Char) : Prop :=
  '\n' ∉ s ∧ (∀ c ∈ s.head?, c ≠ ' ' ∧ c ≠ '\t') ∧ ∀ c ∈ s.getLast?, c ≠ ' ' ∧ c ≠ '\t'

theorem splitLastLe_some (s a b : List Char) : splitLastLe s = some (a, b) ↔ s = a ++ '<' :: '=' :: b ∧ ¬ HasLe b := by
  induction s generalizing a b with
  | nil => simp [splitLastLe]
  | cons c cs ih =>
    rw [splitLastLe]
    rcases h : splitLastLe cs with _ | ⟨a', b'⟩
    · have hno : ¬ HasLe cs := by
        -- the last occurrence would have been found
        have aux : ∀ t : List Char, splitLastLe t = none → ¬ HasLe t := by
          intro t
          induction t with
          | nil => rintro - ⟨a, b, e⟩; simp at e
          | cons d ds ihd =>
            intro ht
            rw [splitLastLe] at ht
            rcases hd : splitLastLe ds with _ | ⟨u, v⟩
            · rw [hd] at ht
              rintro ⟨x, y, e⟩
              rcases x with _ | ⟨x0, x⟩
              · simp only [List.nil_append, List.cons.injEq] at e
                obtain ⟨rfl, rfl⟩ := e
                simp at ht
              · simp only [List.cons_append, List.cons.injEq] at e
                exact ihd hd ⟨x, y, e.2⟩
            · rw [hd] at ht
              cases ht
        exact aux cs h
      constructor
      · intro hs
        by_cases hc : c = '<' ∧ cs.head? = some '='
        · simp only [hc, and_self, if_true, Option.some.injEq, Prod.mk.injEq] at hs
          obtain ⟨rfl, rfl⟩ := hs
          obtain ⟨rfl, h2⟩ := hc
          rcases cs with _ | ⟨d, ds⟩
          · simp at h2
          · simp only [List.head?_cons, Option.some.injEq] at h2
            subst h2
            refine ⟨rfl, fun ⟨x, y, e⟩ => hno ⟨'=' :: x, y, ?_⟩⟩
            rw [List.tail_cons] at e
            rw [e]
            rfl
        · simp [hc] at hs
      · rintro ⟨e, -⟩
        rcases a with _ | ⟨a0, a⟩
        · simp only [List.nil_append, List.cons.injEq] at e
          obtain ⟨rfl, rfl⟩ := e
          simp
        · simp only [List.cons_append, List.cons.injEq] at e
          exact absurd ⟨a, b, e.2⟩ hno
    · have ih' := (ih a' b').1 h
      constructor
      · intro hs
        simp only [Option.some.injEq, Prod.mk.injEq] at hs
        obtain ⟨rfl, rfl⟩ := hs
        refine ⟨?_, ih'.2⟩
        rw [ih'.1]
        rfl
      · rintro ⟨e, hb⟩
        rcases a with _ | ⟨a0, a⟩
        · simp only [List.nil_append, List.cons.injEq] at e
          obtain ⟨rfl, e⟩ := e
          exfalso
          apply hb
          rw [ih'.1] at e
          rcases a' with _ | ⟨x, a'⟩
          · simp at e
          · simp only [List.cons_append, List.cons.injEq] at e
            exact ⟨a', b', e.2.symm⟩
        · simp only [List.cons_append, List.cons.injEq] at e
          obtain ⟨rfl, e⟩ := e
          have := (ih a b).2 ⟨e, hb⟩
          rw [h] at this
          simp only [Option.some.injEq, Prod.mk.injEq] at this ⊢
          obtain ⟨rfl, rfl⟩ := this
          exact ⟨rfl, rfl⟩

theorem splitLastLe_none (s : List Char) : splitLastLe s = none ↔ ¬ HasLe s := by
  constructor
  · intro h hs
    -- take the last occurrence
    have aux : ∀ (k : ℕ) (a b : List Char), b.length ≤ k → s = a ++ '<' :: '=' :: b → ∃ a b, s = a ++ '<' :: '=' :: b ∧ ¬ HasLe b := by
      intro k
      induction k with
      | zero =>
        intro a b hb e
        obtain rfl : b = [] := List.length_eq_zero_iff.1 (by omega)
        exact ⟨a, [], e, fun ⟨x, y, q⟩ => by simp at q⟩
      | succ k ih =>
        intro a b hb e
        by_cases hl : HasLe b
        · obtain ⟨x, y, q⟩ := hl
          refine ih (a ++ '<' :: '=' :: x) y ?_ ?_
          · rw [q] at hb
            simp only [List.length_append, List.length_cons] at hb
            omega
          · rw [e, q]
            simp
        · exact ⟨a, b, e, hl⟩
    obtain ⟨a, b, e⟩ := hs
    obtain ⟨a, b, e, hb⟩ := aux _ a b le_rfl e
    rw [(splitLastLe_some s a b).2 ⟨e, hb⟩] at h
    cases h
  · intro h
    rcases q : splitLastLe s with _ | ⟨a, b⟩
    · rfl
    · exact absurd ⟨a, b, ((splitLastLe_some s a b).1 q).1⟩ h

theorem hasLe_pad_left {p s : List Char} (hp : IsPad p) (h : HasLe (p ++ s)) : HasLe s := by
  induction p with
  | nil => exact h
  | cons c p ih =>
    refine ih (fun d hd => hp d (by simp [hd])) ?_
    obtain ⟨a, b, e⟩ := h
    rcases a with _ | ⟨x, a⟩
    · simp only [List.cons_append, List.nil_append, List.cons.injEq] at e
      have := hp c (by simp)
      rw [e.1] at this
      simp at this
    · simp only [List.cons_append, List.cons.injEq] at e
      exact ⟨a, b, e.2⟩

theorem hasLe_pad_right {p s : List Char} (hp : IsPad p) (h : HasLe (s ++ p)) : HasLe s := by
  obtain ⟨a, b, e⟩ := h
  induction s generalizing a with
  | nil =>
    exfalso
    have := hp '<' (by rw [List.nil_append] at e; rw [e]; simp)
    simp at this
  | cons c s ih =>
    rcases a with _ | ⟨x, a⟩
    · simp only [List.cons_append, List.nil_append, List.cons.injEq] at e
      obtain ⟨rfl, e⟩ := e
      rcases s with _ | ⟨d, s⟩
      · exfalso
        rw [List.nil_append] at e
        have := hp '=' (by rw [e]; simp)
        simp at this
      · simp only [List.cons_append, List.cons.injEq] at e
        obtain ⟨rfl, e⟩ := e
        exact ⟨[], s, rfl⟩
    · simp only [List.cons_append, List.cons.injEq] at e
      obtain ⟨rfl, e⟩ := e
      obtain ⟨u, v, q⟩ := ih a e
      exact ⟨c :: u, v, by rw [q]; rfl⟩

theorem stripWs_trimmed {p q s : List Char} (hp : IsPad p) (hq : IsPad q) (hs : Trimmed s) : stripWs (p ++ (s ++ q)) = s := by
  have hw : ∀ r : List Char, IsPad r → ∀ t, List.dropWhile (fun c => decide (c = ' ') || decide (c = '\t') || decide (c = '\n')) (r ++ t)
      = List.dropWhile (fun c => decide (c = ' ') || decide (c = '\t') || decide (c = '\n')) t := by
    intro r hr t
    induction r with
    | nil => rfl
    | cons c r ih =>
      have := hr c (by simp)
      rw [List.cons_append, List.dropWhile_cons_of_pos (by rcases this with rfl | rfl <;> simp)]
      exact ih fun d hd => hr d (by simp [hd])
  unfold stripWs
  simp only
  rw [hw p hp]
  rcases s with _ | ⟨c, s⟩
  · rw [List.nil_append]
    have := hw q hq []
    rw [List.append_nil] at this
    rw [this]
    rfl
  · have h1 := hs.2.1 c (by simp)
    have h2 : c ≠ '\n' := fun h => hs.1 (by simp [h])
    rw [List.cons_append, List.dropWhile_cons_of_neg (by simp [h1.1, h1.2, h2]), ← List.cons_append, List.reverse_append,
      hw _ (fun d hd => hq d (List.mem_reverse.1 hd))]
    obtain ⟨d, hd⟩ : ∃ d, (c :: s).getLast? = some d := ⟨_, List.getLast?_eq_some_getLast (by simp)⟩
    have h3 := hs.2.2 d hd
    have h4 : d ≠ '\n' := fun h => hs.1 (by rw [← h]; exact List.mem_of_getLast? hd)
    obtain ⟨r, hr⟩ : ∃ r, (c :: s).reverse = d :: r := by
      rcases h : (c :: s).reverse with _ | ⟨e, r⟩
      · simp at h
      · refine ⟨r, ?_⟩
        have := List.head?_reverse (l := c :: s)
        rw [h, hd, List.head?_cons, Option.some.injEq] at this
        rw [this]
    rw [hr, List.dropWhile_cons_of_neg (by simp [h3.1, h3.2, h4]), ← hr, List.reverse_reverse]

/-- **C142, round trip.**  `lb <= x <= ub`, with any blanks, is read as the bounds `lb` and `ub` of `x`. -/
theorem C142_round_trip (lb x ub p1 p2 p3 p4 p5 p6 : List Char) (hlb : Trimmed lb) (hx : Trimmed x) (hub : Trimmed ub)
    (nx : ¬ HasLe x) (nub : ¬ HasLe ub) (h1 : IsPad p1) (h2 : IsPad p2) (h3 : IsPad p3) (h4 : IsPad p4) (h5 : IsPad p5)
    (h6 : IsPad p6) :
    decodeComplementarity
      ((p1 ++ (lb ++ p2)) ++ '<' :: '=' :: ((p3 ++ (x ++ p4)) ++ '<' :: '=' :: (p5 ++ (ub ++ p6)))) x = .ok [lb, ub] := by
  have nopad : ∀ p, IsPad p → '\n' ∉ p := by
    intro p hp h
    have := hp _ h
    simp at this
  set s := (p1 ++ (lb ++ p2)) ++ '<' :: '=' :: ((p3 ++ (x ++ p4)) ++ '<' :: '=' :: (p5 ++ (ub ++ p6))) with hs
  have hline : (s.takeWhile fun c => c != '\n') = s := by
    rw [List.takeWhile_eq_self_iff]
    intro c hc
    have : '\n' ∉ s := by
      simp only [hs, List.mem_append, List.mem_cons, not_or]
      refine ⟨⟨nopad _ h1, hlb.1, nopad _ h2⟩, by decide, by decide, ⟨nopad _ h3, hx.1, nopad _ h4⟩, by decide, by decide,
        nopad _ h5, hub.1, nopad _ h6⟩
    simp only [bne_iff_ne, ne_eq]
    rintro rfl
    exact this hc
  have n3 : ¬ HasLe (p5 ++ (ub ++ p6)) := fun h => nub (hasLe_pad_right h6 (hasLe_pad_left h5 h))
  have n2 : ¬ HasLe (p3 ++ (x ++ p4)) := fun h => nx (hasLe_pad_right h4 (hasLe_pad_left h3 h))
  have e1 : splitLastLe s = some ((p1 ++ (lb ++ p2)) ++ '<' :: '=' :: (p3 ++ (x ++ p4)), p5 ++ (ub ++ p6)) := by
    rw [splitLastLe_some]
    refine ⟨?_, n3⟩
    rw [hs]
    simp
  have e2 : splitLastLe ((p1 ++ (lb ++ p2)) ++ '<' :: '=' :: (p3 ++ (x ++ p4))) = some (p1 ++ (lb ++ p2), p3 ++ (x ++ p4)) :=
    (splitLastLe_some _ _ _).2 ⟨rfl, n2⟩
  unfold decodeComplementarity regexLeLe
  simp only [hline, e1, e2, stripWs_trimmed h3 h4 hx, stripWs_trimmed h1 h2 hlb, stripWs_trimmed h5 h6 hub, ne_eq,
    not_true_eq_false, if_false]

/-- **C142, what is accepted.**  Whenever a condition is accepted, its first line is `a <= b <= c` where `b` is the control up to blanks, and
the result is made of `a` and `c` without blanks around. -/
theorem C142_accepted (comp control : List Char) (r : List (List Char)) (h : decodeComplementarity comp control = .ok r) :
    ∃ a b c, (comp.takeWhile fun c => c != '\n') = a ++ '<' :: '=' :: (b ++ '<' :: '=' :: c) ∧ ¬ HasLe b ∧ ¬ HasLe c ∧
      stripWs b = control ∧ r = [stripWs a, stripWs c] := by
  unfold decodeComplementarity regexLeLe at h
  rcases h1 : splitLastLe (comp.takeWhile fun c => c != '\n') with _ | ⟨l, g3⟩
  · simp [h1] at h
  · rcases h2 : splitLastLe l with _ | ⟨g1, g2⟩
    · simp [h1, h2] at h
    · simp only [h1, h2] at h
      by_cases hc : stripWs g2 = control
      · rw [if_neg (by simp [hc])] at h
        obtain ⟨e1, n1⟩ := (splitLastLe_some _ _ _).1 h1
        obtain ⟨e2, n2⟩ := (splitLastLe_some _ _ _).1 h2
        refine ⟨g1, g2, g3, ?_, n2, n1, hc, by injection h with h; exact h.symm⟩
        rw [e1, e2]
        simp
      · rw [if_pos hc] at h
        cases h

/-- **C142, one bound.**  The documentation also lists `a <= x` and `x <= b`; all conditions with a single `<=` are rejected. -/
theorem C142_one_bound_fails (a b control : List Char) (ha : ¬ HasLe a) (hb : ¬ HasLe b) :
    ∃ m, decodeComplementarity (a ++ '<' :: '=' :: b) control = .error (.exception m) := by
  unfold decodeComplementarity regexLeLe
  have pre : ∀ t : List Char, ∃ u, t = (t.takeWhile fun c => c != '\n') ++ u := fun t => ⟨_, (List.takeWhile_append_dropWhile).symm⟩
  rcases h1 : splitLastLe ((a ++ '<' :: '=' :: b).takeWhile fun c => c != '\n') with _ | ⟨l, g3⟩
  · exact ⟨_, rfl⟩
  · rcases h2 : splitLastLe l with _ | ⟨g1, g2⟩
    · simp only [h2]
      exact ⟨_, rfl⟩
    · exfalso
      obtain ⟨e1, -⟩ := (splitLastLe_some _ _ _).1 h1
      obtain ⟨e2, -⟩ := (splitLastLe_some _ _ _).1 h2
      obtain ⟨u, hu⟩ := pre (a ++ '<' :: '=' :: b)
      rw [e1, e2] at hu
      -- two occurrences, one of which would be in `a` or in `b`
      have aux : ∀ (a g1 : List Char) (w : List Char), ¬ HasLe a → ¬ HasLe b →
          a ++ '<' :: '=' :: b = g1 ++ '<' :: '=' :: (g2 ++ '<' :: '=' :: w) → False := by
        intro a
        induction a with
        | nil =>
          intro g1 w _ hb e
          rcases g1 with _ | ⟨c, g1⟩
          · simp only [List.nil_append, List.cons.injEq, true_and] at e
            exact hb ⟨g2, w, e⟩
          · simp only [List.nil_append, List.cons_append, List.cons.injEq] at e
            rcases g1 with _ | ⟨d, g1⟩
            · simp at e
            · simp only [List.cons_append, List.cons.injEq] at e
              exact hb ⟨g1, _, e.2.2⟩
        | cons c a ih =>
          intro g1 w ha hb e
          have ha' : ¬ HasLe a := fun ⟨x, y, q⟩ => ha ⟨c :: x, y, by rw [q]; rfl⟩
          rcases g1 with _ | ⟨d, g1⟩
          · simp only [List.nil_append, List.cons_append, List.cons.injEq] at e
            obtain ⟨rfl, e⟩ := e
            rcases a with _ | ⟨d, a⟩
            · simp at e
            · simp only [List.cons_append, List.cons.injEq] at e
              obtain ⟨rfl, e⟩ := e
              exact ha ⟨[], a, rfl⟩
          · simp only [List.cons_append, List.cons.injEq] at e
            exact ih g1 w ha' hb e.2
      refine aux a g1 (g3 ++ u) ha hb ?_
      rw [hu]
      simp

/-- A condition. -/
example : (decodeComplementarity "0 <= c <=  1 - k".toList "c".toList) = .ok ["0".toList, "1 - k".toList] ∧
    Trimmed "1 - k".toList ∧ ¬ HasLe "1 - k".toList := by
  refine ⟨by decide, ⟨by decide, by decide, by decide⟩, (splitLastLe_none _).1 (by decide)⟩

end Dolo
