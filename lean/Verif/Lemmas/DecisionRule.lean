import Mathlib.Algebra.Order.Field.Basic
import Mathlib.Data.List.Forall2
import Mathlib.Tactic.Ring
import Mathlib.Tactic.Linarith
import Mathlib.Tactic.FieldSimp
import Mathlib.Tactic.Positivity
import Verif.Lemmas.Cartesian
import Verif.Model.DecisionRule

/-! Helper lemmas about interpolated decision rules. -/

namespace Dolo

variable {K : Type}

theorem take_drop_block {α : Type} (l : List α) (i N n k : ℕ) (hk : k < N) :
    ((((l.drop (i * (N * n))).take (N * n)).drop (k * n)).take n) = (l.drop ((i * N + k) * n)).take n := by
  rw [List.drop_take, List.take_take, List.drop_drop]
  congr 1
  · have h : k * n + n ≤ N * n := by
      calc k * n + n = (k + 1) * n := by ring
        _ ≤ N * n := Nat.mul_le_mul_right _ hk
    omega
  · congr 1
    ring

theorem mapM_forall₂ {α β γ : Type} (f : α → Except Err β) (g : γ → β) {ks : List γ} {ss : List α}
    (h : List.Forall₂ (fun k s => f s = .ok (g k)) ks ss) : ss.mapM f = .ok (ks.map g) := by
  induction h with
  | nil => rfl
  | cons h _ ih => simp [List.mapM_cons, h, ih, bind, Except.bind, pure, Except.pure]

theorem mapM_ok_iff {α β : Type} (f : α → Except Err β) (ss : List α) (vs : List β) :
    ss.mapM f = .ok vs ↔ List.Forall₂ (fun s v => f s = .ok v) ss vs := by
  induction ss generalizing vs with
  | nil => simp [pure, Except.pure, eq_comm]
  | cons a ss ih =>
    simp only [List.mapM_cons, bind, Except.bind, pure, Except.pure]
    cases h : f a with
    | error e => simp [List.forall₂_cons_left_iff, h]
    | ok b =>
      cases h' : ss.mapM f with
      | error e =>
        simp only [List.forall₂_cons_left_iff, reduceCtorEq, false_iff, not_exists, not_and]
        rintro c l - h2
        rw [← ih, h'] at h2
        cases h2
      | ok l =>
        simp only [Except.ok.injEq, List.forall₂_cons_left_iff, h, ← ih, h']
        constructor
        · rintro rfl
          exact ⟨b, l, rfl, rfl, rfl⟩
        · rintro ⟨b', l', rfl, rfl, h4⟩
          rw [h4]

theorem mapM_range_ok {β : Type} (n : ℕ) (f : ℕ → Except Err β) (h : ∀ i, i < n → ∃ b, f i = .ok b) :
    ∃ l, (List.range n).mapM f = .ok l ∧ l.length = n ∧ ∀ i, i < n → ∃ b, f i = .ok b ∧ l[i]? = some b := by
  have key : ∀ ns : List ℕ, (∀ i ∈ ns, ∃ b, f i = .ok b) →
      ∃ l, ns.mapM f = .ok l ∧ l.length = ns.length ∧ ∀ (j i : ℕ), ns[j]? = some i → ∃ b, f i = .ok b ∧ l[j]? = some b := by
    intro ns
    induction ns with
    | nil => intro _; exact ⟨[], rfl, rfl, by simp⟩
    | cons a ns ih =>
      intro h
      obtain ⟨b, hb⟩ := h a (by simp)
      obtain ⟨l, hl, hlen, hget⟩ := ih fun i hi => h i (by simp [hi])
      refine ⟨b :: l, by simp [List.mapM_cons, hb, hl, bind, Except.bind, pure, Except.pure], by simp [hlen], ?_⟩
      intro j i hj
      cases j with
      | zero =>
        simp only [List.getElem?_cons_zero, Option.some.injEq] at hj ⊢
        subst hj
        exact ⟨b, hb, rfl⟩
      | succ j => exact hget j i (by simpa using hj)
  obtain ⟨l, hl, hlen, hget⟩ := key (List.range n) fun i hi => h i (by simpa using hi)
  exact ⟨l, hl, by simpa using hlen, fun i hi => hget i i (by simp [List.getElem?_range hi])⟩

theorem pyGetInt_ofNat {α : Type} (l : List α) (i : ℕ) : pyGetInt l (i : ℤ) = pyGet l i := by
  simp [pyGetInt]

theorem pyGet_some {α : Type} {l : List α} {i : ℕ} {a : α} (h : l[i]? = some a) : pyGet l i = .ok a := by
  simp [pyGet, h]

end Dolo
