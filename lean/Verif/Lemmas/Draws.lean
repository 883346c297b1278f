import Mathlib.Tactic.Ring
import Mathlib.Tactic.FieldSimp
import Verif.Model.Draws
import Verif.Lemmas.Distribution

/-!
# Helper lemmas on finite probability
-/

namespace Dolo

set_option linter.unusedSectionVars false

variable {K : Type} [Field K] {α β γ : Type}

/-- Expectation of a function of several values drawn one after the other, each with its own
expectation operator. -/
def seqE : List ((α → K) → K) → (List α → K) → K
  | [], F => F []
  | E :: Es, F => E fun x => seqE Es fun xs => F (x :: xs)

namespace Rand

theorem expect_eq_wsum (r : Rand K α) (f : α → K) : r.expect f = wsum r f := rfl

theorem expect_pure (a : α) (f : α → K) : (randPure a : Rand K α).expect f = f a := by
  simp [expect, randPure]

theorem expect_cons (p : K × α) (r : Rand K α) (f : α → K) :
    Rand.expect (p :: r) f = p.1 * f p.2 + Rand.expect r f := by
  simp [expect]

theorem expect_nil (f : α → K) : Rand.expect ([] : Rand K α) f = 0 := rfl

theorem expect_append (r s : Rand K α) (f : α → K) :
    Rand.expect (r ++ s) f = Rand.expect r f + Rand.expect s f := by
  simp [expect]

theorem expect_map (r : Rand K α) (g : α → β) (f : β → K) :
    Rand.expect (r.map fun wx => (wx.1, g wx.2)) f = r.expect fun x => f (g x) := by
  simp [expect, Function.comp_def]

theorem expect_scale (r : Rand K α) (c : K) (f : α → K) :
    Rand.expect (r.map fun wx => (c * wx.1, wx.2)) f = c * r.expect f := by
  induction r with
  | nil => simp [expect]
  | cons p r ih => rw [List.map_cons, expect_cons, expect_cons, ih]; ring

theorem expect_bind (r : Rand K α) (k : α → Rand K β) (f : β → K) :
    (randBind r k).expect f = r.expect fun x => (k x).expect f := by
  induction r with
  | nil => rfl
  | cons p r ih =>
    have h : randBind (p :: r) k
        = (k p.2).map (fun vy => (p.1 * vy.1, vy.2)) ++ randBind r k := by
      simp [randBind]
    rw [h, expect_append, ih, expect_cons, expect_scale]

theorem expect_add (r : Rand K α) (f g : α → K) :
    (r.expect fun x => f x + g x) = r.expect f + r.expect g := by
  induction r with
  | nil => simp [expect]
  | cons p r ih => rw [expect_cons, expect_cons, expect_cons, ih]; ring

theorem expect_zero (r : Rand K α) : (r.expect fun _ => 0) = 0 := by
  simp [expect]

theorem expect_mul (r : Rand K α) (c : K) (f : α → K) :
    (r.expect fun x => c * f x) = c * r.expect f := by
  induction r with
  | nil => simp [expect]
  | cons p r ih => rw [expect_cons, expect_cons, ih]; ring

theorem expect_congr (r : Rand K α) (f g : α → K) (h : ∀ p ∈ r, f p.2 = g p.2) :
    r.expect f = r.expect g := wsum_congr r f g h

theorem expect_swap (r : Rand K α) (s : Rand K β) (f : α → β → K) :
    (r.expect fun x => s.expect fun y => f x y) = s.expect fun y => r.expect fun x => f x y := by
  induction r with
  | nil => rw [expect_nil]; exact (expect_zero s).symm
  | cons p r ih =>
    simp only [expect_cons]
    rw [ih, expect_add, expect_mul]

end Rand

open Rand

theorem expect_randList (r : Rand K α) (n : ℕ) (F : List α → K) :
    (randList r n).expect F = seqE (List.replicate n r.expect) F := by
  induction n generalizing F with
  | zero => simp [randList, expect_pure, seqE]
  | succ n ih =>
    simp only [randList, expect_bind, expect_pure, List.replicate_succ, seqE, ih]

/-- the random value behind `seqE` -/
def seqR : List (Rand K α) → Rand K (List α)
  | [] => randPure []
  | r :: rs => randBind r fun x => (seqR rs).map fun wx => (wx.1, x :: wx.2)

theorem seqE_eq (rs : List (Rand K α)) (F : List α → K) :
    seqE (rs.map Rand.expect) F = (seqR rs).expect F := by
  induction rs generalizing F with
  | nil => simp [seqE, seqR, expect_pure]
  | cons r rs ih =>
    simp only [List.map_cons, seqE, seqR, expect_bind, ih]
    congr 1
    funext x
    rw [expect_map]

/-- Rows made of independent parts: drawing all first parts, then all second parts, is drawing the
rows one after the other. -/
theorem seqE_zip (h : α → β → γ) (rs : List (Rand K α)) (ss : List (Rand K β))
    (hl : rs.length = ss.length) (F : List γ → K) :
    seqE (rs.map Rand.expect) (fun A => seqE (ss.map Rand.expect) fun B => F (List.zipWith h A B))
      = seqE (List.zipWith (fun (r : Rand K α) (s : Rand K β) (f : γ → K) =>
          r.expect fun x => s.expect fun y => f (h x y)) rs ss) F := by
  induction rs generalizing ss F with
  | nil =>
    cases ss with
    | nil => rfl
    | cons s ss => simp at hl
  | cons r rs ih =>
    cases ss with
    | nil => simp at hl
    | cons s ss =>
      simp only [List.map_cons, seqE, List.zipWith_cons_cons]
      congr 1
      funext x
      have e : ∀ F' : List α → K, seqE (rs.map Rand.expect) F' = (seqR rs).expect F' :=
        fun F' => seqE_eq rs F'
      rw [e, expect_swap]
      congr 1
      funext y
      rw [← e]
      exact ih ss (by simpa using hl) fun zs => F (h x y :: zs)

/-- Drawing all first values, then values that depend on them, is drawing them one after the other. -/
theorem seqE_bind (r : Rand K α) (k : α → Rand K β) (n : ℕ) (F : List β → K) :
    (seqE (List.replicate n r.expect) fun A => seqE (A.map fun a => (k a).expect) F)
      = seqE (List.replicate n fun f => r.expect fun a => (k a).expect f) F := by
  induction n generalizing F with
  | zero => rfl
  | succ n ih =>
    simp only [List.replicate_succ, seqE, List.map_cons]
    congr 1
    funext a
    have e : ∀ F' : List α → K, seqE (List.replicate n r.expect) F' = (randList r n).expect F' :=
      fun F' => (expect_randList r n F').symm
    rw [e, expect_swap]
    congr 1
    funext y
    rw [← e]
    exact ih fun ys => F (y :: ys)

/-- Independent values: the expectation of a product of functions of each. -/
theorem seqE_prod (rs : List (Rand K α)) (gs : List (α → K)) (hl : gs.length = rs.length) :
    seqE (rs.map Rand.expect) (fun xs => (List.zipWith (fun g x => g x) gs xs).prod)
      = (List.zipWith (fun (g : α → K) (r : Rand K α) => r.expect g) gs rs).prod := by
  induction rs generalizing gs with
  | nil =>
    cases gs with
    | nil => simp [seqE]
    | cons g gs => simp at hl
  | cons r rs ih =>
    cases gs with
    | nil => simp at hl
    | cons g gs =>
      simp only [List.map_cons, seqE, List.zipWith_cons_cons, List.prod_cons]
      have e := ih gs (by simpa using hl)
      rw [seqE_eq] at e
      have e2 : ∀ x : α, seqE (rs.map Rand.expect)
          (fun xs => g x * (List.zipWith (fun g x => g x) gs xs).prod)
          = g x * (List.zipWith (fun (g : α → K) (r : Rand K α) => r.expect g) gs rs).prod := by
        intro x
        rw [seqE_eq, expect_mul, e]
      simp only [e2]
      rw [show (fun x => g x * (List.zipWith (fun (g : α → K) (r : Rand K α) => r.expect g) gs rs).prod)
        = fun x => (List.zipWith (fun (g : α → K) (r : Rand K α) => r.expect g) gs rs).prod * g x from
        funext fun x => mul_comm _ _, expect_mul, mul_comm]

theorem randMapM_ok {g : α → Except Err β} {h : α → β} (r : Rand K α)
    (hg : ∀ p ∈ r, g p.2 = .ok (h p.2)) :
    randMapM g r = .ok (r.map fun wx => (wx.1, h wx.2)) := by
  unfold randMapM
  refine mapM_except_ok _ _ r fun p hp => ?_
  rw [hg p hp]
  rfl

theorem mem_randList (r : Rand K α) (n : ℕ) (p : K × List α) (hp : p ∈ randList r n) :
    p.2.length = n ∧ ∀ x ∈ p.2, ∃ w, (w, x) ∈ r := by
  induction n generalizing p with
  | zero => simp [randList, randPure] at hp; subst hp; simp
  | succ n ih =>
    simp only [randList, randBind, randPure, List.mem_flatMap, List.mem_map] at hp
    obtain ⟨a, ha, b, ⟨c, hc, e, he, hb⟩, hp⟩ := hp
    obtain ⟨d, hd, hb⟩ : ∃ d, d = e ∧ b = (c.1 * d.1, d.2) := ⟨e, rfl, hb.symm⟩
    simp only [List.mem_singleton] at he
    subst hd
    subst he
    subst hp
    obtain ⟨h1, h2⟩ := ih c hc
    subst hb
    refine ⟨by simp [h1], fun x hx => ?_⟩
    rcases List.mem_cons.1 hx with rfl | hx
    · exact ⟨a.1, ha⟩
    · exact h2 x hx

theorem randList_map (r : Rand K α) (g : α → β) (n : ℕ) (F : List β → K) :
    (randList r n).expect (fun xs => F (xs.map g))
      = seqE (List.replicate n (Rand.expect (r.map fun wx => (wx.1, g wx.2)))) F := by
  rw [← expect_randList]
  induction n generalizing F with
  | zero => simp [randList, expect_pure]
  | succ n ih =>
    simp only [randList, expect_bind, expect_pure, List.map_cons]
    rw [expect_map]
    congr 1
    funext x
    exact ih fun ys => F (g x :: ys)

end Dolo
