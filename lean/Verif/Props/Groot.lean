import Mathlib.Tactic.Use
import Mathlib.Order.Nat
import Mathlib.Tactic.Common
import Verif.Model.Groot

/-!
# C53: groot
-/

set_option linter.unusedSectionVars false

namespace Dolo

/-- The directory contains a file named `README` or `README.md`. -/
def IsProject (fs : FileSys) (d : Dir) : Prop :=
  ∃ l, fs.listdir d = .ok l ∧ ("README.md" ∈ l ∨ "README" ∈ l)

/-- `d` is the nearest ancestor of `cwd` (or `cwd` itself) that is a project: `k` levels up. -/
def NearestProject (fs : FileSys) (cwd d : Dir) : Prop :=
  ∃ k, k ≤ cwd.length ∧ d = cwd.drop k ∧ IsProject fs d ∧ ∀ j < k, ¬ IsProject fs (cwd.drop j)

theorem checkFilelist_iff (l : List String) :
    checkFilelist l = true ↔ "README.md" ∈ l ∨ "README" ∈ l := by
  simp [checkFilelist]

theorem tail_eq_self (d : Dir) : d.tail = d ↔ d = [] := by
  cases d with
  | nil => simp
  | cons a d =>
    simp only [List.tail_cons, reduceCtorEq, iff_false]
    intro h
    have := congrArg List.length h
    simp at this

theorem drop_succ_eq (d : Dir) (j : ℕ) : d.tail.drop j = d.drop (j + 1) := by
  cases d <;> simp

/-- What the loop does, when the directories on the way can be listed. -/
theorem grootLoop_spec (fs : FileSys) (init : Dir) (cwd : Dir) (fuel : ℕ)
    (hfuel : cwd.length < fuel) (hlist : ∀ j ≤ cwd.length, ∃ l, fs.listdir (cwd.drop j) = .ok l) :
    (∃ d, NearestProject fs cwd d ∧
      ((∃ t, fs.enter d = .ok t ∧ grootLoop fs init fuel cwd = some (.ok (), t)) ∨
       (∃ e, fs.enter d = .error e ∧ grootLoop fs init fuel cwd = some (.error e, d)))) ∨
    ((∀ j ≤ cwd.length, ¬ IsProject fs (cwd.drop j)) ∧
      grootLoop fs init fuel cwd =
        some (.error (.exception "Root directory not found."), init)) := by
  induction cwd generalizing fuel with
  | nil =>
    rcases fuel with _ | fuel
    · simp at hfuel
    · obtain ⟨l, hl⟩ := hlist 0 (Nat.le_refl _)
      simp only [List.drop_nil] at hl
      by_cases hc : checkFilelist l = true
      · left
        refine ⟨[], ⟨0, Nat.le_refl _, rfl, ⟨l, hl, (checkFilelist_iff l).1 hc⟩, by simp⟩, ?_⟩
        rcases he : fs.enter [] with e | t
        · exact Or.inr ⟨e, rfl, by simp [grootLoop, hl, hc, he]⟩
        · exact Or.inl ⟨t, rfl, by simp [grootLoop, hl, hc, he]⟩
      · right
        constructor
        · intro j hj
          rw [List.drop_nil]
          rintro ⟨l', hl', h⟩
          rw [hl] at hl'
          cases hl'
          exact hc ((checkFilelist_iff l).2 h)
        · simp [grootLoop, hl, hc]
  | cons a cwd ih =>
    rcases fuel with _ | fuel
    · simp at hfuel
    · obtain ⟨l, hl⟩ := hlist 0 (Nat.zero_le _)
      rw [List.drop_zero] at hl
      by_cases hc : checkFilelist l = true
      · left
        refine ⟨a :: cwd, ⟨0, Nat.zero_le _, rfl, ⟨l, hl, (checkFilelist_iff l).1 hc⟩, by simp⟩, ?_⟩
        rcases he : fs.enter (a :: cwd) with e | t
        · exact Or.inr ⟨e, rfl, by simp [grootLoop, hl, hc, he]⟩
        · exact Or.inl ⟨t, rfl, by simp [grootLoop, hl, hc, he]⟩
      · have hstep : grootLoop fs init (fuel + 1) (a :: cwd) = grootLoop fs init fuel cwd := by
          have hne : ¬ cwd = a :: cwd := by
            intro h
            have := congrArg List.length h
            simp at this
          simp [grootLoop, hl, hc, hne]
        have hnp : ¬ IsProject fs (a :: cwd) := by
          rintro ⟨l', hl', h⟩
          rw [hl] at hl'
          cases hl'
          exact hc ((checkFilelist_iff l).2 h)
        have hi := ih fuel (by simpa using hfuel) (fun j hj => by
          have := hlist (j + 1) (by simpa using hj)
          simpa using this)
        rw [hstep]
        rcases hi with ⟨d, ⟨k, hk, hd, hp, hb⟩, h⟩ | ⟨h1, h2⟩
        · left
          refine ⟨d, ⟨k + 1, by simpa using hk, by simpa using hd, hp, ?_⟩, h⟩
          intro j hj
          rcases j with _ | j
          · simpa using hnp
          · simpa using hb j (by omega)
        · right
          refine ⟨?_, h2⟩
          intro j hj
          rcases j with _ | j
          · simpa using hnp
          · simpa using h1 j (by simpa using hj)

/-- **C53** (partial: when the directories can be listed and the given path exists below the
project).  `groot` ends within one turn per component of the working directory plus one; it ends in
the nearest ancestor that contains a README, joined with the given path, or, if there is none,
raises with the working directory unchanged. -/
theorem C53_groot_partial (fs : FileSys) (cwd : Dir) (fuel : ℕ) (hfuel : cwd.length < fuel)
    (hlist : ∀ j ≤ cwd.length, ∃ l, fs.listdir (cwd.drop j) = .ok l)
    (henter : ∀ d, IsProject fs d → ∃ t, fs.enter d = .ok t) :
    (∃ d t, NearestProject fs cwd d ∧ fs.enter d = .ok t ∧
      groot fs fuel cwd = some (.ok (), t)) ∨
    ((∀ j ≤ cwd.length, ¬ IsProject fs (cwd.drop j)) ∧
      groot fs fuel cwd = some (.error (.exception "Root directory not found."), cwd)) := by
  rcases grootLoop_spec fs cwd cwd fuel hfuel hlist with ⟨d, hd, h⟩ | h
  · left
    rcases h with ⟨t, h1, h2⟩ | ⟨e, h1, -⟩
    · exact ⟨d, t, hd, h1, h2⟩
    · obtain ⟨k, -, -, hp, -⟩ := hd
      obtain ⟨t, ht⟩ := henter d hp
      rw [ht] at h1; cases h1
  · exact Or.inr h

/-- **C53** (the nearest project is unique).  The answer does not depend on a choice. -/
theorem C53_nearest_unique (fs : FileSys) (cwd d d' : Dir) (h : NearestProject fs cwd d)
    (h' : NearestProject fs cwd d') : d = d' := by
  obtain ⟨k, -, rfl, hp, hb⟩ := h
  obtain ⟨k', -, rfl, hp', hb'⟩ := h'
  rcases Nat.lt_trichotomy k k' with hlt | rfl | hlt
  · exact absurd hp (hb' k hlt)
  · rfl
  · exact absurd hp' (hb k' hlt)

/-- **C53 fails when the given path does not exist**: `groot` raises, and the working directory
has moved to the project. -/
theorem C53_missing_path_fails (fs : FileSys) (cwd d : Dir) (fuel : ℕ) (hfuel : cwd.length < fuel)
    (hlist : ∀ j ≤ cwd.length, ∃ l, fs.listdir (cwd.drop j) = .ok l)
    (hd : NearestProject fs cwd d) (e : Err) (he : fs.enter d = .error e) :
    groot fs fuel cwd = some (.error e, d) := by
  rcases grootLoop_spec fs cwd cwd fuel hfuel hlist with ⟨d', hd', h⟩ | ⟨h, -⟩
  · rw [← C53_nearest_unique fs cwd d d' hd hd'] at h
    rcases h with ⟨t, h1, -⟩ | ⟨e', h1, h2⟩
    · rw [he] at h1; cases h1
    · rw [he] at h1; cases h1; exact h2
  · obtain ⟨k, hk, rfl, hp, -⟩ := hd
    exact absurd hp (h k hk)

/-- A tree with a project `/home/proj` that has a directory `examples`. -/
def demoFs (path : String) : FileSys where
  listdir := fun d => if d = ["proj", "home"] then .ok ["README.md", "examples"] else .ok ["x"]
  enter := fun d =>
    if path = "" then .ok d else if path = "examples" then .ok ("examples" :: d)
    else .error (.exception "FileNotFoundError")

/-- Non-vacuity: called two levels below the project; called outside; with a missing path. -/
example : groot (demoFs "examples") 9 ["b", "a", "proj", "home"] =
      some (.ok (), ["examples", "proj", "home"]) ∧
    groot (demoFs "examples") 9 ["b", "home"] =
      some (.error (.exception "Root directory not found."), ["b", "home"]) ∧
    groot (demoFs "nothing") 9 ["b", "a", "proj", "home"] =
      some (.error (.exception "FileNotFoundError"), ["proj", "home"]) := by decide +kernel

end Dolo
