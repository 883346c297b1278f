import Mathlib.Tactic.Use
import Verif.Model.Caching

/-!
# C50, C51, C92: caches
-/

set_option linter.unusedSectionVars false

namespace Dolo

variable {R : Type}

/-! ## C50: memoized -/

theorem memoRun_append (H : Hasher) (func : Call → Except Err R) (cache : List (ℤ × R))
    (l1 l2 : List Call) :
    memoRun H func cache (l1 ++ l2) = memoRun H func (memoRun H func cache l1) l2 := by
  induction l1 generalizing cache with
  | nil => rfl
  | cons c l1 ih => exact ih _

/-- Every entry of the cache comes from a call of the history. -/
theorem memoRun_entry (H : Hasher) (func : Call → Except Err R) (hist : List Call)
    (cache : List (ℤ × R)) (h : ℤ) (v : R)
    (hl : (memoRun H func cache hist).lookup h = some v) :
    cache.lookup h = some v ∨ ∃ c ∈ hist, callHash H c = .ok h ∧ func c = .ok v := by
  induction hist generalizing cache with
  | nil => exact Or.inl hl
  | cons c cs ih =>
    rcases ih _ hl with h1 | ⟨c', hc', h2⟩
    · unfold memoCall at h1
      rcases hh : callHash H c with e | h'
      · rw [hh] at h1; exact Or.inl h1
      · rw [hh] at h1
        simp only at h1
        rcases hlk : cache.lookup h' with _ | w
        · rw [hlk] at h1
          simp only at h1
          rcases hf : func c with e | w
          · rw [hf] at h1; exact Or.inl h1
          · rw [hf] at h1
            simp only [List.lookup_cons] at h1
            by_cases he : h = h'
            · subst he
              simp only [beq_self_eq_true] at h1
              cases h1
              exact Or.inr ⟨c, List.mem_cons_self, hh, hf⟩
            · rw [beq_false_of_ne he] at h1
              exact Or.inl h1
        · rw [hlk] at h1; exact Or.inl h1
    · exact Or.inr ⟨c', List.mem_cons_of_mem _ hc', h2⟩

/-- Entries are never replaced. -/
theorem memoRun_keep (H : Hasher) (func : Call → Except Err R) (hist : List Call)
    (cache : List (ℤ × R)) (h : ℤ) (v : R) (hl : cache.lookup h = some v) :
    (memoRun H func cache hist).lookup h = some v := by
  induction hist generalizing cache with
  | nil => exact hl
  | cons c cs ih =>
    apply ih
    unfold memoCall
    rcases hh : callHash H c with e | h'
    · exact hl
    · simp only
      rcases hlk : cache.lookup h' with _ | w
      · simp only
        rcases hf : func c with e | w
        · exact hl
        · simp only [List.lookup_cons]
          have he : h ≠ h' := by
            rintro rfl
            rw [hl] at hlk; cases hlk
          rw [beq_false_of_ne he]
          exact hl
      · exact hl

/-- **C50** (partial).  After any history of calls, a call whose arguments can be hashed returns
(or raises) exactly what the function does, provided that no earlier call with the same hash
has another outcome. -/
theorem C50_returns_value_partial (H : Hasher) (func : Call → Except Err R) (hist : List Call)
    (c : Call) (h : ℤ) (hh : callHash H c = .ok h)
    (hcol : ∀ c' ∈ hist, callHash H c' = .ok h → func c' = func c) :
    (memoCall H func (memoRun H func [] hist) c).1 = func c := by
  unfold memoCall
  rw [hh]
  simp only
  rcases hl : (memoRun H func [] hist).lookup h with _ | v
  · simp only
    rcases func c with e | v <;> rfl
  · simp only
    rcases memoRun_entry H func hist [] h v hl with h1 | ⟨c', hc', h1, h2⟩
    · simp at h1
    · rw [← hcol c' hc' h1, h2]

/-- **C50** (evaluated once).  Once a call has returned, the same call returns the same value
after any further history, and the function is not called again. -/
theorem C50_evaluated_once (H : Hasher) (func : Call → Except Err R) (hist hist' : List Call)
    (c : Call) (v : R) (hv : (memoCall H func (memoRun H func [] hist) c).1 = .ok v) :
    let r := memoCall H func (memoRun H func [] (hist ++ [c] ++ hist')) c
    r.1 = .ok v ∧ r.2.2 = [] := by
  have hstep : ∃ h, callHash H c = .ok h ∧
      (memoRun H func [] (hist ++ [c])).lookup h = some v := by
    rw [memoRun_append]
    change ∃ h, callHash H c = .ok h ∧
      (memoCall H func (memoRun H func [] hist) c).2.1.lookup h = some v
    unfold memoCall at hv ⊢
    rcases hh : callHash H c with e | h
    · rw [hh] at hv; cases hv
    · rw [hh] at hv
      refine ⟨h, rfl, ?_⟩
      simp only at hv ⊢
      rcases hl : (memoRun H func [] hist).lookup h with _ | w
      · rw [hl] at hv
        simp only at hv ⊢
        rcases hf : func c with e | w
        · rw [hf] at hv; cases hv
        · rw [hf] at hv
          cases hv
          simp
      · rw [hl] at hv
        cases hv
        exact hl
  obtain ⟨h, hh, hl⟩ := hstep
  have hk := memoRun_keep H func hist' _ h v hl
  rw [← memoRun_append] at hk
  intro r
  have : r = (.ok v, memoRun H func [] (hist ++ [c] ++ hist'), []) := by
    change memoCall H func (memoRun H func [] (hist ++ [c] ++ hist')) c = _
    unfold memoCall
    rw [hh]
    simp only [hk]
  rw [this]
  exact ⟨rfl, rfl⟩

/-- A call with one positional argument. -/
def call1 (v : PyVal) : Call := ⟨[v], [], []⟩

/-- Two arguments are confused when their hashes agree. -/
theorem memo_confused (H : Hasher) (func : Call → Except Err R) (a b : PyVal) (h : ℤ)
    (ha : callHash H (call1 a) = .ok h) (hb : callHash H (call1 b) = .ok h) (v : R)
    (hv : func (call1 a) = .ok v) :
    (memoCall H func (memoRun H func [] [call1 a]) (call1 b)).1 = .ok v := by
  have h1 : memoRun H func [] [call1 a] = [(h, v)] := by
    change (memoCall H func [] (call1 a)).2.1 = _
    unfold memoCall
    rw [ha]
    simp only [List.lookup_nil, hv]
  rw [h1]
  unfold memoCall
  rw [hb]
  simp

theorem hash_ints (H : Hasher) (d : List ℤ) :
    pyHashes H (d.map HVal.int) = .ok (d.map pyHashInt) := by
  induction d with
  | nil => rfl
  | cons n d ih =>
    simp only [List.map_cons, pyHashes, ih, pyHash]
    rfl

theorem callHash_arr (H : Hasher) (s : List ℕ) (d : List ℤ) :
    callHash H (call1 (.arr s d)) =
      .ok (H.tuple [H.tuple [H.tuple (d.map pyHashInt)], H.frozen [] []]) := by
  simp only [callHash, call1, hashables, hashable, pyHash, pyHashes, hash_ints]
  rfl

/-- **C50 fails.**  Whatever the function, and however Python combines hashes: once a memoised
function has been called with `-1`, calling it with `-2` returns the value for `-1`; and once it
has been called with an array, calling it with an array of another shape but the same
entries returns the value for the first. -/
theorem C50_collisions_fails (H : Hasher) (func : Call → Except Err R) (v : R) :
    (func (call1 (.int (-1))) = .ok v →
      (memoCall H func (memoRun H func [] [call1 (.int (-1))]) (call1 (.int (-2)))).1 = .ok v) ∧
    (∀ s s' d, func (call1 (.arr s d)) = .ok v →
      (memoCall H func (memoRun H func [] [call1 (.arr s d)]) (call1 (.arr s' d))).1 = .ok v) := by
  constructor
  · intro hv
    exact memo_confused H func _ _ (H.tuple [H.tuple [-2], H.frozen [] []]) rfl rfl v hv
  · intro s s' d hv
    exact memo_confused H func _ _ _ (callHash_arr H s d) (callHash_arr H s' d) v hv

/-- **C50 fails for tuples that contain an array, a list or a dict**: the memoised function raises
`TypeError`, whatever the function does; the fallback of lines 26-29 is never reached. -/
theorem C50_unhashable_fails (H : Hasher) (func : Call → Except Err R) (hist : List Call)
    (v : PyVal) (hv : (∃ s d, v = .arr s d) ∨ (∃ l, v = .list l) ∨ (∃ ks vs, v = .dict ks vs)) :
    (memoCall H func (memoRun H func [] hist) (call1 (.tuple [v]))).1 = .error .typeError := by
  have : callHash H (call1 (.tuple [v])) = .error .typeError := by
    rcases hv with ⟨s, d, rfl⟩ | ⟨l, rfl⟩ | ⟨ks, vs, rfl⟩ <;> rfl
  unfold memoCall
  rw [this]

/-- A hasher and a function for the witnesses: the function returns the number of rows. -/
def demoHasher : Hasher where
  str := fun s => s.length
  tuple := fun l => l.foldl (fun a b => 31 * a + b + 7) 1
  frozen := fun ks l => ks.length + l.foldl (fun a b => a + b) 3

/-- The number of rows of the first argument. -/
def demoRows (c : Call) : Except Err ℕ :=
  match c.args with
  | [.arr (r :: _) _] => .ok r
  | _ => .error .typeError

/-- Non-vacuity: with different entries the values are right, with another shape they are not. -/
example : (memoCall demoHasher demoRows (memoRun demoHasher demoRows []
      [call1 (.arr [2, 3] [1, 2, 3, 4, 5, 6])]) (call1 (.arr [3, 2] [1, 2, 3, 4, 5, 7]))).1 =
        .ok 3 ∧
    (memoCall demoHasher demoRows (memoRun demoHasher demoRows []
      [call1 (.arr [2, 3] [1, 2, 3, 4, 5, 6])]) (call1 (.arr [3, 2] [1, 2, 3, 4, 5, 6]))).1 =
        .ok 2 := ⟨rfl, rfl⟩

/-! ## C51, C92: cachedondisk -/

/-- What is assumed of `pickle`: complete pickles are read back; a truncated one raises
`EOFError` (or `UnpicklingError`), neither an `IOError` nor a `TypeError`. -/
structure Pickle.Good (P : Pickle R) : Prop where
  round_trip : ∀ v, P.load (P.dumps v) = .ok v
  truncated : ∀ v n, n < (P.dumps v).length → P.load ((P.dumps v).take n) = .error .eofError

/-- A file that exists is never changed by a call. -/
theorem diskCall_keep (H : Hasher) (P : Pickle R) (fname : String)
    (func : Call → Except Err (Option R)) (d : DiskCache) (c : Call) (k : String × ℤ)
    (b : List UInt8) (hb : diskGet d k = some b) :
    diskGet (diskCall H P fname func d c).2 k = some b := by
  unfold diskCall
  rcases hh : callHash H c with e | h
  · exact hb
  · simp only
    rcases hg : diskGet d (fname, h) with _ | b'
    · simp only
      rcases hf : func c with e | _ | v
      · exact hb
      · exact hb
      · have hne : k ≠ (fname, h) := by
          rintro rfl
          rw [hb] at hg; cases hg
        simp only [diskPut, diskGet, List.lookup_cons]
        rw [beq_false_of_ne hne]
        exact hb
    · simp only
      split <;> exact hb

theorem diskRun_keep (H : Hasher) (P : Pickle R)
    (hist : List (String × (Call → Except Err (Option R)) × Call)) (d : DiskCache)
    (k : String × ℤ) (b : List UInt8) (hb : diskGet d k = some b) :
    diskGet (diskRun H P d hist) k = some b := by
  induction hist generalizing d with
  | nil => exact hb
  | cons x hist ih =>
    obtain ⟨n, f, c⟩ := x
    exact ih _ (diskCall_keep H P n f d c k b hb)

/-- **C51 fails.**  If the process stops anywhere between opening the file for writing and the
last byte, then from then on, whatever is called in between, the same call raises `EOFError`
and never returns the function's value. -/
theorem C51_crash_fails (H : Hasher) (P : Pickle R) (hP : P.Good) (fname : String)
    (func : Call → Except Err (Option R)) (d : DiskCache) (c : Call) (h : ℤ)
    (hh : callHash H c = .ok h) (v : R) (n : ℕ) (hn : n < (P.dumps v).length)
    (hist : List (String × (Call → Except Err (Option R)) × Call)) :
    (diskCall H P fname func (diskRun H P (diskDuring P d (fname, h) v (some n)) hist) c).1 =
      .error .eofError := by
  have h0 : diskGet (diskDuring P d (fname, h) v (some n)) (fname, h) =
      some ((P.dumps v).take n) := by
    simp [diskDuring, diskPut, diskGet]
  have h1 := diskRun_keep H P hist _ _ _ h0
  unfold diskCall
  rw [hh]
  simp only [h1, hP.truncated v n hn]

/-- All files of the cache are complete and hold the value of every function (from a list of
functions with their names) for every call with that hash. -/
def DiskSound (H : Hasher) (P : Pickle R) (fs : List (String × (Call → Except Err (Option R))))
    (d : DiskCache) : Prop :=
  ∀ n h b, diskGet d (n, h) = some b → ∃ v, b = P.dumps v ∧
    ∀ f, (n, f) ∈ fs → ∀ c, callHash H c = .ok h → f c = .ok (some v)

/-- No two calls (of functions with the same name) with the same hash have different outcomes. -/
def NoCollision (H : Hasher) (fs : List (String × (Call → Except Err (Option R)))) : Prop :=
  ∀ n f g, (n, f) ∈ fs → (n, g) ∈ fs → ∀ c c' h, callHash H c = .ok h → callHash H c' = .ok h →
    f c = g c'

theorem diskCall_sound (H : Hasher) (P : Pickle R) (hP : P.Good)
    (fs : List (String × (Call → Except Err (Option R))))
    (n : String) (f : Call → Except Err (Option R)) (hm : (n, f) ∈ fs) (d : DiskCache)
    (hd : DiskSound H P fs d) (c : Call) (h : ℤ) (hh : callHash H c = .ok h) :
    (diskCall H P n f d c).1 = f c := by
  unfold diskCall
  rw [hh]
  simp only
  rcases hg : diskGet d (n, h) with _ | b
  · simp only
    rcases f c with e | _ | v <;> rfl
  · obtain ⟨v, rfl, hv⟩ := hd n h b hg
    simp only [hP.round_trip, hv f hm c hh]

theorem diskCall_sound_next (H : Hasher) (P : Pickle R)
    (fs : List (String × (Call → Except Err (Option R)))) (hf : NoCollision H fs)
    (n : String) (f : Call → Except Err (Option R)) (hm : (n, f) ∈ fs) (d : DiskCache)
    (hd : DiskSound H P fs d) (c : Call) : DiskSound H P fs (diskCall H P n f d c).2 := by
  unfold diskCall
  rcases hh : callHash H c with e | h
  · exact hd
  · simp only
    rcases hg : diskGet d (n, h) with _ | b
    · simp only
      rcases hfc : f c with e | _ | v
      · exact hd
      · exact hd
      · intro n' h' b' hb'
        simp only [diskPut, diskGet, List.lookup_cons] at hb'
        by_cases he : (n', h') = (n, h)
        · obtain ⟨rfl, rfl⟩ := Prod.mk.inj he
          rw [show (((n', h') == (n', h')) = true) by simp] at hb'
          cases hb'
          refine ⟨v, rfl, ?_⟩
          intro g hg' c' hc'
          rw [hf n' g f hg' hm c' c h' hc' hh, hfc]
        · rw [beq_false_of_ne he] at hb'
          exact hd n' h' b' hb'
    · simp only
      split <;> exact hd

/-- **C92** (partial).  Starting from an empty cache, after any history of calls of functions
cached on disk, without crash, a call returns what the function returns, provided that
functions with the same name never differ on calls with the same hash. -/
theorem C92_returns_value_partial (H : Hasher) (P : Pickle R) (hP : P.Good)
    (fs : List (String × (Call → Except Err (Option R)))) (hf : NoCollision H fs)
    (hist : List (String × (Call → Except Err (Option R)) × Call))
    (hhist : ∀ x ∈ hist, (x.1, x.2.1) ∈ fs) (n : String) (f : Call → Except Err (Option R))
    (hm : (n, f) ∈ fs) (c : Call) (h : ℤ) (hh : callHash H c = .ok h) :
    (diskCall H P n f (diskRun H P [] hist) c).1 = f c := by
  have key : ∀ (hist : List (String × (Call → Except Err (Option R)) × Call)) (d : DiskCache),
      (∀ x ∈ hist, (x.1, x.2.1) ∈ fs) → DiskSound H P fs d →
      DiskSound H P fs (diskRun H P d hist) := by
    intro hist
    induction hist with
    | nil => intro d _ hd; exact hd
    | cons x hist ih =>
      intro d hx hd
      obtain ⟨n, f, c⟩ := x
      exact ih _ (fun y hy => hx y (List.mem_cons_of_mem _ hy))
        (diskCall_sound_next H P fs hf n f (hx _ List.mem_cons_self) d hd c)
  exact diskCall_sound H P hP fs n f hm _
    (key hist [] hhist (by intro n h b hb; simp [diskGet] at hb)) c h hh

/-- **C51** (partial).  If the process stops before the file is opened, or after its last byte
was written, later calls return the function's value. -/
theorem C51_other_points_partial (H : Hasher) (P : Pickle R) (hP : P.Good)
    (fs : List (String × (Call → Except Err (Option R)))) (hf : NoCollision H fs)
    (n : String) (f : Call → Except Err (Option R)) (hm : (n, f) ∈ fs) (d : DiskCache)
    (hd : DiskSound H P fs d) (c0 c : Call) (h0 h : ℤ) (hh0 : callHash H c0 = .ok h0)
    (hh : callHash H c = .ok h) (v : R) (hv : f c0 = .ok (some v)) (pt : Option ℕ)
    (hpt : ∀ k, pt = some k → (P.dumps v).length ≤ k) :
    (diskCall H P n f (diskDuring P d (n, h0) v pt) c).1 = f c := by
  apply diskCall_sound H P hP fs n f hm _ _ c h hh
  rcases pt with _ | k
  · exact hd
  · intro n' h' b' hb'
    simp only [diskDuring, diskPut, diskGet, List.lookup_cons] at hb'
    by_cases he : (n', h') = (n, h0)
    · obtain ⟨rfl, rfl⟩ := Prod.mk.inj he
      rw [show (((n', h') == (n', h')) = true) by simp] at hb'
      rw [List.take_of_length_le (hpt k rfl)] at hb'
      cases hb'
      refine ⟨v, rfl, ?_⟩
      intro g hg' c' hc'
      rw [hf n' g f hg' hm c' c0 h' hc' hh0, hv]
    · rw [beq_false_of_ne he] at hb'
      exact hd n' h' b' hb'

/-- **C92 fails for functions with the same name**: files are named after `__name__` only, so
that the second function returns what the first one stored, whatever it would compute. -/
theorem C92_same_name_fails (H : Hasher) (P : Pickle R) (hP : P.Good) (name : String)
    (f g : Call → Except Err (Option R)) (c : Call) (h : ℤ) (hh : callHash H c = .ok h) (v : R)
    (hf : f c = .ok (some v)) :
    (diskCall H P name g (diskRun H P [] [(name, f, c)]) c).1 = .ok (some v) := by
  have h1 : diskRun H P [] [(name, f, c)] = [((name, h), P.dumps v)] := by
    change (diskCall H P name f [] c).2 = _
    unfold diskCall
    rw [hh]
    simp only [diskGet, List.lookup_nil, hf]
    rfl
  rw [h1]
  unfold diskCall
  rw [hh]
  simp [diskGet, hP.round_trip]

/-- A pickle for the witnesses: unary numbers with an end mark. -/
def demoPickle : Pickle ℕ where
  dumps := fun n => List.replicate n 1 ++ [0]
  load := fun b => if 0 ∈ b then .ok (b.takeWhile (· = 1)).length else .error .eofError

theorem demoPickle_good : demoPickle.Good where
  round_trip := by
    intro n
    simp only [demoPickle]
    rw [if_pos (by simp)]
    congr 1
    induction n with
    | zero => rfl
    | succ n ih =>
      rw [List.replicate_succ, List.cons_append, List.takeWhile_cons_of_pos (by simp)]
      simp
  truncated := by
    intro v n hn
    simp only [demoPickle, List.length_append, List.length_replicate, List.length_cons,
      List.length_nil] at hn ⊢
    rw [if_neg]
    rw [List.take_append_of_le_length (by simp; omega)]
    intro hh
    have := List.mem_of_mem_take hh
    rw [List.mem_replicate] at this
    exact absurd this.2 (by decide)

/-- Non-vacuity: a crash after the second byte. -/
example : (diskCall demoHasher demoPickle "f" (fun _ => .ok (some 5))
      (diskDuring demoPickle [] ("f", 0) 5 none) (call1 (.int 3))).1 = .ok (some 5) ∧
    (∃ h, callHash demoHasher (call1 (.int 3)) = .ok h ∧
      (diskCall demoHasher demoPickle "f" (fun _ => .ok (some 5))
        (diskDuring demoPickle [] ("f", h) 5 (some 2)) (call1 (.int 3))).1 = .error .eofError) :=
  ⟨rfl, _, rfl, rfl⟩

end Dolo
