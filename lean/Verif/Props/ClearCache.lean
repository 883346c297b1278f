import Mathlib.Data.List.Infix
import Verif.Model.ClearCache
import Verif.Props.Caching

/-!
# C138: `clear_cache` forgets the values of one function, and only those
-/

set_option linter.unusedSectionVars false

namespace Dolo

variable {R : Type}

/-- A name that Python accepts for a function (ASCII) and that means nothing to the shell. -/
def IdentName (s : String) : Prop := s ≠ "" ∧ ∀ c ∈ s.toList, c.isAlphanum = true ∨ c = '_'

private theorem IdentName.char {s : String} (h : IdentName s) {c : Char} (hc : c ∈ s.toList) :
    c ≠ '.' ∧ c ≠ '*' ∧ c ≠ '?' ∧ c ≠ '<' := by
  rcases h.2 c hc with h | rfl
  · refine ⟨?_, ?_, ?_, ?_⟩ <;> (rintro rfl; exact absurd h (by decide))
  · decide

private theorem globMatch_literal (l : List Char) (h : ∀ c ∈ l, c ≠ '*' ∧ c ≠ '?') (p s : List Char) :
    globMatch (l ++ p) s = true ↔ ∃ t, s = l ++ t ∧ globMatch p t = true := by
  induction l generalizing s with
  | nil => simp
  | cons a l ih =>
    obtain ⟨h1, h2⟩ := h a List.mem_cons_self
    rw [List.cons_append, globMatch, if_neg h1]
    cases s with
    | nil => simp
    | cons c cs =>
      simp only [List.head?_cons, Option.any_some, List.tail_cons, h2, decide_false, Bool.false_or, Bool.and_eq_true, decide_eq_true_eq,
        ih (fun c hc => h c (List.mem_cons_of_mem _ hc)), List.cons_append, List.cons.injEq]
      constructor
      · rintro ⟨rfl, t, rfl, ht⟩
        exact ⟨t, ⟨rfl, rfl⟩, ht⟩
      · rintro ⟨t, ⟨rfl, rfl⟩, ht⟩
        exact ⟨rfl, t, rfl, ht⟩

private theorem globMatch_star (p s : List Char) : globMatch ('*' :: p) s = true ↔ ∃ t, t <:+ s ∧ globMatch p t = true := by
  rw [globMatch, if_pos rfl, List.any_eq_true]
  simp only [List.mem_tails]

private theorem globMatch_self (l : List Char) (h : ∀ c ∈ l, c ≠ '*' ∧ c ≠ '?') : globMatch l l = true := by
  have := (globMatch_literal l h [] l).2 ⟨[], by simp, rfl⟩
  simpa using this

private theorem pickle_chars : ∀ c ∈ ".pickle".toList, c ≠ '*' ∧ c ≠ '?' := by decide

/-- A function's pattern finds the files of that function and no others. -/
private theorem glob_name {f g : String} (hf : IdentName f) (hg : IdentName g) (h : ℤ) :
    globFile (f.toList ++ ".*.pickle".toList) (cacheFile (g, h)) = true ↔ g = f := by
  have lit : ∀ c ∈ f.toList ++ ['.'], c ≠ '*' ∧ c ≠ '?' := by
    intro c hc
    rcases List.mem_append.1 hc with hc | hc
    · exact ⟨(hf.char hc).2.1, (hf.char hc).2.2.1⟩
    · rw [List.mem_singleton.1 hc]; decide
  have e : f.toList ++ ".*.pickle".toList = (f.toList ++ ['.']) ++ '*' :: ".pickle".toList := by
    simp [show ".*.pickle".toList = '.' :: '*' :: ".pickle".toList by decide]
  unfold globFile
  rw [Bool.and_eq_true, e, globMatch_literal _ lit]
  constructor
  · rintro ⟨⟨t, ht, -⟩, -⟩
    unfold cacheFile at ht
    simp only [List.append_assoc, List.singleton_append] at ht
    have h1 : (g.toList ++ '.' :: ((toString h).toList ++ ".pickle".toList)).takeWhile (· ≠ '.') = g.toList := by
      rw [List.takeWhile_append_of_pos]
      · simp
      · intro c hc; simpa using (hg.char hc).1
    have h2 : (f.toList ++ '.' :: t).takeWhile (· ≠ '.') = f.toList := by
      rw [List.takeWhile_append_of_pos]
      · simp
      · intro c hc; simpa using (hf.char hc).1
    rw [ht, h2] at h1
    exact String.toList_inj.1 h1.symm
  · rintro rfl
    refine ⟨⟨(toString h).toList ++ ".pickle".toList, by simp [cacheFile], ?_⟩, ?_⟩
    · exact (globMatch_star _ _).2 ⟨".pickle".toList, List.suffix_append _ _, globMatch_self _ pickle_chars⟩
    · rw [Bool.or_eq_true]
      left
      unfold cacheFile
      cases hl : g.toList with
      | nil => exact absurd (String.toList_inj.1 (hl.trans (by simp))) hg.1
      | cons a l =>
        have := (hg.char (c := a) (by rw [hl]; exact List.mem_cons_self)).1
        simpa using this

/-- The pattern for all functions finds all files. -/
private theorem glob_all {g : String} (hg : IdentName g) (h : ℤ) : globFile "*.pickle".toList (cacheFile (g, h)) = true := by
  unfold globFile
  rw [Bool.and_eq_true]
  constructor
  · rw [show "*.pickle".toList = '*' :: ".pickle".toList by decide]
    refine (globMatch_star _ _).2 ⟨".pickle".toList, ?_, globMatch_self _ pickle_chars⟩
    exact ⟨g.toList ++ '.' :: (toString h).toList, by simp [cacheFile]⟩
  · rw [Bool.or_eq_true]
    left
    unfold cacheFile
    cases hl : g.toList with
    | nil => exact absurd (String.toList_inj.1 (hl.trans (by simp))) hg.1
    | cons a l =>
      have := (hg.char (c := a) (by rw [hl]; exact List.mem_cons_self)).1
      simpa using this

private theorem lookup_filter_key (d : DiskCache) (p : (String × ℤ) → Bool) (k : String × ℤ) :
    diskGet (d.filter fun f => p f.1) k = if p k then diskGet d k else none := by
  unfold diskGet
  induction d with
  | nil => simp
  | cons x d ih =>
    obtain ⟨k', b⟩ := x
    by_cases hp : p k' = true
    · rw [List.filter_cons_of_pos (by simpa using hp), List.lookup_cons, List.lookup_cons]
      by_cases he : k = k'
      · subst he; simp [hp]
      · rw [beq_false_of_ne he]; exact ih
    · rw [List.filter_cons_of_neg (by simpa using hp), ih, List.lookup_cons]
      by_cases he : k = k'
      · subst he; simp [hp]
      · rw [beq_false_of_ne he]

private theorem ident_ne {f : String} (hf : IdentName f) : f ≠ "" ∧ f ≠ "<lambda>" := by
  refine ⟨hf.1, ?_⟩
  rintro rfl
  exact (hf.char (c := '<') (by decide)).2.2.2 rfl

/-- **C138.**  After `clear_cache(f)` no file of `f` is left and the files of all other functions are as before, also of those
whose names begin with the same letters. -/
theorem C138_files (lambdaFile : Bool) (d : DiskCache) {f : String} (hf : IdentName f) :
    ∃ d', clearCache lambdaFile (some d) (some f) = some d' ∧ (∀ h, diskGet d' (f, h) = none) ∧
      ∀ g, IdentName g → g ≠ f → ∀ h, diskGet d' (g, h) = diskGet d (g, h) := by
  obtain ⟨h1, h2⟩ := ident_ne hf
  refine ⟨d.filter fun x => !globFile (f.toList ++ ".*.pickle".toList) (cacheFile x.1), ?_, fun h => ?_, fun g hg hne h => ?_⟩
  · unfold clearCache
    simp only [if_neg h1, if_neg h2, Option.map_some]
  · rw [lookup_filter_key d (fun k => !globFile (f.toList ++ ".*.pickle".toList) (cacheFile k)),
      (glob_name hf hf h).2 rfl]
    rfl
  · rw [lookup_filter_key d (fun k => !globFile (f.toList ++ ".*.pickle".toList) (cacheFile k)),
      Bool.eq_false_iff.2 (mt (glob_name hf hg h).1 hne)]
    rfl

/-- **C138, all functions.**  After `clear_cache()` there are no files of functions left. -/
theorem C138_files_all (lambdaFile : Bool) (d : DiskCache) :
    ∃ d', clearCache lambdaFile (some d) none = some d' ∧ ∀ g, IdentName g → ∀ h, diskGet d' (g, h) = none := by
  refine ⟨_, rfl, fun g hg h => ?_⟩
  rw [lookup_filter_key d (fun k => !globFile "*.pickle".toList (cacheFile k)), glob_all hg h]
  rfl

/-- **C138, values are computed again.**  The first call of a function after its cache was cleared returns what the function
returns, whatever was on the disk (stale values, truncated files, files of another function of that name). -/
theorem C138_computed_again (H : Hasher) (P : Pickle R) (lambdaFile : Bool) (d : DiskCache) {f : String} (hf : IdentName f)
    (func : Call → Except Err (Option R)) (c : Call) (h : ℤ) (hh : callHash H c = .ok h) (name : Option String)
    (hname : name = none ∨ name = some f) :
    (diskCallDir H P f func (clearCache lambdaFile (some d) name) c).1 = func c := by
  have key : ∀ d', clearCache lambdaFile (some d) name = some d' → diskGet d' (f, h) = none →
      (diskCallDir H P f func (clearCache lambdaFile (some d) name) c).1 = func c := by
    intro d' e hd
    rw [e]
    simp only [diskCallDir, diskCall, hh, hd]
    rcases func c with e | _ | v <;> rfl
  rcases hname with rfl | rfl
  · obtain ⟨d', e, hd⟩ := C138_files_all lambdaFile d
    exact key d' e (hd f hf h)
  · obtain ⟨d', e, hd, -⟩ := C138_files lambdaFile d hf
    exact key d' e (hd h)

/-- A history of calls with a directory that may be missing. -/
def diskRunDir (H : Hasher) (P : Pickle R) :
    Option DiskCache → List (String × (Call → Except Err (Option R)) × Call) → Option DiskCache
  | d, [] => d
  | d, (n, f, c) :: cs => diskRunDir H P (diskCallDir H P n f d c).2 cs

private theorem diskRunDir_some (H : Hasher) (P : Pickle R) (hist : List (String × (Call → Except Err (Option R)) × Call))
    (d : DiskCache) : diskRunDir H P (some d) hist = some (diskRun H P d hist) := by
  induction hist generalizing d with
  | nil => rfl
  | cons x hist ih => exact ih _

/-- **C138 repairs the cache** (see C51).  Let the files of `f` be in whatever state a crash left them and the other files be
sound.  After `clear_cache(f)`, and after any further history of calls of any of the functions, every call returns the value of
the function, provided that there are no collisions of hashes (see C92). -/
theorem C138_repairs (H : Hasher) (P : Pickle R) (hP : P.Good) (lambdaFile : Bool)
    (fs : List (String × (Call → Except Err (Option R)))) (hno : NoCollision H fs) (hnames : ∀ x ∈ fs, IdentName x.1)
    (d : DiskCache) {f : String} (hf : IdentName f)
    (hd : ∀ n h b, n ≠ f → IdentName n → diskGet d (n, h) = some b → ∃ v, b = P.dumps v ∧
      ∀ g, (n, g) ∈ fs → ∀ c, callHash H c = .ok h → g c = .ok (some v))
    (hist : List (String × (Call → Except Err (Option R)) × Call)) (hhist : ∀ x ∈ hist, (x.1, x.2.1) ∈ fs)
    (n : String) (g : Call → Except Err (Option R)) (hm : (n, g) ∈ fs) (c : Call) (h : ℤ) (hh : callHash H c = .ok h) :
    (diskCallDir H P n g (diskRunDir H P (clearCache lambdaFile (some d) (some f)) hist) c).1 = g c := by
  obtain ⟨d', e, hfree, hkeep⟩ := C138_files lambdaFile d hf
  rw [e, diskRunDir_some]
  change (diskCall H P n g (diskRun H P d' hist) c).1 = g c
  -- soundness for the names of functions
  have inv : ∀ (hist : List (String × (Call → Except Err (Option R)) × Call)) (d : DiskCache),
      (∀ x ∈ hist, (x.1, x.2.1) ∈ fs) →
      (∀ n h b, IdentName n → diskGet d (n, h) = some b → ∃ v, b = P.dumps v ∧
        ∀ g, (n, g) ∈ fs → ∀ c, callHash H c = .ok h → g c = .ok (some v)) →
      ∀ n h b, IdentName n → diskGet (diskRun H P d hist) (n, h) = some b → ∃ v, b = P.dumps v ∧
        ∀ g, (n, g) ∈ fs → ∀ c, callHash H c = .ok h → g c = .ok (some v) := by
    intro hist
    induction hist with
    | nil => intro d _ hd; exact hd
    | cons x hist ih =>
      intro d hx hd
      obtain ⟨n1, f1, c1⟩ := x
      refine ih _ (fun y hy => hx y (List.mem_cons_of_mem _ hy)) ?_
      intro n' h' b' hn' hb'
      have hm1 : (n1, f1) ∈ fs := hx _ List.mem_cons_self
      unfold diskCall at hb'
      rcases hh1 : callHash H c1 with e | h1
      · rw [hh1] at hb'; exact hd n' h' b' hn' hb'
      · rw [hh1] at hb'
        simp only at hb'
        rcases hg1 : diskGet d (n1, h1) with _ | b1
        · rw [hg1] at hb'
          simp only at hb'
          rcases hfc : f1 c1 with e | _ | v
          · rw [hfc] at hb'; exact hd n' h' b' hn' hb'
          · rw [hfc] at hb'; exact hd n' h' b' hn' hb'
          · rw [hfc] at hb'
            simp only [diskPut, diskGet, List.lookup_cons] at hb'
            by_cases he : (n', h') = (n1, h1)
            · obtain ⟨rfl, rfl⟩ := Prod.mk.inj he
              rw [show (((n', h') == (n', h')) = true) by simp] at hb'
              cases hb'
              refine ⟨v, rfl, fun g hg' c' hc' => ?_⟩
              rw [hno n' g f1 hg' hm1 c' c1 h' hc' hh1, hfc]
            · rw [beq_false_of_ne he] at hb'
              exact hd n' h' b' hn' hb'
        · rw [hg1] at hb'
          simp only at hb'
          refine hd n' h' b' hn' ?_
          generalize P.load b1 = l at hb'
          rcases l with e | v
          · cases e <;> exact hb'
          · exact hb'
  have hsound := inv hist d' hhist fun n h b hn hb => by
    by_cases hne : n = f
    · subst hne
      rw [hfree h] at hb
      cases hb
    · rw [hkeep n hn hne h] at hb
      exact hd n h b hne hn hb
  unfold diskCall
  rw [hh]
  simp only
  rcases hg : diskGet (diskRun H P d' hist) (n, h) with _ | b
  · simp only
    rcases g c with e | _ | v <;> rfl
  · obtain ⟨v, rfl, hv⟩ := hsound n h b (hnames _ hm) hg
    simp only [hP.round_trip, hv g hm c hh]

/-- **C138 fails for anonymous functions.**  Their name is `<lambda>`, which the shell reads as two redirections.  Usually nothing
is removed: the files are as before and stored values are still returned. -/
theorem C138_lambda_kept_fails (H : Hasher) (P : Pickle R) (hP : P.Good) (d : DiskCache)
    (func : Call → Except Err (Option R)) (c : Call) (h : ℤ) (hh : callHash H c = .ok h) (v : R)
    (hd : diskGet d ("<lambda>", h) = some (P.dumps v)) :
    clearCache false (some d) (some "<lambda>") = some d ∧
    (diskCallDir H P "<lambda>" func (clearCache false (some d) (some "<lambda>")) c).1 = .ok (some v) := by
  have e : clearCache false (some d) (some "<lambda>") = some d := rfl
  refine ⟨e, ?_⟩
  rw [e]
  simp only [diskCallDir, diskCall, hh, hd, hP.round_trip]

/-- **C138 fails for anonymous functions, a file `lambda` in the working directory.**  Then the directory `.cache` goes with the
values of all functions, and until one is decorated again every cached function that returns a value raises. -/
theorem C138_lambda_destroys_fails (H : Hasher) (P : Pickle R) (d : DiskCache) (f : String)
    (func : Call → Except Err (Option R)) (c : Call) (h : ℤ) (hh : callHash H c = .ok h) (v : R)
    (hv : func c = .ok (some v)) (hist : List (String × (Call → Except Err (Option R)) × Call)) :
    (diskCallDir H P f func (diskRunDir H P (clearCache true (some d) (some "<lambda>")) hist) c).1 =
      .error (.exception "FileNotFoundError") := by
  have e : clearCache true (some d) (some "<lambda>") = none := rfl
  have stays : ∀ hist : List (String × (Call → Except Err (Option R)) × Call), diskRunDir H P none hist = none := by
    intro hist
    induction hist with
    | nil => rfl
    | cons x hist ih =>
      obtain ⟨n, f, c⟩ := x
      rw [diskRunDir]
      have : (diskCallDir H P n f none c).2 = none := by
        unfold diskCallDir
        rcases callHash H c with e | h
        · rfl
        · simp only
          rcases f c with e | _ | v <;> rfl
      rw [this, ih]
  rw [e, stays]
  simp only [diskCallDir, hh, hv]

/-! ### Concrete cases -/

private theorem ident_solve : IdentName "solve" ∧ IdentName "solve_2" := by
  refine ⟨⟨by decide, by decide⟩, ⟨by decide, by decide⟩⟩

/-- A truncated file of `solve` is gone after `clear_cache("solve")`, the one of `solve_2` is kept. -/
example : clearCache false (some [(("solve", 3), [1, 1]), (("solve_2", 3), [1, 0])]) (some "solve") =
    some [(("solve_2", 3), [1, 0])] := by decide

example (c : Call) (h : ℤ) (hh : callHash demoHasher c = .ok h) :
    (diskCallDir demoHasher demoPickle "solve" (fun _ => .ok (some 7))
      (clearCache false (some [(("solve", h), [1, 1])]) (some "solve")) c).1 = .ok (some 7) :=
  C138_computed_again demoHasher demoPickle false _ ident_solve.1 _ c h hh _ (Or.inr rfl)

example (c : Call) (h : ℤ) (hh : callHash demoHasher c = .ok h) :
    (diskCallDir demoHasher demoPickle "solve" (fun _ => .ok (some 7)) (diskRunDir demoHasher demoPickle
      (clearCache false (some [(("solve", 5), [1, 1])]) (some "solve"))
      [("solve", fun _ => .ok (some 7), call1 (.int 2))]) c).1 = .ok (some 7) :=
  C138_repairs demoHasher demoPickle demoPickle_good false [("solve", fun _ => .ok (some 7))]
    (by
      intro n f g hf hg c c' h _ _
      simp only [List.mem_singleton, Prod.mk.injEq] at hf hg
      rw [hf.2, hg.2])
    (by intro x hx; rw [List.mem_singleton.1 hx]; exact ident_solve.1)
    [(("solve", 5), [1, 1])] ident_solve.1
    (by
      intro n h b hne _ hb
      simp only [diskGet, List.lookup_cons, List.lookup_nil] at hb
      by_cases he : (n, h) = ("solve", 5)
      · exact absurd (Prod.mk.inj he).1 hne
      · rw [beq_false_of_ne he] at hb; cases hb)
    _ (by simp) "solve" (fun _ => .ok (some 7)) (by simp) c h hh

end Dolo
