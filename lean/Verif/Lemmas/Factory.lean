import Mathlib.Data.List.Nodup
import Mathlib.Data.List.Range
import Mathlib.Tactic.SplitIfs
import Verif.Model.Factory
import Verif.Props.EvalFormula

/-! Helper lemmas for `Verif/Props/Factory.lean`. -/

set_option linter.unusedSectionVars false

namespace Dolo

variable {V : Type}

/-! ### Dictionaries -/

theorem KDict.foldl_set_nodup {α : Type} (l acc : KDict α) (h : ((acc ++ l).map (·.1)).Nodup) :
    l.foldl (fun d kv => KDict.set d kv.1 kv.2) acc = acc ++ l := by
  induction l generalizing acc with
  | nil => simp
  | cons a l ih =>
    have hno : (acc.any fun kv => decide (kv.1 = a.1)) = false := by
      rw [List.any_eq_false]
      intro kv hkv
      simp only [decide_eq_true_eq]
      intro e
      rw [List.map_append, List.nodup_append] at h
      exact h.2.2 kv.1 (List.mem_map_of_mem hkv) a.1 (by simp) e
    have hset : KDict.set acc a.1 a.2 = acc ++ [a] := by simp [KDict.set, hno]
    rw [List.foldl_cons, hset, ih _ (by simpa using h)]
    simp

theorem PyDict.foldl_set_nodup {α : Type} (l acc : PyDict α) (h : ((acc ++ l).map (·.1)).Nodup) :
    l.foldl (fun d kv => PyDict.set d kv.1 kv.2) acc = acc ++ l := by
  induction l generalizing acc with
  | nil => simp
  | cons a l ih =>
    have hno : (acc.any fun kv => decide (kv.1 = a.1)) = false := by
      rw [List.any_eq_false]
      intro kv hkv
      simp only [decide_eq_true_eq]
      intro e
      rw [List.map_append, List.nodup_append] at h
      exact h.2.2 kv.1 (List.mem_map_of_mem hkv) a.1 (by simp) e
    have hset : PyDict.set acc a.1 a.2 = acc ++ [a] := by simp [PyDict.set, hno]
    rw [List.foldl_cons, hset, ih _ (by simpa using h)]
    simp

theorem kdictZip_nodup {α : Type} (names : List FKey) (values : List α) (h : names.Nodup)
    (hl : names.length = values.length) : kdictZip names values = names.zip values := by
  unfold kdictZip
  rw [KDict.foldl_set_nodup _ [] (by simpa [List.map_fst_zip, hl.le] using h)]
  rfl

theorem dictZip_nodup {α : Type} (names : List String) (values : List α) (h : names.Nodup)
    (hl : names.length = values.length) : dictZip names values = names.zip values := by
  unfold dictZip
  rw [PyDict.foldl_set_nodup _ [] (by simpa [List.map_fst_zip, hl.le] using h)]
  rfl

theorem outNames_nodup (n : ℕ) :
    ((List.range n).map fun i => FKey.var ("out" ++ toString i) 0).Nodup := by
  apply List.Nodup.map _ List.nodup_range
  intro i j h
  simp only [FKey.var.injEq, and_true] at h
  have h' : toString i = toString j := by
    have := congrArg String.toList h
    simp only [String.toList_append] at this
    exact String.toList_inj.mp (List.append_cancel_left this)
  have h2 := congrArg String.toList h'
  simp only [Nat.toString_eq_repr, Nat.toList_repr] at h2
  have := congrArg (fun l => Nat.ofDigitChars 10 l 0) h2
  simpa using this

/-! ### Evaluation of formulas -/

/-- The names used by a formula. -/
def Formula.refs (f : Formula V) : List FKey :=
  f.vars.map (fun kt => FKey.var kt.1 kt.2) ++ f.syms.map FKey.sym

/-- The value of a name. -/
def keyVal (π : String → V) (ρ : String → ℤ → V) : FKey → V
  | .sym k => π k
  | .var k t => ρ k t

theorem Formula.run_ok (env : NEnv V) (π : String → V) (ρ : String → ℤ → V) (f : Formula V)
    (h : ∀ r ∈ f.refs, env r = some (keyVal π ρ r)) : f.run env = .ok (f.meaning π ρ) := by
  induction f with
  | num v => rfl
  | sym k =>
    have := h (.sym k) (by simp [Formula.refs, Formula.syms])
    simp [Formula.run, this, Formula.meaning, keyVal]
  | var k t =>
    have := h (.var k t) (by simp [Formula.refs, Formula.vars])
    simp [Formula.run, this, Formula.meaning, keyVal]
  | un f a ih =>
    rw [Formula.run, ih (fun r hr => h r (by simpa [Formula.refs, Formula.vars, Formula.syms] using hr))]
    rfl
  | bin f a b iha ihb =>
    rw [Formula.run, iha, ihb]
    · rfl
    · intro r hr
      apply h r
      simp only [Formula.refs, Formula.vars, Formula.syms, List.map_append, List.mem_append] at hr ⊢
      tauto
    · intro r hr
      apply h r
      simp only [Formula.refs, Formula.vars, Formula.syms, List.map_append, List.mem_append] at hr ⊢
      tauto

theorem Formula.run_missing (env : NEnv V) (f : Formula V) (r : FKey) (hr : r ∈ f.refs)
    (h : env r = none) (v : V) : f.run env ≠ .ok v := by
  induction f generalizing v with
  | num v => simp [Formula.refs, Formula.vars, Formula.syms] at hr
  | sym k =>
    simp only [Formula.refs, Formula.vars, Formula.syms, List.map_nil, List.map_cons, List.nil_append,
      List.mem_singleton] at hr
    subst hr
    simp [Formula.run, h]
  | var k t =>
    simp only [Formula.refs, Formula.vars, Formula.syms, List.map_nil, List.map_cons, List.append_nil,
      List.mem_singleton] at hr
    subst hr
    simp [Formula.run, h]
  | un f a ih =>
    have := ih (by simpa [Formula.refs, Formula.vars, Formula.syms] using hr)
    cases ha : a.run env with
    | error e => simp [Formula.run, ha, bind, Except.bind]
    | ok x => exact absurd ha (this x)
  | bin f a b iha ihb =>
    have hr' : r ∈ a.refs ∨ r ∈ b.refs := by
      simp only [Formula.refs, Formula.vars, Formula.syms, List.map_append, List.mem_append] at hr ⊢
      tauto
    cases ha : a.run env with
    | error e => simp [Formula.run, ha, bind, Except.bind]
    | ok x =>
      rcases hr' with hr' | hr'
      · exact absurd ha (iha hr' x)
      · cases hb : b.run env with
        | error e => simp [Formula.run, ha, hb, bind, Except.bind]
        | ok y => exact absurd hb (ihb hr' y)

theorem Formula.meaning_congr (π : String → V) (ρ ρ' : String → ℤ → V) (f : Formula V)
    (h : ∀ kt ∈ f.vars, ρ kt.1 kt.2 = ρ' kt.1 kt.2) : f.meaning π ρ = f.meaning π ρ' := by
  induction f with
  | num v => rfl
  | sym k => rfl
  | var k t => exact h (k, t) (by simp [Formula.vars])
  | un f a ih => simp only [Formula.meaning]; rw [ih h]
  | bin f a b iha ihb =>
    simp only [Formula.meaning]
    rw [iha (fun kt hk => h kt (by simp [Formula.vars, hk])),
      ihb (fun kt hk => h kt (by simp [Formula.vars, hk]))]

theorem Formula.meaning_shift (π : String → V) (ρ : String → ℤ → V) (t : ℤ) (f : Formula V) :
    (f.shift t).meaning π ρ = f.meaning π fun s d => ρ s (d + t) := by
  induction f with
  | num v => rfl
  | sym k => rfl
  | var k d => rfl
  | un f a ih => simp only [Formula.shift, Formula.meaning]; rw [ih]
  | bin f a b iha ihb => simp only [Formula.shift, Formula.meaning]; rw [iha, ihb]

theorem Formula.vars_shift (t : ℤ) (f : Formula V) :
    (f.shift t).vars = f.vars.map fun kt => (kt.1, kt.2 + t) := by
  induction f with
  | num v => rfl
  | sym k => rfl
  | var k d => rfl
  | un f a ih => simpa only [Formula.shift, Formula.vars] using ih
  | bin f a b iha ihb => simp only [Formula.shift, Formula.vars, iha, ihb, List.map_append]

theorem Formula.syms_shift (t : ℤ) (f : Formula V) : (f.shift t).syms = f.syms := by
  induction f with
  | num v => rfl
  | sym k => rfl
  | var k d => rfl
  | un f a ih => simpa only [Formula.shift, Formula.syms] using ih
  | bin f a b iha ihb => simp only [Formula.shift, Formula.syms, iha, ihb]

/-! ### Binding of the arguments -/

theorem bindGroup_ok (val : FKey → V) (ks : List FKey) (env : NEnv V) :
    ∃ env', bindGroup ks (ks.map val) env = .ok env' ∧ (∀ k ∈ ks, env' k = some (val k)) ∧
      ∀ k, env k = some (val k) → env' k = some (val k) := by
  induction ks generalizing env with
  | nil => exact ⟨env, rfl, by simp, fun k h => h⟩
  | cons a ks ih =>
    obtain ⟨env', h1, h2, h3⟩ := ih (env.set a (val a))
    refine ⟨env', h1, ?_, ?_⟩
    · intro k hk
      rcases List.mem_cons.mp hk with rfl | hk
      · exact h3 k (by simp [NEnv.set])
      · exact h2 k hk
    · intro k hk
      apply h3 k
      by_cases e : k = a
      · subst e; simp [NEnv.set]
      · simpa [NEnv.set, e] using hk

theorem bindArgs_ok (val : FKey → V) (kss : List (List FKey)) (env : NEnv V) :
    ∃ env', bindArgs kss (kss.map fun ks => ks.map val) env = .ok env' ∧
      (∀ ks ∈ kss, ∀ k ∈ ks, env' k = some (val k)) ∧
      ∀ k, env k = some (val k) → env' k = some (val k) := by
  induction kss generalizing env with
  | nil => exact ⟨env, rfl, by simp, fun k h => h⟩
  | cons a kss ih =>
    obtain ⟨e1, h1, h2, h3⟩ := bindGroup_ok val a env
    obtain ⟨e2, g1, g2, g3⟩ := ih e1
    refine ⟨e2, ?_, ?_, fun k hk => g3 k (h3 k hk)⟩
    · simp [bindArgs, h1, g1, bind, Except.bind]
    · intro ks hks k hk
      rcases List.mem_cons.mp hks with rfl | hks
      · exact g3 k (h2 k hk)
      · exact g2 ks hks k hk

theorem bindGroup_none (ks : List FKey) (vs : List V) (env env' : NEnv V)
    (h : bindGroup ks vs env = .ok env') (k : FKey) (hk : k ∉ ks) : env' k = env k := by
  induction ks generalizing vs env with
  | nil => cases h; rfl
  | cons a ks ih =>
    cases vs with
    | nil => cases h
    | cons v vs =>
      rw [List.mem_cons, not_or] at hk
      rw [ih vs (env.set a v) h hk.2]
      simp [NEnv.set, hk.1]

theorem bindArgs_none (kss : List (List FKey)) (vss : List (List V)) (env env' : NEnv V)
    (h : bindArgs kss vss env = .ok env') (k : FKey) (hk : ∀ ks ∈ kss, k ∉ ks) : env' k = env k := by
  induction kss generalizing vss env with
  | nil =>
    cases vss with
    | nil => cases h; rfl
    | cons => cases h
  | cons a kss ih =>
    cases vss with
    | nil => cases h
    | cons vs vss =>
      cases h1 : bindGroup a vs env with
      | error e => simp [bindArgs, h1, bind, Except.bind] at h
      | ok e1 =>
        simp only [bindArgs, h1, bind, Except.bind] at h
        rw [ih vss e1 h fun ks hks => hk ks (by simp [hks])]
        exact bindGroup_none a vs env e1 h1 k (hk a (by simp))

/-! ### The preamble -/

/-- Each line only uses names of `S` and of previous lines. -/
def OrderedLines (S : FKey → Prop) : KDict (Formula V) → Prop
  | [] => True
  | (k, e) :: rest => (∀ r ∈ e.refs, S r) ∧ OrderedLines (fun r => S r ∨ r = k) rest

theorem orderedLines_of (S : FKey → Prop) (lines : KDict (Formula V))
    (h : ∀ (i : ℕ) k e, lines[i]? = some (k, e) → ∀ r ∈ e.refs,
      S r ∨ ∃ (j : ℕ) (ke : FKey × Formula V), j < i ∧ lines[j]? = some ke ∧ ke.1 = r) :
    OrderedLines S lines := by
  induction lines generalizing S with
  | nil => trivial
  | cons a lines ih =>
    obtain ⟨k, e⟩ := a
    refine ⟨?_, ih _ ?_⟩
    · intro r hr
      rcases h 0 k e rfl r hr with h | ⟨j, _, hj, _⟩
      · exact h
      · omega
    · intro i k' e' hi r hr
      rcases h (i + 1) k' e' (by simpa using hi) r hr with h | ⟨j, ke, hj, hk, rfl⟩
      · exact .inl (.inl h)
      · cases j with
        | zero =>
          simp only [List.getElem?_cons_zero, Option.some.injEq] at hk
          exact .inl (.inr (by rw [← hk]))
        | succ j => exact .inr ⟨j, ke, by omega, by simpa using hk, rfl⟩

theorem runPreamble_ok (π : String → V) (ρ : String → ℤ → V) (S : FKey → Prop)
    (lines : KDict (Formula V)) (env : NEnv V) (ho : OrderedLines S lines)
    (hS : ∀ r, S r → env r = some (keyVal π ρ r))
    (hv : ∀ ke ∈ lines, keyVal π ρ ke.1 = ke.2.meaning π ρ) :
    ∃ env', runPreamble lines env = .ok env' ∧ (∀ r, S r → env' r = some (keyVal π ρ r)) ∧
      ∀ ke ∈ lines, env' ke.1 = some (keyVal π ρ ke.1) := by
  induction lines generalizing S env with
  | nil => exact ⟨env, rfl, hS, by simp⟩
  | cons a lines ih =>
    obtain ⟨k, e⟩ := a
    have hrun : e.run env = .ok (e.meaning π ρ) := e.run_ok env π ρ fun r hr => hS r (ho.1 r hr)
    have hk : e.meaning π ρ = keyVal π ρ k := (hv (k, e) (by simp)).symm
    have hS' : ∀ r, S r ∨ r = k → (env.set k (e.meaning π ρ)) r = some (keyVal π ρ r) := by
      intro r hr
      by_cases er : r = k
      · subst er; simp [NEnv.set, hk]
      · simp only [NEnv.set, er, if_false]
        exact hS r (hr.resolve_right er)
    obtain ⟨env', h1, h2, h3⟩ := ih _ (env.set k (e.meaning π ρ)) ho.2 hS' fun ke hke => hv ke (by simp [hke])
    refine ⟨env', by simp [runPreamble, hrun, h1, bind, Except.bind], fun r hr => h2 r (.inl hr), ?_⟩
    intro ke hke
    rcases List.mem_cons.mp hke with rfl | hke
    · exact h2 _ (.inr rfl)
    · exact h3 ke hke

theorem runPreamble_none (lines : KDict (Formula V)) (env env' : NEnv V)
    (h : runPreamble lines env = .ok env') (k : FKey) (hk : ∀ ke ∈ lines, ke.1 ≠ k) :
    env' k = env k := by
  induction lines generalizing env with
  | nil => cases h; rfl
  | cons a lines ih =>
    obtain ⟨k', e⟩ := a
    cases hr : e.run env with
    | error x => simp [runPreamble, hr, bind, Except.bind] at h
    | ok v =>
      simp only [runPreamble, hr, bind, Except.bind] at h
      rw [ih _ h fun ke hke => hk ke (by simp [hke])]
      have : k ≠ k' := fun e => hk (k', _) List.mem_cons_self e.symm
      simp [NEnv.set, this]

end Dolo
