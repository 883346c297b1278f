import Verif.Lemmas.Calibration
import Verif.Lemmas.DecisionRule
import Verif.Model.SymbolicModel

/-!
# C45, C88, C89: the caches of a `Model`, and its domain
-/

set_option linter.unusedSectionVars false

namespace Dolo

variable {V W Q C B X F : Type}

/-! ## C45: coherence of the caches -/

/-- What a user can do with a model between two reads. -/
inductive MOp (V : Type) where
  | setCalibration (pargs : List (PyDict V)) (kwargs : PyDict V)
  | readCalibration
  | readExogenous
  | readDomain
  | readFunctions

/-- The model after one operation. -/
def MState.step (ev : MEval V W Q C B X F) (st : MState V W Q C B X F) :
    MOp V → MState V W Q C B X F
  | .setCalibration p kw => (st.setCalibration p kw).2
  | .readCalibration => (st.readCalibration ev).2
  | .readExogenous => (st.readExogenous ev).2
  | .readDomain => (st.readDomain ev).2
  | .readFunctions => (st.readFunctions ev).2

/-- The model after a sequence of operations. -/
def MState.run (ev : MEval V W Q C B X F) (st : MState V W Q C B X F) (ops : List (MOp V)) :
    MState V W Q C B X F := ops.foldl (MState.step ev) st

/-- Specification: the assignments `(name, value)` made by an operation, in order.  Two or more
positional arguments are ignored by `set_calibration`. -/
def MOp.assignments : MOp V → List (String × V)
  | .setCalibration [p] kw => p ++ kw
  | .setCalibration _ kw => kw
  | _ => []

/-- Specification: the data of a model whose calibration section, if it has one, was edited by a
sequence of assignments. -/
def MData.edited (d : MData V W Q) (as : List (String × V)) : MData V W Q :=
  { d with calibration := d.calibration.map fun c => as.foldl (fun c kv => c.set kv.1 kv.2) c }

theorem filter_idem_keys (d : PyDict W) (states : List String) :
    (d.filter fun kv => decide (kv.1 ∈ states)).filter (fun kv => decide (kv.1 ∈ states)) =
      d.filter fun kv => decide (kv.1 ∈ states) := by
  rw [List.filter_filter]; simp

theorem zip_filter_keys (states : List String) (b : List W) :
    (states.zip b).filter (fun kv => decide (kv.1 ∈ states)) = states.zip b := by
  rw [List.filter_eq_self]
  rintro ⟨k, v⟩ hk
  simpa using (List.of_mem_zip hk).1

theorem cleanDomain_idem (d : MData V W Q) :
    (cleanDomain { d with domain := (cleanDomain d).2 }).1 = (cleanDomain d).1 := by
  rcases hd : d.domain with _ | dom
  · simp [cleanDomain, hd]
  · simp only [cleanDomain, hd, Option.getD_some, Option.isSome_some, if_true]
    by_cases he : ((dom.filter fun kv => decide (kv.1 ∈ d.states)).isEmpty && !d.states.isEmpty)
        = true
    · rw [if_pos he]
      rcases hg : d.gridBounds with _ | b
      · simp only [filter_idem_keys, he, if_true]
      · simp only [zip_filter_keys]
        split_ifs <;> rfl
    · rw [if_neg he, filter_idem_keys, if_neg he]

/-- Two data that differ at most by a clean-up of the domain section. -/
structure SameData (d e : MData V W Q) : Prop where
  states : d.states = e.states
  calibration : d.calibration = e.calibration
  gridBounds : d.gridBounds = e.gridBounds
  eqs : d.eqs = e.eqs
  domain : (cleanDomain d).1 = (cleanDomain e).1

theorem getDomain_fst (ev : MEval V W Q C B X F) (d e : MData V W Q) (h : SameData d e) :
    (getDomain ev d).1 = (getDomain ev e).1 := by
  unfold getDomain
  rw [h.calibration]
  rcases ev.calib (e.calibration.getD []) with er | c
  · rfl
  · simp only [h.domain, h.states]
    split_ifs
    · rfl
    · rfl
    · rcases ev.bounds (cleanDomain e).1 c with er | b <;> rfl

theorem getDomain_snd (ev : MEval V W Q C B X F) (d : MData V W Q) :
    (getDomain ev d).2 = d ∨ (getDomain ev d).2 = { d with domain := (cleanDomain d).2 } := by
  unfold getDomain
  rcases ev.calib (d.calibration.getD []) with er | c
  · exact Or.inl rfl
  · right
    simp only
    split_ifs
    · rfl
    · rfl
    · rcases ev.bounds (cleanDomain d).1 c with er | b <;> rfl

theorem SameData.getDomain (ev : MEval V W Q C B X F) (d e : MData V W Q) (h : SameData d e) :
    SameData (getDomain ev d).2 e := by
  rcases getDomain_snd ev d with hh | hh
  · rw [hh]; exact h
  · rw [hh]
    exact ⟨h.states, h.calibration, h.gridBounds, h.eqs, (cleanDomain_idem d).trans h.domain⟩

/-- The invariant: the data are those of the specification, and every cache holds what would be
computed. -/
structure Coherent (ev : MEval V W Q C B X F) (st : MState V W Q C B X F) (sd : MData V W Q) :
    Prop where
  data : SameData st.data sd
  calibration : ∀ c, st.calibration = some c → ev.calib (sd.calibration.getD []) = .ok c
  exogenous : ∀ x, st.exogenous = some x →
    ∃ c, ev.calib (sd.calibration.getD []) = .ok c ∧ ev.exo c = .ok x
  domain : ∀ b, st.domain = some b → (getDomain ev sd).1 = .ok (some b)
  functions : ∀ f, st.functions = some f → ev.compile sd.eqs = .ok f

theorem Coherent.reads (ev : MEval V W Q C B X F) (st : MState V W Q C B X F) (sd : MData V W Q)
    (h : Coherent ev st sd) :
    (st.readCalibration ev).1 = ((MState.fresh sd).readCalibration ev).1 ∧
    (st.readExogenous ev).1 = ((MState.fresh sd).readExogenous ev).1 ∧
    (st.readDomain ev).1 = ((MState.fresh sd).readDomain ev).1 ∧
    (st.readFunctions ev).1 = ((MState.fresh sd).readFunctions ev).1 := by
  refine ⟨?_, ?_, ?_, ?_⟩
  · unfold MState.readCalibration MState.fresh
    rcases hc : st.calibration with _ | c
    · simp only [h.data.calibration]
      rcases ev.calib (sd.calibration.getD []) with er | c <;> rfl
    · simp only [h.calibration c hc]
  · unfold MState.readExogenous MState.fresh
    rcases hc : st.exogenous with _ | x
    · simp only [h.data.calibration]
      rcases ev.calib (sd.calibration.getD []) with er | c
      · rfl
      · simp only
        rcases ev.exo c with er | x <;> rfl
    · obtain ⟨c, h1, h2⟩ := h.exogenous x hc
      simp only [h1, h2]
  · unfold MState.readDomain MState.fresh
    have hg := getDomain_fst ev _ _ h.data
    rcases hc : st.domain with _ | b
    · simp only
      rcases h1 : getDomain ev st.data with ⟨r1, d1⟩
      rcases h2 : getDomain ev sd with ⟨r2, d2⟩
      rw [h1, h2] at hg
      simp only at hg
      subst hg
      rcases r1 with er | r <;> rfl
    · have := h.domain b hc
      rcases h2 : getDomain ev sd with ⟨r2, d2⟩
      rw [h2] at this
      simp only at this
      subst this
      rfl
  · unfold MState.readFunctions MState.fresh
    rcases hc : st.functions with _ | f
    · simp only [h.data.eqs]
      rcases ev.compile sd.eqs with er | c <;> rfl
    · simp only [h.functions f hc]

theorem Coherent.fresh (ev : MEval V W Q C B X F) (d : MData V W Q) :
    Coherent ev (MState.fresh d) d :=
  ⟨⟨rfl, rfl, rfl, rfl, rfl⟩, by simp [MState.fresh], by simp [MState.fresh],
    by simp [MState.fresh], by simp [MState.fresh]⟩

theorem cleanDomain_congr (d e : MData V W Q) (h1 : d.states = e.states)
    (h2 : d.domain = e.domain) (h3 : d.gridBounds = e.gridBounds) :
    (cleanDomain d).1 = (cleanDomain e).1 := by
  simp only [cleanDomain, h1, h2, h3]

theorem kw_none (st : MState V W Q C B X F) (kw : PyDict V) (h : st.data.calibration = none) :
    st.setCalibrationKw kw = (.error .keyError, st.setChanged) := by
  have h' : st.setChanged.data.calibration = none := h
  simp only [MState.setCalibrationKw, h']

theorem kw_some (st : MState V W Q C B X F) (kw c : PyDict V) (h : st.data.calibration = some c) :
    st.setCalibrationKw kw = (.ok (), { st.setChanged with
      data := { st.data with calibration := some (updateDict c kw) } }) := by
  have h' : st.setChanged.data.calibration = some c := h
  simp only [MState.setCalibrationKw, h']
  rfl

theorem Coherent.kw (ev : MEval V W Q C B X F) (st : MState V W Q C B X F) (sd : MData V W Q)
    (h : Coherent ev st sd) (kw : PyDict V) :
    Coherent ev (st.setCalibrationKw kw).2 (sd.edited kw) ∧
    ((st.setCalibrationKw kw).1 = .ok () ↔ sd.calibration ≠ none) ∧
    (sd.calibration = none → (st.setCalibrationKw kw).1 = .error .keyError) := by
  rcases hc : st.data.calibration with _ | c
  · have hn : sd.calibration = none := by rw [← h.data.calibration, hc]
    rw [kw_none st kw hc]
    refine ⟨⟨⟨h.data.states, ?_, h.data.gridBounds, h.data.eqs, ?_⟩, ?_, ?_, ?_,
      h.functions⟩, by simp [hn], by simp⟩
    · simp [MState.setChanged, hc, MData.edited, hn]
    · rw [cleanDomain_congr (sd.edited kw) sd rfl rfl rfl, ← h.data.domain]
      rfl
    · intro c hc; cases hc
    · intro c hc; cases hc
    · intro c hc; cases hc
  · have hn : sd.calibration = some c := by rw [← h.data.calibration, hc]
    rw [kw_some st kw c hc]
    refine ⟨⟨⟨h.data.states, ?_, h.data.gridBounds, h.data.eqs, ?_⟩, ?_, ?_, ?_,
      h.functions⟩, by simp [hn], by simp [hn]⟩
    · simp [MData.edited, hn, updateDict]
    · rw [cleanDomain_congr (sd.edited kw) sd rfl rfl rfl, ← h.data.domain]
      exact cleanDomain_congr _ _ rfl rfl rfl
    · intro c hc; cases hc
    · intro c hc; cases hc
    · intro c hc; cases hc

theorem MData.edited_append (d : MData V W Q) (as bs : List (String × V)) :
    (d.edited as).edited bs = d.edited (as ++ bs) := by
  simp only [MData.edited, Option.map_map]
  congr 1
  congr 1
  funext c
  simp [List.foldl_append]

theorem MData.edited_nil (d : MData V W Q) : d.edited [] = d := by
  rcases d with ⟨s, c, dd, g, q⟩
  cases c <;> simp [MData.edited]

theorem Coherent.step (ev : MEval V W Q C B X F) (st : MState V W Q C B X F) (sd : MData V W Q)
    (h : Coherent ev st sd) (op : MOp V) :
    Coherent ev (st.step ev op) (sd.edited op.assignments) := by
  cases op with
  | setCalibration p kw =>
    have other : Coherent ev (st.setCalibrationKw kw).2 (sd.edited kw) := (h.kw ev st sd kw).1
    rcases p with _ | ⟨p, _ | ⟨p', ps⟩⟩
    · exact other
    · obtain ⟨h1, h2, h3⟩ := h.kw ev st sd p
      change Coherent ev (st.setCalibration [p] kw).2 (sd.edited (p ++ kw))
      rw [← MData.edited_append]
      unfold MState.setCalibration
      simp only
      rcases hr : st.setCalibrationKw p with ⟨r, st1⟩
      rw [hr] at h1 h2 h3
      rcases r with er | u
      · -- no calibration section
        simp only
        have hn : sd.calibration = none := by
          by_contra hne
          have := h2.2 hne
          cases this
        have : (sd.edited p).edited kw = sd.edited p := by
          simp [MData.edited, hn]
        rw [this]
        exact h1
      · exact (h1.kw ev st1 _ kw).1
    · exact other
  | readCalibration =>
    change Coherent ev (st.readCalibration ev).2 (sd.edited [])
    rw [MData.edited_nil]
    unfold MState.readCalibration
    rcases hc : st.calibration with _ | c
    · simp only
      rcases hh : ev.calib (st.data.calibration.getD []) with er | c
      · exact h
      · refine ⟨h.data, ?_, h.exogenous, h.domain, h.functions⟩
        intro c' hc'
        cases hc'
        rw [← h.data.calibration, hh]
    · exact h
  | readExogenous =>
    change Coherent ev (st.readExogenous ev).2 (sd.edited [])
    rw [MData.edited_nil]
    unfold MState.readExogenous
    rcases hc : st.exogenous with _ | c
    · simp only
      rcases hh : ev.calib (st.data.calibration.getD []) with er | c
      · exact h
      · simp only
        rcases hx : ev.exo c with er | x
        · exact h
        · refine ⟨h.data, h.calibration, ?_, h.domain, h.functions⟩
          intro c' hc'
          cases hc'
          exact ⟨c, by rw [← h.data.calibration, hh], hx⟩
    · exact h
  | readDomain =>
    change Coherent ev (st.readDomain ev).2 (sd.edited [])
    rw [MData.edited_nil]
    unfold MState.readDomain
    rcases hc : st.domain with _ | b
    · simp only
      have h1 := getDomain_fst ev _ _ h.data
      have h2 := SameData.getDomain ev _ _ h.data
      rcases hg : getDomain ev st.data with ⟨r, d⟩
      rw [hg] at h1 h2
      rcases r with er | r
      · exact ⟨h2, h.calibration, h.exogenous, fun b hb => (by cases hb),
          h.functions⟩
      · refine ⟨h2, h.calibration, h.exogenous, ?_, h.functions⟩
        intro b hb
        simp only at hb h1
        rw [← h1, hb]
    · exact h
  | readFunctions =>
    change Coherent ev (st.readFunctions ev).2 (sd.edited [])
    rw [MData.edited_nil]
    unfold MState.readFunctions
    rcases hc : st.functions with _ | c
    · simp only
      rcases hh : ev.compile st.data.eqs with er | f
      · exact h
      · refine ⟨h.data, h.calibration, h.exogenous, h.domain, ?_⟩
        intro c' hc'
        cases hc'
        rw [← h.data.eqs, hh]
    · exact h

/-- **C45.** After any sequence of recalibrations and reads, in any order, each read of a property
returns what a model freshly built from the original data with the same assignments made in the
calibration section would return. -/
theorem C45_reads_as_fresh (ev : MEval V W Q C B X F) (d : MData V W Q) (ops : List (MOp V)) :
    let st := (MState.fresh d).run ev ops
    let f := MState.fresh (d.edited (ops.flatMap MOp.assignments))
    (st.readCalibration ev).1 = (f.readCalibration ev).1 ∧
    (st.readExogenous ev).1 = (f.readExogenous ev).1 ∧
    (st.readDomain ev).1 = (f.readDomain ev).1 ∧
    (st.readFunctions ev).1 = (f.readFunctions ev).1 := by
  have key : ∀ (ops : List (MOp V)) (st : MState V W Q C B X F) (sd : MData V W Q),
      Coherent ev st sd → Coherent ev (st.run ev ops) (sd.edited (ops.flatMap MOp.assignments)) := by
    intro ops
    induction ops with
    | nil => intro st sd h; simpa [MState.run, MData.edited_nil] using h
    | cons op ops ih =>
      intro st sd h
      have := ih _ _ (h.step ev st sd op)
      rwa [MData.edited_append] at this
  exact (key ops _ _ (Coherent.fresh ev d)).reads

/-- **C45** (what the assignments do).  In the edited calibration section a name has the value
assigned last, or its former value if it was not assigned. -/
theorem C45_last_assignment_wins (c : PyDict V) (as : List (String × V)) (s : String) :
    PyDict.get? (as.foldl (fun c kv => c.set kv.1 kv.2) c) s =
      ((PyDict.get? as.reverse s).or (PyDict.get? c s)) := by
  induction as generalizing c with
  | nil => simp [PyDict.get?_nil]
  | cons kv as ih =>
    obtain ⟨k, v⟩ := kv
    rw [List.foldl_cons, ih, List.reverse_cons, PyDict.get?_append, PyDict.get?_set,
      PyDict.get?_cons, PyDict.get?_nil]
    rcases PyDict.get? as.reverse s with _ | w
    · by_cases h : k = s
      · simp [h]
      · simp [h, Ne.symm h]
    · simp

/-- **C45** (failure).  `set_calibration` raises exactly when the model has no calibration
section. -/
theorem C45_set_calibration_ok (st : MState V W Q C B X F) (p : List (PyDict V)) (kw : PyDict V) :
    (st.setCalibration p kw).1 = .ok () ↔ st.data.calibration ≠ none := by
  have hk : ∀ (st : MState V W Q C B X F) kw,
      (st.data.calibration ≠ none → (st.setCalibrationKw kw).1 = .ok () ∧
        (st.setCalibrationKw kw).2.data.calibration ≠ none) ∧
      (st.data.calibration = none → (st.setCalibrationKw kw).1 = .error .keyError) := by
    intro st kw
    rcases hc : st.data.calibration with _ | c
    · simp [kw_none st kw hc]
    · simp [kw_some st kw c hc]
  have hiff : ∀ (st : MState V W Q C B X F) kw,
      (st.setCalibrationKw kw).1 = .ok () ↔ st.data.calibration ≠ none := by
    intro st kw
    constructor
    · intro h hn
      rw [(hk st kw).2 hn] at h; cases h
    · intro h; exact ((hk st kw).1 h).1
  rcases p with _ | ⟨p, _ | ⟨p', ps⟩⟩
  · exact hiff st kw
  · unfold MState.setCalibration
    simp only
    rcases hr : st.setCalibrationKw p with ⟨r, st1⟩
    have h1 := hk st p
    have h2 := hiff st p
    rw [hr] at h1 h2
    rcases r with er | u
    · simpa using h2
    · simp only at h2 h1 ⊢
      have hne := h2.1 trivial
      exact ⟨fun _ => hne, fun _ => (hiff st1 kw).2 (h1.1 hne).2⟩
  · exact hiff st kw

/-- A small model for the witnesses below: values are numbers, the calibration is the section
itself, the exogenous process is the calibrated value of `rho`, compilation is the identity. -/
def demoEval : MEval ℤ ℤ ℕ (PyDict ℤ) ℤ ℤ ℕ where
  calib := .ok
  bounds := fun d c => .ok (d.map fun kv => (kv.1, kv.2 * (c.get? "scale").getD 1))
  exo := fun c => c.get "rho"
  compile := .ok

/-- Data for the witnesses. -/
def demoData : MData ℤ ℤ ℕ where
  states := ["k"]
  calibration := some [("rho", 1), ("scale", 2)]
  domain := some [("k", 5), ("zz", 7)]
  gridBounds := none
  eqs := 3

/-- Non-vacuity: reads before and after a recalibration. -/
example : (((MState.fresh demoData).run demoEval [.readExogenous, .readDomain]).readExogenous
      demoEval).1 = .ok 1 ∧
    (((MState.fresh demoData).run demoEval [.readExogenous, .readDomain,
      .setCalibration [[("rho", 8)]] [("scale", 3)]]).readExogenous demoEval).1 = .ok 8 ∧
    (((MState.fresh demoData).run demoEval [.readExogenous, .readDomain,
      .setCalibration [[("rho", 8)]] [("scale", 3)]]).readDomain demoEval).1 =
      .ok (some [("k", 15)]) := ⟨rfl, rfl, rfl⟩

/-! ## C88: editing the data -/

/-- **C88** (partial: everything but the compiled functions).  After the data of a model have been
replaced or edited in any way, `set_changed(all=True)` makes calibration, exogenous and domain
read as in a freshly built model. -/
theorem C88_recomputed_partial (ev : MEval V W Q C B X F) (st : MState V W Q C B X F)
    (d : MData V W Q) :
    let st' := { st with data := d }.setChanged
    (st'.readCalibration ev).1 = ((MState.fresh d).readCalibration ev).1 ∧
    (st'.readExogenous ev).1 = ((MState.fresh d).readExogenous ev).1 ∧
    (st'.readDomain ev).1 = ((MState.fresh d).readDomain ev).1 := by
  refine ⟨?_, ?_, ?_⟩
  · simp only [MState.setChanged, MState.readCalibration, MState.fresh]
    rcases ev.calib (d.calibration.getD []) with er | c <;> rfl
  · simp only [MState.setChanged, MState.readExogenous, MState.fresh]
    rcases ev.calib (d.calibration.getD []) with er | c
    · rfl
    · simp only
      rcases ev.exo c with er | x <;> rfl
  · simp only [MState.setChanged, MState.readDomain, MState.fresh]
    rcases getDomain ev d with ⟨r, d'⟩
    rcases r with er | x <;> rfl

/-- **C88 fails for functions.**  Once `functions` has been read (which building a model does),
it keeps returning the functions compiled from the old data, whatever the new data and the
sequence of operations. -/
theorem C88_functions_stale_fails (ev : MEval V W Q C B X F) (st : MState V W Q C B X F) (f : F)
    (hf : (st.readFunctions ev).1 = .ok f) (d : MData V W Q) (ops : List (MOp V)) :
    (((({ (st.readFunctions ev).2 with data := d }).setChanged).run ev ops).readFunctions ev).1 =
      .ok f := by
  have h0 : (st.readFunctions ev).2.functions = some f := by
    unfold MState.readFunctions at hf ⊢
    rcases hc : st.functions with _ | g
    · rw [hc] at hf
      simp only at hf ⊢
      rcases hh : ev.compile st.data.eqs with er | g
      · rw [hh] at hf; cases hf
      · rw [hh] at hf; cases hf; rfl
    · rw [hc] at hf; cases hf; exact hc
  have hkw : ∀ (s : MState V W Q C B X F) kw, s.functions = some f →
      (s.setCalibrationKw kw).2.functions = some f := by
    intro s kw hs
    rcases hc : s.data.calibration with _ | c
    · rw [kw_none s kw hc]; exact hs
    · rw [kw_some s kw c hc]; exact hs
  have hstep : ∀ (s : MState V W Q C B X F) op, s.functions = some f →
      (s.step ev op).functions = some f := by
    intro s op hs
    cases op with
    | setCalibration p kw =>
      rcases p with _ | ⟨p, _ | ⟨p', ps⟩⟩
      · exact hkw s kw hs
      · change (s.setCalibration [p] kw).2.functions = some f
        unfold MState.setCalibration
        simp only
        have h1 := hkw s p hs
        rcases hr : s.setCalibrationKw p with ⟨r, st1⟩
        rw [hr] at h1
        rcases r with er | u
        · exact h1
        · exact hkw st1 kw h1
      · exact hkw s kw hs
    | readCalibration =>
      change (s.readCalibration ev).2.functions = some f
      unfold MState.readCalibration
      rcases s.calibration with _ | c
      · simp only
        rcases ev.calib (s.data.calibration.getD []) with er | c <;> exact hs
      · exact hs
    | readExogenous =>
      change (s.readExogenous ev).2.functions = some f
      unfold MState.readExogenous
      rcases s.exogenous with _ | c
      · simp only
        rcases ev.calib (s.data.calibration.getD []) with er | c
        · exact hs
        · simp only
          rcases ev.exo c with er | x <;> exact hs
      · exact hs
    | readDomain =>
      change (s.readDomain ev).2.functions = some f
      unfold MState.readDomain
      rcases s.domain with _ | c
      · simp only
        rcases getDomain ev s.data with ⟨r, d'⟩
        rcases r with er | r <;> exact hs
      · exact hs
    | readFunctions =>
      change (s.readFunctions ev).2.functions = some f
      unfold MState.readFunctions
      simp only [hs]
  have hrun : ∀ (ops : List (MOp V)) (s : MState V W Q C B X F), s.functions = some f →
      (s.run ev ops).functions = some f := by
    intro ops
    induction ops with
    | nil => intro s hs; exact hs
    | cons op ops ih => intro s hs; exact ih _ (hstep s op hs)
  have := hrun ops (({ (st.readFunctions ev).2 with data := d }).setChanged) h0
  have hread : ∀ s : MState V W Q C B X F, s.functions = some f →
      (s.readFunctions ev).1 = .ok f := by
    intro s hs
    unfold MState.readFunctions
    simp only [hs]
  exact hread _ this

/-- The failure above is real: new equations, `set_changed(all=True)`, old functions. -/
example : ((({ ((MState.fresh demoData).readFunctions demoEval).2 with
      data := { demoData with eqs := 4 } }).setChanged).readFunctions demoEval).1 = .ok 3 ∧
    ((MState.fresh { demoData with eqs := 4 }).readFunctions demoEval).1 = .ok 4 := ⟨rfl, rfl⟩

/-! ## C89: order of the domain -/

/-- The evaluator keeps the keys of the domain section, in order. -/
def MEval.KeepsKeys (ev : MEval V W Q C B X F) : Prop :=
  ∀ d c b, ev.bounds d c = .ok b → b.map (·.1) = d.map (·.1)

/-- What the vectors of bounds of a domain are: position `i` belongs to the `i`-th key. -/
theorem domainMinMax {K : Type} (b : PyDict (K × K)) (hn : (b.map (·.1)).Nodup) :
    domainMin b = .ok (b.map fun kv => kv.2.1) ∧ domainMax b = .ok (b.map fun kv => kv.2.2) := by
  have hget : ∀ kv ∈ b, PyDict.get b kv.1 = .ok kv.2 := by
    rintro ⟨k, v⟩ hk
    simp only [PyDict.get, PyDict.get?_of_mem_nodup _ hn hk]
  constructor
  · unfold domainMin domainStates
    rw [mapM_ok_iff, List.forall₂_map_left_iff, List.forall₂_map_right_iff, List.forall₂_same]
    intro kv hk
    simp only [hget kv hk]; rfl
  · unfold domainMax domainStates
    rw [mapM_ok_iff, List.forall₂_map_left_iff, List.forall₂_map_right_iff, List.forall₂_same]
    intro kv hk
    simp only [hget kv hk]; rfl

/-- **C89** (partial).  If the keys of the domain section that are states come in the declared
order of the states (each state once), a domain that is read has the states in declared order, and
entry `i` of `domain.min` and `domain.max` is the bound given for state `i`. -/
theorem C89_bounds_in_state_order_partial {K : Type} (ev : MEval V W Q C (K × K) X F)
    (hk : ev.KeepsKeys) (d : MData V W Q) (hs : d.states.Nodup) (sec : PyDict W)
    (hd : d.domain = some sec) (hne : d.states ≠ [])
    (hord : (sec.filter fun kv => decide (kv.1 ∈ d.states)).map (·.1) = d.states)
    (b : PyDict (K × K)) (hb : (getDomain ev d).1 = .ok (some b)) :
    domainStates b = d.states ∧ ∃ lo hi, domainMin b = .ok lo ∧ domainMax b = .ok hi ∧
      ∀ (i : ℕ) s, d.states[i]? = some s →
        ∃ bd, b.get? s = some bd ∧ lo[i]? = some bd.1 ∧ hi[i]? = some bd.2 := by
  have hcd : (cleanDomain d).1 = sec.filter fun kv => decide (kv.1 ∈ d.states) := by
    simp only [cleanDomain, hd, Option.getD_some]
    rw [if_neg]
    intro hh
    simp only [Bool.and_eq_true, List.isEmpty_iff] at hh
    rw [hh.1] at hord
    exact hne hord.symm
  have hkeys : domainStates b = d.states := by
    unfold getDomain at hb
    rcases hcal : ev.calib (d.calibration.getD []) with er | c
    · rw [hcal] at hb; cases hb
    · rw [hcal] at hb
      simp only at hb
      split_ifs at hb
      · cases hb
      · rcases hbb : ev.bounds (cleanDomain d).1 c with er | b'
        · rw [hbb] at hb; cases hb
        · rw [hbb] at hb
          cases hb
          rw [domainStates, hk _ _ _ hbb, hcd, hord]
  have hmm := domainMinMax b (by rw [← domainStates, hkeys]; exact hs)
  refine ⟨hkeys, _, _, hmm.1, hmm.2, ?_⟩
  intro i s hi
  have hbi : ∃ kv, b[i]? = some kv ∧ kv.1 = s := by
    rw [← hkeys, domainStates, List.getElem?_map] at hi
    rcases hx : b[i]? with _ | kv
    · rw [hx] at hi; cases hi
    · rw [hx] at hi
      exact ⟨kv, rfl, by simpa using hi⟩
  obtain ⟨⟨k, v⟩, hbi, rfl⟩ := hbi
  refine ⟨v, ?_, by simp [hbi], by simp [hbi]⟩
  exact PyDict.get?_of_mem_nodup _ (by rw [← domainStates, hkeys]; exact hs)
    (List.mem_of_getElem? hbi)

/-- An evaluator for the witnesses: bounds are pairs of numbers. -/
def demoEval2 : MEval ℤ (ℤ × ℤ) ℕ Unit (ℤ × ℤ) ℤ ℕ where
  calib := fun _ => .ok ()
  bounds := fun d _ => .ok d
  exo := fun _ => .ok 0
  compile := .ok

/-- **C89 fails in general**: the order is that of the domain section.  With states `z, k` and a
domain section listing `k` first, the first entry of `min`, used for the first state by
`endo_grid`, is the bound of `k`. -/
theorem C89_section_order_fails :
    ∃ (d : MData ℤ (ℤ × ℤ) ℕ) (b : PyDict (ℤ × ℤ)), d.states = ["z", "k"] ∧
      (getDomain demoEval2 d).1 = .ok (some b) ∧ b.get? "z" = some (-1, 1) ∧
      b.get? "k" = some (5, 9) ∧ domainMin b = .ok [5, -1] ∧ domainMax b = .ok [9, 1] :=
  ⟨⟨["z", "k"], none, some [("k", (5, 9)), ("z", (-1, 1))], none, 0⟩,
    [("k", (5, 9)), ("z", (-1, 1))], rfl, rfl, by decide, by decide, by decide, by decide⟩

/-- Non-vacuity of the partial theorem. -/
example : demoEval2.KeepsKeys ∧ (getDomain demoEval2
    ⟨["z", "k"], none, some [("z", (-1, 1)), ("q", (0, 0)), ("k", (5, 9))], none, 0⟩).1 =
      .ok (some [("z", (-1, 1)), ("k", (5, 9))]) :=
  ⟨fun d c b h => by cases h; rfl, rfl⟩

/-- **C89** (missing bounds).  With a non-empty section whose keys are distinct, the domain is
returned only if every state has a bound. -/
theorem C89_missing_raises {K : Type} (ev : MEval V W Q C (K × K) X F) (d : MData V W Q)
    (sec : PyDict W) (hd : d.domain = some sec) (hn : (sec.map (·.1)).Nodup)
    (hsome : ∃ kv ∈ sec, kv.1 ∈ d.states) (s : String) (hs : s ∈ d.states)
    (hmiss : sec.get? s = none) (c : C)
    (hc : ev.calib (d.calibration.getD []) = .ok c) :
    (getDomain ev d).1 = .error (.exception "Missing domain") := by
  obtain ⟨kv, hkv, hks⟩ := hsome
  have hmem : kv ∈ sec.filter fun kv => decide (kv.1 ∈ d.states) := by
    rw [List.mem_filter]; exact ⟨hkv, by simpa using hks⟩
  have hcd : (cleanDomain d).1 = sec.filter fun kv => decide (kv.1 ∈ d.states) := by
    simp only [cleanDomain, hd, Option.getD_some]
    rw [if_neg]
    intro hh
    simp only [Bool.and_eq_true, List.isEmpty_iff] at hh
    rw [hh.1] at hmem
    simp at hmem
  have hlt : (sec.filter fun kv => decide (kv.1 ∈ d.states)).length < d.states.length := by
    have h1 : ((sec.filter fun kv => decide (kv.1 ∈ d.states)).map (·.1)).Nodup :=
      hn.sublist (List.filter_sublist.map _)
    have h2 : (s :: (sec.filter fun kv => decide (kv.1 ∈ d.states)).map (·.1)).Nodup := by
      rw [List.nodup_cons]
      refine ⟨?_, h1⟩
      intro hh
      obtain ⟨kv', hk', hks'⟩ := List.mem_map.1 hh
      exact (PyDict.get?_eq_none_iff _ _).1 hmiss
        (List.mem_map.2 ⟨kv', (List.mem_filter.1 hk').1, hks'⟩)
    have h3 : (s :: (sec.filter fun kv => decide (kv.1 ∈ d.states)).map (·.1)) ⊆ d.states := by
      intro x hx
      rcases List.mem_cons.1 hx with rfl | hx
      · exact hs
      · obtain ⟨kv', hk', rfl⟩ := List.mem_map.1 hx
        simpa using (List.mem_filter.1 hk').2
    have := (List.subperm_of_subset h2 h3).length_le
    simp only [List.length_cons, List.length_map] at this
    omega
  unfold getDomain
  simp only [hc, hcd]
  rw [if_neg (by
    rw [List.isEmpty_iff]
    intro hh
    rw [hh] at hmem
    simp at hmem), if_pos hlt]

/-- **C89** (old style).  Without bounds for any state in the domain section, the bounds are taken
from `options: grid: min/max`: state `i` gets the `i`-th pair, in declared order; this holds
whatever the section, and there are then no other entries. -/
theorem C89_grid_options {K : Type} (ev : MEval V W Q C (K × K) X F) (d : MData V W Q)
    (hnd : d.states.Nodup) (hno : ∀ kv ∈ d.domain.getD [], kv.1 ∉ d.states) (bs : List W)
    (hg : d.gridBounds = some bs) (hl : bs.length = d.states.length) (b : PyDict (K × K))
    (hb : (getDomain ev d).1 = .ok (some b)) :
    ∃ sec c, ev.calib (d.calibration.getD []) = .ok c ∧ ev.bounds sec c = .ok b ∧
      sec.map (·.1) = d.states ∧
      ∀ (i : ℕ) s w, d.states[i]? = some s → bs[i]? = some w → PyDict.get? sec s = some w := by
  have hf : ((d.domain.getD []).filter fun kv => decide (kv.1 ∈ d.states)) = [] := by
    rw [List.filter_eq_nil_iff]
    intro kv hk
    simpa using hno kv hk
  have hkeys : (d.states.zip bs).map (·.1) = d.states := by
    have := List.map_fst_zip (l₁ := d.states) (l₂ := bs) (by omega)
    exact this
  have hcd : (cleanDomain d).1 = d.states.zip bs := by
    simp only [cleanDomain, hf, hg]
    by_cases he : d.states = []
    · simp [he]
    · rw [if_pos (by simpa using he)]
  unfold getDomain at hb
  rcases hcal : ev.calib (d.calibration.getD []) with er | c
  · rw [hcal] at hb; cases hb
  · rw [hcal] at hb
    simp only [hcd] at hb
    refine ⟨d.states.zip bs, c, rfl, ?_, hkeys, ?_⟩
    · split_ifs at hb
      · cases hb
      · rcases hbb : ev.bounds (d.states.zip bs) c with er | b'
        · rw [hbb] at hb; cases hb
        · rw [hbb] at hb; cases hb; rfl
    · intro i s w hs hw
      apply PyDict.get?_of_mem_nodup _ (by rw [hkeys]; exact hnd)
      apply List.mem_of_getElem? (i := i)
      rw [List.getElem?_zip_eq_some]
      exact ⟨hs, hw⟩

/-- Non-vacuity: two states, bounds from the options. -/
example : (getDomain demoEval2
    ⟨["z", "k"], none, none, some [(-1, 1), (5, 9)], 0⟩).1 =
      .ok (some [("z", (-1, 1)), ("k", (5, 9))]) := rfl

end Dolo
