import Mathlib.Data.Rat.Defs
import Verif.Lemmas.Calibration

/-!
# Calibration objects and aliases (C43, C44)
-/

set_option linter.unusedSectionVars false

namespace Dolo

section C43

variable {K : Type}

/-- A calibration that fits the declared symbols: every calibrated group is declared (once) and
its array has one entry per declared symbol; no symbol is declared twice. -/
structure CalibFits (h : Heap K) (symbols : PyDict (List String)) (calib : List (String × ℕ)) :
    Prop where
  groups : (calib.map (·.1)).Nodup
  arrays : ∀ g r, (g, r) ∈ calib → ∃ vs, h.read r = some vs ∧
    (g ≠ "covariances" → ∃ syms, symbols.get? g = some syms ∧ syms.Nodup ∧
      syms.length = vs.length)
  distinct : calib.Pairwise fun a b => ∀ sa sb, symbols.get? a.1 = some sa →
      symbols.get? b.1 = some sb → ∀ s ∈ sa, s ∉ sb

/-- `p` is the name of a group or an alias of one. -/
def IsGroupName (symbols : PyDict (List String)) (p : String) : Prop :=
  symbols.has p = true ∨ equivalentSymbols.has p = true

theorem mkCalib_shape (h : Heap K) (symbols : PyDict (List String)) (calib : List (String × ℕ))
    (c : CalibObj K) (h' : Heap K) (e : mkCalib h symbols calib = .ok (c, h')) :
    ∃ contents : List (String × List K),
      List.Forall₂ (fun gr gc => gc.1 = gr.1 ∧ h.read gr.2 = some gc.2) calib contents ∧
      calibrationToDict symbols contents [] = .ok c.flat ∧
      h' = h ++ contents.map (fun gc => (⟨false, gc.2⟩ : Arr K)) ∧
      c.symbols = symbols ∧ c.grouped.equivalences = equivalentSymbols ∧
      c.grouped.store = (contents.map (·.1)).zip
        ((List.range contents.length).map fun i => h.length + i) := by
  unfold mkCalib at e
  rcases hc : calib.mapM (fun gr => do
    let a ← pyGet h gr.2
    pure (gr.1, a.data)) with er | contents
  · rw [hc] at e; cases e
  · rw [hc] at e
    rcases hd : calibrationToDict symbols contents [] with er | flat
    · change (do
        let flat ← calibrationToDict symbols contents []
        _) = _ at e
      rw [hd] at e; cases e
    · change (do
        let flat ← calibrationToDict symbols contents []
        _) = _ at e
      rw [hd] at e
      have e' := Except.ok.inj e
      obtain ⟨rfl, rfl⟩ := Prod.mk.inj e'
      refine ⟨contents, ?_, hd, rfl, rfl, rfl, rfl⟩
      refine ((mapM_ok_iff _ _ _).1 hc).imp ?_
      intro gr gc hg
      rcases ha : pyGet h gr.2 with er | a
      · rw [ha] at hg; cases hg
      · rw [ha] at hg
        have hg' : (gr.1, a.data) = gc := Except.ok.inj hg
        subst hg'
        refine ⟨rfl, ?_⟩
        unfold pyGet at ha
        rcases hh : h[gr.2]? with _ | a'
        · rw [hh] at ha; cases ha
        · rw [hh] at ha
          obtain rfl := Except.ok.inj ha
          simp [Heap.read, hh]

theorem mkCalib_contents (h : Heap K) (symbols : PyDict (List String))
    (calib : List (String × ℕ)) (hf : CalibFits h symbols calib) :
    ∃ c h', mkCalib h symbols calib = .ok (c, h') := by
  have hm : ∃ contents, calib.mapM (fun gr => do
      let a ← pyGet h gr.2
      pure (gr.1, a.data)) = .ok contents ∧
      List.Forall₂ (fun gr gc => gc.1 = gr.1 ∧ h.read gr.2 = some gc.2) calib contents := by
    have hall := hf.arrays
    clear hf
    induction calib with
    | nil => exact ⟨[], rfl, .nil⟩
    | cons gr calib ih =>
      obtain ⟨contents, e, hc⟩ := ih fun g r hm => hall g r (List.mem_cons_of_mem _ hm)
      obtain ⟨vs, hr, -⟩ := hall gr.1 gr.2 (by simp)
      unfold Heap.read at hr
      rcases ha : h[gr.2]? with _ | a
      · rw [ha] at hr; cases hr
      · refine ⟨(gr.1, a.data) :: contents, ?_, .cons ⟨rfl, by simp [Heap.read, ha]⟩ hc⟩
        rw [List.mapM_cons, e]
        simp [pyGet, ha]; rfl
  obtain ⟨contents, e, hc⟩ := hm
  have hlen := hc.length_eq
  obtain ⟨d, hd, -, -⟩ := calibrationToDict_spec symbols contents [] (by
    intro g vs hm hg
    obtain ⟨i, hi, hiv⟩ := List.getElem_of_mem hm
    have hi' : i < calib.length := by omega
    obtain ⟨h1, h2⟩ := (List.forall₂_iff_get.1 hc).2 i hi' hi
    simp only [List.get_eq_getElem, hiv] at h1 h2
    obtain ⟨vs', hr, hs⟩ := hf.arrays calib[i].1 calib[i].2 (by simp)
    obtain ⟨syms, s1, s2, s3⟩ := hs (h1 ▸ hg)
    have : vs' = vs := Option.some.inj (hr.symm.trans h2)
    subst this
    exact ⟨syms, h1 ▸ s1, s2, s3⟩) (by
    rw [List.pairwise_iff_getElem]
    intro i j hi hj hij sa sb ha hb s hsa
    have h1 := ((List.forall₂_iff_get.1 hc).2 i (by omega) hi).1
    have h2 := ((List.forall₂_iff_get.1 hc).2 j (by omega) hj).1
    simp only [List.get_eq_getElem] at h1 h2
    exact (List.pairwise_iff_getElem.1 hf.distinct) i j (by omega) (by omega) hij sa sb
      (h1 ▸ ha) (h2 ▸ hb) s hsa)
  refine ⟨⟨symbols, d, ⟨(contents.map (·.1)).zip
    ((List.range contents.length).map fun i => h.length + i), equivalentSymbols⟩⟩,
    h ++ contents.map (fun gc => (⟨false, gc.2⟩ : Arr K)), ?_⟩
  unfold mkCalib
  rw [e]
  simp only [bind, Except.bind, hd]
  rfl

/-- **C43** (lookups).  For a calibration that fits the declared symbols: construction
succeeds; a group name returns the vector of its values, in declared order; the name of the
`i`-th symbol of a group returns the `i`-th entry of that vector; a name that is neither raises
`KeyError`. -/
theorem C43_lookups (h : Heap K) (symbols : PyDict (List String)) (calib : List (String × ℕ))
    (hf : CalibFits h symbols calib) :
    ∃ c h', mkCalib h symbols calib = .ok (c, h') ∧
      (∀ g r vs, (g, r) ∈ calib → symbols.has g = true → equivalentSymbols.has g = false →
        h.read r = some vs →
        ∃ r', c.getitem (.name g) = .ok (.one (.arr r')) ∧ h'.read r' = some vs) ∧
      (∀ g r vs syms (i : ℕ) s, (g, r) ∈ calib → g ≠ "covariances" → h.read r = some vs →
        symbols.get? g = some syms → syms[i]? = some s → ¬ IsGroupName symbols s →
        ∃ v, vs[i]? = some v ∧ c.getitem (.name s) = .ok (.one (.num v))) ∧
      (∀ p, ¬ IsGroupName symbols p →
        (∀ g r syms, (g, r) ∈ calib → symbols.get? g = some syms → p ∉ syms) →
        c.getitem (.name p) = .error .keyError) := by
  obtain ⟨c, h', e⟩ := mkCalib_contents h symbols calib hf
  obtain ⟨contents, hc, hd, hh, hsy, heq, hst⟩ := mkCalib_shape h symbols calib c h' e
  have hlen := hc.length_eq
  have hto : ∀ g r vs, (g, r) ∈ calib → h.read r = some vs →
      ∃ (i : ℕ), contents[i]? = some (g, vs) := by
    intro g r vs hm hr
    obtain ⟨i, hi, hiv⟩ := List.getElem_of_mem hm
    have hi' : i < contents.length := by omega
    obtain ⟨h1, h2⟩ := (List.forall₂_iff_get.1 hc).2 i hi hi'
    simp only [List.get_eq_getElem, hiv] at h1 h2
    refine ⟨i, ?_⟩
    rw [List.getElem?_eq_getElem hi']
    congr 1
    exact Prod.ext h1 (Option.some.inj (h2.symm.trans hr))
  have hfrom : ∀ g vs, (g, vs) ∈ contents → ∃ r, (g, r) ∈ calib ∧ h.read r = some vs := by
    intro g vs hm
    obtain ⟨i, hi, hiv⟩ := List.getElem_of_mem hm
    have hi' : i < calib.length := by omega
    obtain ⟨h1, h2⟩ := (List.forall₂_iff_get.1 hc).2 i hi' hi
    simp only [List.get_eq_getElem, hiv] at h1 h2
    exact ⟨calib[i].2, by rw [h1]; simp, h2⟩
  have hnames : contents.map (·.1) = calib.map (·.1) := by
    apply List.ext_getElem (by simp [hlen])
    intro i h1 h2
    simp only [List.length_map] at h1 h2
    have := ((List.forall₂_iff_get.1 hc).2 i h2 h1).1
    simpa using this
  obtain ⟨d', ed, d1, d2⟩ := calibrationToDict_spec symbols contents [] (by
    intro g vs hm hg
    obtain ⟨r, hr, hv⟩ := hfrom g vs hm
    obtain ⟨vs', hv', hs⟩ := hf.arrays g r hr
    obtain rfl : vs' = vs := Option.some.inj (hv'.symm.trans hv)
    exact hs hg) (by
    rw [List.pairwise_iff_getElem]
    intro i j hi hj hij sa sb ha hb s hsa
    have h1 := ((List.forall₂_iff_get.1 hc).2 i (by omega) hi).1
    have h2 := ((List.forall₂_iff_get.1 hc).2 j (by omega) hj).1
    simp only [List.get_eq_getElem] at h1 h2
    exact (List.pairwise_iff_getElem.1 hf.distinct) i j (by omega) (by omega) hij sa sb
      (h1 ▸ ha) (h2 ▸ hb) s hsa)
  obtain rfl : d' = c.flat := Except.ok.inj (ed.symm.trans hd)
  refine ⟨c, h', e, ?_, ?_, ?_⟩
  · intro g r vs hm hg ha hr
    obtain ⟨i, hi⟩ := hto g r vs hm hr
    have hi' : i < contents.length := (List.getElem?_eq_some_iff.1 hi).1
    refine ⟨h.length + i, ?_, ?_⟩
    · have hget : PyDict.get? c.grouped.store g = some (h.length + i) := by
        apply PyDict.get?_of_mem_nodup
        · rw [hst, List.map_fst_zip (by simp), hnames]
          exact hf.groups
        · rw [hst]
          refine List.mem_of_getElem? (i := i) ?_
          rw [List.getElem?_zip_eq_some]
          refine ⟨by simp [hi], by simp [hi']⟩
      have hne : PyDict.get? c.grouped.equivalences g = none := by
        rw [heq]
        rcases hg' : PyDict.get? equivalentSymbols g with _ | w
        · rfl
        · rw [(PyDict.has_iff _ _).2 ⟨w, hg'⟩] at ha; cases ha
      simp only [CalibObj.getitem, CalibObj.getName, hsy, hg, Bool.true_or, if_true,
        LoosyDict.getitem, hne, PyDict.get, hget]
      rfl
    · rw [hh, Heap.read, List.getElem?_append_right (by omega)]
      simp [hi]
  · intro g r vs syms i s hm hg hr hsyms hi hng
    obtain ⟨k, hk⟩ := hto g r vs hm hr
    have := d1 g vs syms i s (List.mem_of_getElem? hk) hg hsyms hi
    obtain ⟨vs', hv', hs⟩ := hf.arrays g r hm
    obtain rfl : vs' = vs := Option.some.inj (hv'.symm.trans hr)
    obtain ⟨syms', s1, s2, s3⟩ := hs hg
    obtain rfl : syms' = syms := Option.some.inj (s1.symm.trans hsyms)
    have hil : i < vs'.length := s3 ▸ (List.getElem?_eq_some_iff.1 hi).1
    refine ⟨vs'[i], List.getElem?_eq_getElem hil, ?_⟩
    rw [List.getElem?_eq_getElem hil] at this
    have hn1 : symbols.has s = false := by
      rcases hb : symbols.has s
      · rfl
      · exact absurd (Or.inl hb) hng
    have hn2 : equivalentSymbols.has s = false := by
      rcases hb : equivalentSymbols.has s
      · rfl
      · exact absurd (Or.inr hb) hng
    simp only [CalibObj.getitem, CalibObj.getName, hsy, heq, hn1, hn2, Bool.or_self,
      Bool.false_eq_true, if_false, PyDict.get, this]
    rfl
  · intro p hng hp
    have hn1 : symbols.has p = false := by
      rcases hb : symbols.has p
      · rfl
      · exact absurd (Or.inl hb) hng
    have hn2 : equivalentSymbols.has p = false := by
      rcases hb : equivalentSymbols.has p
      · rfl
      · exact absurd (Or.inr hb) hng
    have : PyDict.get? c.flat p = none := by
      rw [d2 p]
      · rfl
      · intro g vs syms hm _ hs
        obtain ⟨r, hr, -⟩ := hfrom g vs hm
        exact hp g r syms hr hs
    simp only [CalibObj.getitem, CalibObj.getName, hsy, heq, hn1, hn2, Bool.or_self,
      Bool.false_eq_true, if_false, PyDict.get, this]
    rfl

/-- **C43** (aliases): `calib["actions"]` is `calib["controls"]`. -/
theorem C43_alias (h : Heap K) (symbols : PyDict (List String)) (calib : List (String × ℕ))
    (c : CalibObj K) (h' : Heap K) (e : mkCalib h symbols calib = .ok (c, h'))
    (hs : symbols.has "controls" = true) :
    c.getitem (.name "actions") = c.getitem (.name "controls") := by
  obtain ⟨contents, hc, hd, hh, hsy, heq, hst⟩ := mkCalib_shape h symbols calib c h' e
  have h1 : equivalentSymbols.has "actions" = true := by decide
  have h2 : PyDict.get? equivalentSymbols "actions" = some "controls" := by decide
  have h3 : PyDict.get? equivalentSymbols "controls" = none := by decide
  simp [CalibObj.getitem, CalibObj.getName, hsy, heq, hs, h1, LoosyDict.getitem, h2, h3]

/-- **C43** (tuples): a tuple lookup succeeds exactly when every single lookup does, and then
returns their results in order. -/
theorem C43_tuple (c : CalibObj K) (ps : List String) (l : List (CVal K)) :
    c.getitem (.tuple ps) = .ok (.many l) ↔
      List.Forall₂ (fun p v => c.getitem (.name p) = .ok (.one v)) ps l := by
  have hone : ∀ p v, c.getitem (.name p) = .ok (.one v) ↔ c.getName p = .ok v := by
    intro p v
    simp only [CalibObj.getitem]
    rcases c.getName p with er | w
    · constructor <;> intro h <;> cases h
    · constructor
      · intro h
        have := Except.ok.inj h
        cases this; rfl
      · intro h
        obtain rfl := Except.ok.inj h
        rfl
  simp only [hone]
  rw [← mapM_ok_iff]
  simp only [CalibObj.getitem]
  rcases List.mapM c.getName ps with er | w
  · constructor <;> intro h <;> cases h
  · constructor
    · intro h
      have := Except.ok.inj h
      cases this; rfl
    · intro h
      obtain rfl := Except.ok.inj h
      rfl

/-- What a user sees of one looked-up value. -/
def CVal.seen (h : Heap K) : CVal K → Option (List K) ⊕ K
  | .arr r => .inl (h.read r)
  | .num v => .inr v

/-- What a user sees of the result of a lookup. -/
def CRes.seen (h : Heap K) : CRes K → List (Option (List K) ⊕ K)
  | .one v => [v.seen h]
  | .many l => l.map (CVal.seen h)

/-- **C43** (isolation).  Whatever user code does afterwards — creating arrays and assigning to
entries of any arrays it holds, those passed to the constructor or those returned by earlier
lookups — every lookup shows the same values as right after construction. -/
theorem C43_isolated (h : Heap K) (symbols : PyDict (List String)) (calib : List (String × ℕ))
    (c : CalibObj K) (h' : Heap K) (e : mkCalib h symbols calib = .ok (c, h'))
    (ops : List (HeapOp K)) (k : CKey) (res : CRes K) (hres : c.getitem k = .ok res) :
    res.seen (ops.foldl HeapOp.run h') = res.seen h' := by
  obtain ⟨contents, hc, hd, hh, hsy, heq, hst⟩ := mkCalib_shape h symbols calib c h' e
  have hrefs : ∀ g r, PyDict.get? c.grouped.store g = some r →
      ∃ data, h'[r]? = some ⟨false, data⟩ := by
    intro g r hg
    have hm := PyDict.mem_of_get? _ hg
    rw [hst] at hm
    have hm2 := (List.of_mem_zip hm).2
    obtain ⟨i, hi, rfl⟩ := List.mem_map.1 hm2
    have hi' : i < contents.length := List.mem_range.1 hi
    refine ⟨contents[i].2, ?_⟩
    rw [hh, List.getElem?_append_right (by omega)]
    simp [hi']
  have hinv : ∀ (ops : List (HeapOp K)) (H : Heap K) (r : ℕ) (data : List K),
      H[r]? = some (⟨false, data⟩ : Arr K) →
      (ops.foldl HeapOp.run H)[r]? = some (⟨false, data⟩ : Arr K) := by
    intro ops
    induction ops with
    | nil => intro H r data hr; exact hr
    | cons op ops ih =>
      intro H r data hr
      rw [List.foldl_cons]
      apply ih
      cases op with
      | alloc d =>
        simp only [HeapOp.run]
        rw [List.getElem?_append_left (List.getElem?_eq_some_iff.1 hr).1]
        exact hr
      | assign r' i v =>
        simp only [HeapOp.run, List.getElem?_modify, hr]
        by_cases hrr : r' = r <;> simp [hrr]
  have hval : ∀ p v, c.getName p = .ok v →
      v.seen (ops.foldl HeapOp.run h') = v.seen h' := by
    intro p v hv
    unfold CalibObj.getName at hv
    split_ifs at hv with hb
    · rcases hg : c.grouped.getitem p with er | r
      · rw [hg] at hv; cases hv
      · rw [hg] at hv
        obtain rfl := Except.ok.inj hv
        unfold LoosyDict.getitem at hg
        have hex : ∃ g, PyDict.get? c.grouped.store g = some r := by
          have hget : ∀ (d : PyDict ℕ) g, d.get g = .ok r → d.get? g = some r := by
            intro d g hd
            unfold PyDict.get at hd
            rcases hs : PyDict.get? d g with _ | r'
            · rw [hs] at hd; cases hd
            · rw [hs] at hd
              obtain rfl := Except.ok.inj hd
              rfl
          exact ⟨_, hget _ _ hg⟩
        obtain ⟨g, hg⟩ := hex
        obtain ⟨data, hdata⟩ := hrefs g r hg
        simp only [CVal.seen, Heap.read, hdata, hinv ops h' r data hdata]
    · rcases hg : c.flat.get p with er | w
      · rw [hg] at hv; cases hv
      · rw [hg] at hv
        obtain rfl := Except.ok.inj hv
        rfl
  cases k with
  | name p =>
    simp only [CalibObj.getitem] at hres
    rcases hg : c.getName p with er | v
    · rw [hg] at hres; cases hres
    · rw [hg] at hres
      obtain rfl := Except.ok.inj hres
      simp only [CRes.seen, hval p v hg]
  | tuple ps =>
    simp only [CalibObj.getitem] at hres
    rcases hg : ps.mapM c.getName with er | l
    · rw [hg] at hres; cases hres
    · rw [hg] at hres
      obtain rfl := Except.ok.inj hres
      have hall := (mapM_ok_iff _ _ _).1 hg
      simp only [CRes.seen]
      clear hg hres
      induction hall with
      | nil => rfl
      | cons h1 _ ih => simp only [List.map_cons, hval _ _ h1]; rw [ih]

/-- **C43**: building a calibration leaves the caller's arrays as they were, writeable ones
included. -/
theorem C43_input_untouched (h : Heap K) (symbols : PyDict (List String))
    (calib : List (String × ℕ)) (c : CalibObj K) (h' : Heap K)
    (e : mkCalib h symbols calib = .ok (c, h')) (r : ℕ) (hr : r < h.length) :
    h'[r]? = h[r]? := by
  obtain ⟨contents, hc, hd, hh, hsy, heq, hst⟩ := mkCalib_shape h symbols calib c h' e
  rw [hh, List.getElem?_append_left hr]

/-- **C43** (from the solved calibration).  `calibration_to_vector` lists, for each declared
group, the solved values of its symbols in declared order, `nan` for symbols without a value. -/
theorem C43_vectors (nan : K) (symbols : PyDict (List String)) (sol : PyDict K) (g : String)
    (syms : List String) (hg : symbols.get? g = some syms) :
    ∃ vs, (calibrationToVector nan symbols sol).get? g = some vs ∧ vs.length = syms.length ∧
      ∀ (i : ℕ) s, syms[i]? = some s →
        (∀ v, sol.get? s = some v → vs[i]? = some v) ∧ (sol.get? s = none → vs[i]? = some nan) := by
  refine ⟨syms.map fun s => (sol.get? s).getD nan, ?_, by simp, ?_⟩
  · unfold calibrationToVector
    induction symbols with
    | nil => simp [PyDict.get?] at hg
    | cons gs symbols ih =>
      obtain ⟨g0, s0⟩ := gs
      rw [PyDict.get?_cons] at hg
      rw [List.map_cons, PyDict.get?_cons]
      by_cases hh : g0 = g
      · simp only [hh, if_true, Option.some.injEq] at hg ⊢
        rw [hg]
      · rw [if_neg hh] at hg ⊢
        exact ih hg
  · intro i s hi
    constructor
    · intro v hv; simp [hi, hv]
    · intro hv; simp [hi, hv]

/-- Non-vacuity: two groups, one of them with two symbols. -/
def exHeap : Heap ℚ := [⟨true, [1, 2]⟩, ⟨true, [3]⟩]

/-- The declared symbols of the example. -/
def exSymbols : PyDict (List String) := [("states", ["z", "k"]), ("controls", ["i"])]

example : CalibFits exHeap exSymbols [("states", 0), ("controls", 1)] := by
  refine ⟨by decide, ?_, ?_⟩
  · intro g r hm
    simp only [List.mem_cons, Prod.mk.injEq, List.not_mem_nil, or_false] at hm
    rcases hm with ⟨rfl, rfl⟩ | ⟨rfl, rfl⟩
    · exact ⟨[1, 2], rfl, fun _ => ⟨["z", "k"], by decide, by decide, rfl⟩⟩
    · exact ⟨[3], rfl, fun _ => ⟨["i"], by decide, by decide, rfl⟩⟩
  · simp only [List.pairwise_cons, List.mem_cons, List.not_mem_nil, or_false, forall_eq]
    refine ⟨?_, by simp⟩
    intro sa sb ha hb s hs
    have h1 : exSymbols.get? "states" = some ["z", "k"] := by decide
    have h2 : exSymbols.get? "controls" = some ["i"] := by decide
    rw [h1] at ha; rw [h2] at hb
    obtain rfl := Option.some.inj ha
    obtain rfl := Option.some.inj hb
    simp at hs ⊢
    rcases hs with rfl | rfl <;> decide

end C43

section C44

variable {α : Type}

/-- A value, or `KeyError`. -/
def orKeyError : Option α → Except Err α
  | some v => .ok v
  | none => .error .keyError

/-- The value a history of assignments leaves under a key. -/
def lastStored (init : String → Option α) : List (String × α) → String → Option α
  | [], k => init k
  | (k', v) :: rest, k => lastStored (fun j => if j = k' then some v else init j) rest k

theorem lastStored_setitem (d : LoosyDict α) (hist : List (String × α)) (k : String) :
    (hist.foldl (fun d kv => d.setitem kv.1 kv.2) d).store.get? k =
      lastStored d.store.get? hist k ∧
    (hist.foldl (fun d kv => d.setitem kv.1 kv.2) d).equivalences = d.equivalences := by
  induction hist generalizing d with
  | nil => exact ⟨rfl, rfl⟩
  | cons kv hist ih =>
    obtain ⟨h1, h2⟩ := ih (d.setitem kv.1 kv.2)
    refine ⟨?_, h2⟩
    rw [List.foldl_cons, h1]
    have : (d.setitem kv.1 kv.2).store.get? = fun j => if j = kv.1 then some kv.2
        else d.store.get? j := by
      funext j
      exact PyDict.get?_set _ _ _ _
    rw [this]
    rfl

/-- **C44.** After any history of assignments to a dictionary with equivalences: looking up a key
that is not an alias returns the value last stored under it (`KeyError` if there is none), and
looking up an alias returns the value last stored under its canonical key. -/
theorem C44_lookup_after_history (d : LoosyDict α) (hist : List (String × α)) (k : String) :
    (d.equivalences.get? k = none →
      (hist.foldl (fun d kv => d.setitem kv.1 kv.2) d).getitem k =
        orKeyError (lastStored d.store.get? hist k)) ∧
    (∀ k', d.equivalences.get? k = some k' →
      (hist.foldl (fun d kv => d.setitem kv.1 kv.2) d).getitem k =
        orKeyError (lastStored d.store.get? hist k')) := by
  constructor
  · intro hk
    obtain ⟨h1, h2⟩ := lastStored_setitem d hist k
    simp only [LoosyDict.getitem, h2, hk, PyDict.get, h1]
    rfl
  · intro k' hk
    obtain ⟨h1, h2⟩ := lastStored_setitem d hist k'
    simp only [LoosyDict.getitem, h2, hk, PyDict.get, h1]
    rfl

/-- **C44**: an alias and its canonical key always show the same thing (when the canonical key
is not itself an alias). -/
theorem C44_alias_agrees (d : LoosyDict α) (hist : List (String × α)) (k k' : String)
    (hk : d.equivalences.get? k = some k') (hk' : d.equivalences.get? k' = none) :
    (hist.foldl (fun d kv => d.setitem kv.1 kv.2) d).getitem k =
      (hist.foldl (fun d kv => d.setitem kv.1 kv.2) d).getitem k' := by
  rw [(C44_lookup_after_history d hist k).2 k' hk, (C44_lookup_after_history d hist k').1 hk']

/-- **C44, the other side of the coin**: what is assigned through an alias is never read back.
Reading the alias right after the assignment raises, or returns an older value. -/
theorem C44_assign_through_alias_fails :
    (∃ d : LoosyDict ℕ, (d.setitem "actions" 2).getitem "actions" = .ok 1) ∧
    (∃ d : LoosyDict ℕ, (d.setitem "actions" 2).getitem "actions" = .error .keyError ∧
      (d.setitem "actions" 2).contains "actions" = true) := by
  refine ⟨⟨⟨[("controls", 1)], equivalentSymbols⟩, by decide⟩, ⟨⟨[], equivalentSymbols⟩, ?_, ?_⟩⟩
  · decide
  · decide

/-- **C44**: membership does not follow aliases: the alias can be looked up although `in` says it
is not there. -/
theorem C44_contains_ignores_alias_fails :
    ∃ d : LoosyDict ℕ, d.getitem "actions" = .ok 1 ∧ d.contains "actions" = false :=
  ⟨⟨[("controls", 1)], equivalentSymbols⟩, by decide, by decide⟩

end C44

end Dolo
