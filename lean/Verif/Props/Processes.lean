import Mathlib.Algebra.Order.BigOperators.Group.List
import Mathlib.Data.Rat.Defs
import Mathlib.Algebra.Order.Ring.Rat
import Mathlib.Algebra.Field.Rat
import Mathlib.Tactic.Linarith
import Mathlib.Tactic.NormNum
import Verif.Model.Processes
import Verif.Lemmas.DecisionRule
import Verif.Props.Distribution
import Verif.Props.Markov

/-!
# C58, C95, C96: products of processes and discretised processes
-/

set_option linter.unusedSectionVars false

namespace Dolo

variable {K : Type} [Field K]

/-! ### C58 -/

/-- The options given to child `k`. -/
def ProdOpts.at : ProdOpts → ℕ → Option ProcOpts
  | .shared o, _ => some o
  | .each l, k => l[k]?

/-- There is one dictionary per process. -/
def ProdOpts.Fits : ProdOpts → ℕ → Prop
  | .shared _, _ => True
  | .each l, n => l.length = n

/-- Child `k` with the options it receives discretises to `ds[k]`. -/
def DiscretizesAs {β : Type} (f : Proc K → ProcOpts → Except Err β) (opts : ProdOpts)
    (ps : List (Proc K)) (ds : List β) : Prop :=
  ds.length = ps.length ∧
  opts.Fits ps.length ∧
  ∀ (k : ℕ) (p : Proc K) (d : β), ps[k]? = some p → ds[k]? = some d →
    ∀ o, opts.at k = some o → f p o = .ok d

theorem discretizesAs_mapM {β : Type} (f : Proc K → ProcOpts → Except Err β) (opts : ProdOpts)
    (ps : List (Proc K)) (ds : List β) (h : DiscretizesAs f opts ps ds) :
    ∃ kw, prodKwargs opts ps.length = .ok kw ∧
      (ps.zip kw).mapM (fun pk => f pk.1 pk.2) = .ok ds := by
  obtain ⟨h1, h2, h3⟩ := h
  obtain ⟨kw, hkw, hl, hg⟩ : ∃ kw, prodKwargs opts ps.length = .ok kw ∧ kw.length = ps.length ∧
      ∀ k o, kw[k]? = some o → opts.at k = some o := by
    cases opts with
    | shared o' =>
      refine ⟨_, rfl, by simp, ?_⟩
      intro k o hk
      have := List.mem_of_getElem? hk
      simp only [List.mem_replicate] at this
      simp [this.2, ProdOpts.at]
    | each l =>
      simp only [ProdOpts.Fits] at h2
      exact ⟨l, by simp [prodKwargs, h2], h2, fun k o hk => hk⟩
  refine ⟨kw, hkw, ?_⟩
  rw [mapM_ok_iff, List.forall₂_iff_get]
  refine ⟨by simp [hl, h1], ?_⟩
  intro k hk hd
  have hk1 : k < ps.length := by simp at hk; omega
  have hk2 : k < kw.length := by omega
  simp only [List.get_eq_getElem, List.getElem_zip]
  exact h3 k ps[k] ds[k] (List.getElem?_eq_getElem hk1) (List.getElem?_eq_getElem hd) kw[k]
    (hg k _ (List.getElem?_eq_getElem hk2))

theorem defaultTarget_iid (ps : List (Proc K)) (h : ∀ p ∈ ps, p.kind = .iid) :
    defaultTarget (ps.map Proc.kind) = .iid := by
  unfold defaultTarget
  rw [if_neg, if_pos]
  · simpa using h
  · simp only [List.any_map, List.any_eq_true, not_exists, not_and]
    intro p hp
    simp [h p hp]

theorem defaultTarget_mc (ps : List (Proc K))
    (h : ∃ p ∈ ps, p.kind = .markov ∨ p.kind = .continuous) :
    defaultTarget (ps.map Proc.kind) = .mc := by
  unfold defaultTarget
  rw [if_pos]
  obtain ⟨p, hp, hk⟩ := h
  simp only [List.any_map, List.any_eq_true]
  exact ⟨p, hp, by simpa using hk⟩

/-- **C58, iid processes.**  Without a target, a product of one or more iid processes discretises
to an iid process: its points are the combinations of the children's points in row-major order, in
the order of the children, and its weights the products of their weights. -/
theorem C58_all_iid (opts : ProdOpts) (ps : List (Proc K)) (hne : ps ≠ [])
    (hk : ∀ p ∈ ps, p.kind = .iid) (ds : List (FiniteDist K))
    (hds : DiscretizesAs Proc.toIid opts ps ds) (hp : ∀ d ∈ ds, Proper d) :
    ∃ d, productDiscretize none opts ps = .ok (.iid d) ∧
      d.points.length = (ds.map fun f => f.points.length).prod ∧
      ∀ idx, ValidIdx (ds.map fun f => f.points.length) idx →
        ∃ (xs : List (List K)) (ws : List K), xs.length = ps.length ∧ ws.length = ps.length ∧
          d.points[flatIndex (ds.map fun f => f.points.length) idx]? = some xs.flatten ∧
          d.weights[flatIndex (ds.map fun f => f.points.length) idx]? = some ws.prod ∧
          ∀ (k : ℕ) (f : FiniteDist K) (i : ℕ), ds[k]? = some f → idx[k]? = some i →
            xs[k]? = f.points[i]? ∧ ws[k]? = f.weights[i]? := by
  obtain ⟨kw, hkw, hm⟩ := discretizesAs_mapM Proc.toIid opts ps ds hds
  have hne' : ds ≠ [] := by
    rintro rfl
    apply hne
    have := hds.1
    simpa using this.symm
  obtain ⟨d, hd, -, h1, h2⟩ := C05_product_points ds hne' hp
  rw [hds.1] at h2
  refine ⟨d, ?_, h1, h2⟩
  unfold productDiscretize
  rw [hkw]
  simp only [bind, Except.bind, Option.getD_none, defaultTarget_iid ps hk, hm, hd, pure,
    Except.pure]

/-- **C58, processes with memory.**  Without a target, a product of at least two processes one of
which is a Markov chain or a continuous process discretises to a Markov chain: its states are the
combinations of the children's states in row-major order, in the order of the children, and its
transition probabilities the products of theirs. -/
theorem C58_memory_partial (opts : ProdOpts) (ps : List (Proc K)) (h2 : 2 ≤ ps.length)
    (hk : ∃ p ∈ ps, p.kind = .markov ∨ p.kind = .continuous) (cs : List (MChain K))
    (hcs : DiscretizesAs Proc.toMc opts ps cs) (hw : ∀ c ∈ cs, c.WellFormed) :
    ∃ c, productDiscretize none opts ps = .ok (.mc c) ∧
      c.values.length = (stateCounts cs).prod ∧
      ∀ i, ValidIdx (stateCounts cs) i →
        (∃ xs : List (List K), xs.length = ps.length ∧
          c.values[flatIndex (stateCounts cs) i]? = some xs.flatten ∧
          ∀ (k : ℕ) (ck : MChain K) (ik : ℕ), cs[k]? = some ck → i[k]? = some ik →
            xs[k]? = ck.values[ik]?) ∧
        ∃ row, c.transitions[flatIndex (stateCounts cs) i]? = some row ∧
          ∀ j, ValidIdx (stateCounts cs) j →
            ∃ qs : List K, qs.length = ps.length ∧
              row[flatIndex (stateCounts cs) j]? = some qs.prod ∧
              ∀ (k : ℕ) (ck : MChain K) (ik jk : ℕ), cs[k]? = some ck → i[k]? = some ik →
                j[k]? = some jk → qs[k]? = ck.transitions[ik]?.bind fun r => r[jk]? := by
  obtain ⟨kw, hkw, hm⟩ := discretizesAs_mapM Proc.toMc opts ps cs hcs
  obtain ⟨c, hc, -, h3, h4⟩ := C11_product_chain cs (by rw [hcs.1]; exact h2) hw
  rw [hcs.1] at h4
  refine ⟨c, ?_, h3, h4⟩
  unfold productDiscretize
  rw [hkw]
  simp only [bind, Except.bind, Option.getD_none, defaultTarget_mc ps hk, hm, hc, pure,
    Except.pure]

/-- **C58 fails for a single process with memory**: the product of a single Markov chain or
continuous process (which is what a model with one such process declares) cannot be discretised,
whatever the options. -/
theorem C58_single_fails (p : Proc K) (hk : p.kind = .markov ∨ p.kind = .continuous)
    (opts : ProdOpts) : ∃ e, productDiscretize none opts [p] = .error e := by
  unfold productDiscretize
  rw [defaultTarget_mc [p] ⟨p, by simp, hk⟩]
  rcases hkw : prodKwargs opts [p].length with e | kw
  · exact ⟨e, rfl⟩
  · simp only [bind, Except.bind, Option.getD_none]
    rcases hm : ([p].zip kw).mapM (fun pk => pk.1.toMc pk.2) with e | cs
    · exact ⟨e, by rw [hm]⟩
    · rw [hm]
      simp only
      have hl : cs.length < 2 := by
        rw [mapM_ok_iff] at hm
        have := hm.length_eq
        simp only [List.length_zip, List.length_singleton] at this
        omega
      obtain ⟨m, hm⟩ := C11_too_few cs hl
      exact ⟨_, by rw [hm]⟩

/-- **C58 fails for nested products of iid processes**: a child that is neither a chain, nor a
continuous process, nor iid, among children that are not chains or continuous, cannot be
discretised. -/
theorem C58_nested_fails (ps : List (Proc K))
    (h1 : ∀ p ∈ ps, p.kind = .iid ∨ p.kind = .other) (h2 : ∃ p ∈ ps, p.kind = .other)
    (opts : ProdOpts) : ∃ e, productDiscretize none opts ps = .error e := by
  have hd : defaultTarget (ps.map Proc.kind) = .gdp := by
    unfold defaultTarget
    rw [if_neg, if_neg]
    · obtain ⟨p, hp, hk⟩ := h2
      simp only [List.all_map, List.all_eq_true, not_forall]
      exact ⟨p, hp, by simp [hk]⟩
    · simp only [List.any_map, List.any_eq_true, not_exists, not_and]
      intro p hp
      rcases h1 p hp with h | h <;> simp [h]
  unfold productDiscretize
  rw [hd]
  rcases hkw : prodKwargs opts ps.length with e | kw
  · exact ⟨e, rfl⟩
  · simp only [bind, Except.bind, Option.getD_none]
    rcases hm : (ps.zip kw).mapM (fun pk => pk.1.toGdp pk.2) with e | cs
    · exact ⟨e, by rw [hm]⟩
    · exact ⟨_, by rw [hm]⟩

/-- **C58, options.**  A list of options of another length than the list of processes is refused;
an option given for all processes is refused when one of them is a Markov chain. -/
theorem C58_options (ps : List (Proc K)) (tgt : Option Target) :
    (∀ l, l.length ≠ ps.length →
      productDiscretize tgt (.each l) ps = .error .assertionError) ∧
    ∀ (c : MChain K) (o : String × ℕ) (os : ProcOpts),
      productDiscretize none (.shared (o :: os)) (markovProc c :: ps) = .error .typeError := by
  constructor
  · intro l hl
    simp [productDiscretize, prodKwargs, hl, bind, Except.bind]
  · intro c o os
    unfold productDiscretize
    rw [defaultTarget_mc _ ⟨markovProc c, by simp, Or.inl rfl⟩]
    simp [prodKwargs, bind, Except.bind, markovProc, List.replicate_succ, List.mapM_cons]

/-- **C58, iid processes as a chain.**  Asking for a Markov chain for two or more finite
distributions gives the chain of their product distribution: the same states as the iid
discretisation, and in every state its weights. -/
theorem C58_iid_as_chain (ds : List (FiniteDist K)) (h2 : 2 ≤ ds.length)
    (hp : ∀ d ∈ ds, Proper d) :
    ∃ d, productDiscretize (some .iid) (.shared []) (ds.map finiteProc) = .ok (.iid d) ∧
      productDiscretize (some .mc) (.shared []) (ds.map finiteProc) = .ok (.mc d.toMC) := by
  have hne : ds ≠ [] := by rintro rfl; simp at h2
  have e1 : (((ds.map finiteProc).zip (List.replicate ds.length ([] : ProcOpts))).mapM
      fun pk => pk.1.toIid pk.2) = .ok ds := by
    rw [mapM_ok_iff, List.forall₂_iff_get]
    refine ⟨by simp, ?_⟩
    intro k hk hd
    simp [finiteProc]
  have e2 : (((ds.map finiteProc).zip (List.replicate ds.length ([] : ProcOpts))).mapM
      fun pk => pk.1.toMc pk.2) = .ok (ds.map FiniteDist.toMC) := by
    rw [mapM_ok_iff, List.forall₂_iff_get]
    refine ⟨by simp, ?_⟩
    intro k hk hd
    simp [finiteProc]
  have hprod := productIid_eq ds hne hp
  refine ⟨⟨(wprod (ds.map FiniteDist.items)).map (fun t => t.2.flatten),
    (wprod (ds.map FiniteDist.items)).map Prod.fst⟩, ?_, ?_⟩
  · simp only [productDiscretize, prodKwargs, List.length_map, bind, Except.bind, Option.getD_some,
      e1, hprod, pure, Except.pure]
  · simp only [productDiscretize, prodKwargs, List.length_map, bind, Except.bind, Option.getD_some,
      e2, pure, Except.pure]
    have hw : ∀ c ∈ ds.map FiniteDist.toMC, c.WellFormed := by
      intro c hc
      simp only [List.mem_map] at hc
      obtain ⟨d, hd, rfl⟩ := hc
      refine ⟨by simp [FiniteDist.toMC], ?_⟩
      intro row hrow
      simp only [FiniteDist.toMC, List.mem_replicate] at hrow ⊢
      rw [hrow.2]
      exact (hp d hd).symm
    have hmc : productMc (ds.map FiniteDist.toMC) = .ok
        ⟨(prodRows ((ds.map FiniteDist.toMC).map MChain.transitions)).map kronR,
          (prodRows ((ds.map FiniteDist.toMC).map MChain.values)).map List.flatten⟩ := by
      match ds, h2, hw with
      | a :: b :: rest, _, hw => exact productMc_eq _ _ _ hw
    rw [hmc]
    simp only
    have hit1 : (ds.map FiniteDist.items).map (List.map Prod.fst) = ds.map FiniteDist.weights := by
      rw [List.map_map]
      exact List.map_congr_left fun f hf => map_fst_items f (hp f hf)
    have hit2 : (ds.map FiniteDist.items).map (List.map Prod.snd) = ds.map FiniteDist.points := by
      rw [List.map_map]
      exact List.map_congr_left fun f hf => map_snd_items f (hp f hf)
    have hwts : (wprod (ds.map FiniteDist.items)).map Prod.fst = kronR (ds.map FiniteDist.weights) := by
      rw [map_fst_wprod, hit1]
    have hpts : (wprod (ds.map FiniteDist.items)).map (fun t => t.2.flatten)
        = (prodRows (ds.map FiniteDist.points)).map List.flatten := by
      rw [← hit2, ← map_snd_wprod, List.map_map]
      rfl
    have hvals : (ds.map FiniteDist.toMC).map MChain.values = ds.map FiniteDist.points := by
      rw [List.map_map]
      rfl
    rw [hwts, hpts, hvals]
    congr 2
    unfold FiniteDist.toMC
    congr 1
    rw [List.eq_replicate_iff]
    constructor
    · rw [List.length_map, length_prodRows, List.length_map, length_prodRows, List.map_map,
        List.map_map, List.map_map]
      congr 1
      refine List.map_congr_left fun f hf => ?_
      simp
    · intro b hb
      rw [List.mem_map] at hb
      obtain ⟨t, ht, rfl⟩ := hb
      congr 1
      have := mem_prodRows _ _ ht
      clear hprod hmc ht hwts hpts hvals hit1 hit2 hw e1 e2 hne h2 hp
      induction ds generalizing t with
      | nil => cases this; rfl
      | cons d ds ih =>
        cases this with
        | cons h1 h2 =>
          rw [List.map_cons]
          congr 1
          · simp only [List.mem_replicate] at h1
            exact h1.2
          · exact ih _ h2

/-- **C58, constants.**  A constant process beside a Markov chain adds its value to every state and
leaves the transition probabilities as they are. -/
theorem C58_constant (c : MChain K) (hc : c.WellFormed) (μ : List K) :
    productDiscretize none (.shared []) [markovProc c, constantProc μ]
      = .ok (.mc ⟨c.transitions, c.values.map (· ++ μ)⟩) := by
  unfold productDiscretize
  rw [defaultTarget_mc _ ⟨markovProc c, by simp, Or.inl rfl⟩]
  have hm : productMc [c, ⟨[[1]], [μ]⟩] = .ok ⟨c.transitions, c.values.map (· ++ μ)⟩ := by
    rw [productMc_eq]
    · congr 2
      · rw [← kronMatR_eq_map]
        simp [kronMatR, kronMat, kronVec]
      · simp only [List.map_cons, List.map_nil, prodRows, List.flatMap_cons, List.flatMap_nil,
          List.append_nil]
        induction c.values with
        | nil => rfl
        | cons v vs ih => simp [ih]
    · intro e he
      simp only [List.mem_cons, List.not_mem_nil, or_false] at he
      rcases he with rfl | rfl
      · exact hc
      · simp [MChain.WellFormed]
  simp [prodKwargs, markovProc, constantProc, bind, Except.bind, pure, Except.pure,
    List.replicate_succ, List.mapM_cons, PyDict.get?, hm]

private theorem zip_replicate_sum (n : ℕ) (μ : List K) (f : List K → K) (r : List K) (hr : r.length = n) :
    ((r.zip (List.replicate n μ)).map fun wx => wx.1 * f wx.2).sum = r.sum * f μ := by
  induction r generalizing n with
  | nil => simp
  | cons a r ih =>
    subst hr
    simp only [List.length_cons, List.replicate_succ, List.zip_cons_cons, List.map_cons,
      List.sum_cons]
    rw [ih _ rfl, add_mul]

/-- **C58, a constant discretised with `N` states** is a chain that never leaves its state: `N`
states with the same value, and from every state the constant is expected with probability one. -/
theorem C58_constant_chain (μ : List K) (N : ℕ) :
    ∃ c, (constantProc μ).toMc [("N", N)] = .ok c ∧ c.WellFormed ∧ c.values = List.replicate N μ ∧
      (∀ i < N, ∀ j < N, (c.transitions.getD i []).getD j 0 = if i = j then 1 else 0) ∧
      ∀ i < N, ∀ f : List K → K, c.expect i f = .ok (f μ) := by
  refine ⟨_, rfl, ⟨by simp [PyDict.get?], ?_⟩, by simp [PyDict.get?], ?_, ?_⟩
  · intro row hrow
    simp only [PyDict.get?, List.mem_map] at hrow
    obtain ⟨i, -, rfl⟩ := hrow
    simp [PyDict.get?]
  · intro i hi j hj
    simp [PyDict.get?, hi, hj, List.getD_eq_getElem?_getD]
  · intro i hi f
    have hs : ((List.range N).map fun j => if i = j then (1 : K) else 0).sum = 1 := by
      have : ((List.range N).map fun j => if i = j then (1 : K) else 0).sum
          = ∑ j ∈ Finset.range N, if i = j then (1 : K) else 0 := rfl
      rw [this, Finset.sum_ite_eq, if_pos (Finset.mem_range.2 hi)]
    have := zip_replicate_sum N μ f ((List.range N).map fun j => if i = j then (1 : K) else 0)
      (by simp)
    rw [hs, one_mul] at this
    simp [MChain.expect, pyGet, hi, PyDict.get?, bind, Except.bind, pure, Except.pure, this]

/-- Non-vacuity: a chain and a finite distribution. -/
example : DiscretizesAs Proc.toMc (.shared [])
    [markovProc (⟨[[1 / 2, 1 / 2], [0, 1]], [[10], [20]]⟩ : MChain ℚ),
      finiteProc ⟨[[1], [2]], [1 / 3, 2 / 3]⟩]
    [⟨[[1 / 2, 1 / 2], [0, 1]], [[10], [20]]⟩,
      ⟨[[1 / 3, 2 / 3], [1 / 3, 2 / 3]], [[1], [2]]⟩] := by
  refine ⟨rfl, trivial, ?_⟩
  intro k p d hp hd o ho
  cases ho
  rcases k with _ | _ | k
  · cases hp; cases hd; rfl
  · cases hp; cases hd; rfl
  · cases hp

/-! ### C95 -/

section

variable [LinearOrder K] [IsStrictOrderedRing K]

/-- The terms of the conditional expectation: inodes `j < n` with weights `w` and points `x`. -/
def DiscProc.Has (P : DiscProc K) (i n : ℕ) (w : ℕ → K) (x : ℕ → List K) : Prop :=
  P.nInodes i = n ∧ ∀ j < n, P.iweight i j = .ok (w j) ∧ P.inode i j = .ok (x j)

theorem iteritemsAux_eq (P : DiscProc K) (i : ℕ) (eps : K) (w : ℕ → K) (x : ℕ → List K)
    (js : List ℕ) (h : ∀ j ∈ js, P.iweight i j = .ok (w j) ∧ P.inode i j = .ok (x j)) :
    P.iteritemsAux i eps js
      = .ok ((js.filter fun j => decide (eps < w j)).map fun j => (w j, x j)) := by
  induction js with
  | nil => rfl
  | cons j js ih =>
    have hj := h j (by simp)
    simp only [DiscProc.iteritemsAux, hj.1, hj.2, bind, Except.bind, pure, Except.pure,
      ih fun k hk => h k (by simp [hk])]
    by_cases he : eps < w j
    · simp [he]
    · simp [he]

/-- **C95, what is listed.**  `iteritems(i)` lists, in order, the pairs of weight and point of the
nodes of tomorrow whose weight exceeds `eps`. -/
theorem C95_iteritems (P : DiscProc K) (i n : ℕ) (w : ℕ → K) (x : ℕ → List K)
    (h : P.Has i n w x) (eps : K) :
    P.iteritems i eps
      = .ok (((List.range n).filter fun j => decide (eps < w j)).map fun j => (w j, x j)) := by
  unfold DiscProc.iteritems
  rw [h.1]
  exact iteritemsAux_eq P i eps w x _ fun j hj => h.2 j (List.mem_range.1 hj)

/-- **C95, exactness.**  If every weight is zero or exceeds `eps`, the sum over `iteritems(i)` is
the conditional expectation. -/
theorem C95_exact (P : DiscProc K) (i n : ℕ) (w : ℕ → K) (x : ℕ → List K)
    (h : P.Has i n w x) (eps : K) (hz : ∀ j < n, w j = 0 ∨ eps < w j) (f : List K → K) :
    ∃ l, P.iteritems i eps = .ok l ∧
      (l.map fun wx => wx.1 * f wx.2).sum = ((List.range n).map fun j => w j * f (x j)).sum := by
  refine ⟨_, C95_iteritems P i n w x h eps, ?_⟩
  have key : ∀ js : List ℕ, (∀ j ∈ js, w j = 0 ∨ eps < w j) →
      (((js.filter fun j => decide (eps < w j)).map fun j => (w j, x j)).map
        fun wx => wx.1 * f wx.2).sum = (js.map fun j => w j * f (x j)).sum := by
    intro js
    induction js with
    | nil => intro _; rfl
    | cons j js ih =>
      intro hj
      have ih' := ih fun k hk => hj k (by simp [hk])
      by_cases he : eps < w j
      · simp only [List.filter_cons, he, decide_true, if_true, List.map_cons, List.sum_cons, ih']
      · have h0 : w j = 0 := (hj j (by simp)).resolve_right he
        simp only [List.filter_cons, he, decide_false, List.map_cons, List.sum_cons]
        rw [if_neg (by simp), ih', h0]
        simp
  exact key _ fun j hj => hz j (List.mem_range.1 hj)

/-- **C95, error.**  In general, with weights at least zero and a function bounded by `B`, the sum
over `iteritems(i)` is within `n * eps * B` of the conditional expectation. -/
theorem C95_error (P : DiscProc K) (i n : ℕ) (w : ℕ → K) (x : ℕ → List K)
    (h : P.Has i n w x) (eps : K) (he0 : 0 ≤ eps) (hw : ∀ j < n, 0 ≤ w j) (f : List K → K) (B : K)
    (hB : ∀ j < n, |f (x j)| ≤ B) :
    ∃ l, P.iteritems i eps = .ok l ∧
      |((List.range n).map fun j => w j * f (x j)).sum - (l.map fun wx => wx.1 * f wx.2).sum|
        ≤ (n : K) * (eps * B) := by
  refine ⟨_, C95_iteritems P i n w x h eps, ?_⟩
  have key : ∀ js : List ℕ, (∀ j ∈ js, 0 ≤ w j ∧ |f (x j)| ≤ B) →
      |(js.map fun j => w j * f (x j)).sum -
        (((js.filter fun j => decide (eps < w j)).map fun j => (w j, x j)).map
          fun wx => wx.1 * f wx.2).sum| ≤ (js.length : K) * (eps * B) := by
    intro js
    induction js with
    | nil => intro _; simp
    | cons j js ih =>
      intro hj
      have ih' := ih fun k hk => hj k (by simp [hk])
      obtain ⟨hw0, hfB⟩ := hj j (by simp)
      have hB0 : 0 ≤ B := le_trans (abs_nonneg _) hfB
      have hlen : ((j :: js).length : K) * (eps * B) = (js.length : K) * (eps * B) + eps * B := by
        rw [List.length_cons]
        push_cast
        ring
      rw [hlen]
      by_cases he : eps < w j
      · simp only [List.filter_cons, he, decide_true, if_true, List.map_cons, List.sum_cons]
        rw [add_sub_add_left_eq_sub]
        have : 0 ≤ eps * B := mul_nonneg he0 hB0
        linarith
      · simp only [List.filter_cons, he, decide_false, List.map_cons, List.sum_cons]
        rw [if_neg (by simp), add_sub_assoc]
        refine le_trans (abs_add_le _ _) ?_
        have : |w j * f (x j)| ≤ eps * B := by
          rw [abs_mul, abs_of_nonneg hw0]
          exact mul_le_mul (not_lt.1 he) hfB (abs_nonneg _) he0
        linarith
  have := key (List.range n) fun j hj =>
    ⟨hw j (List.mem_range.1 hj), hB j (List.mem_range.1 hj)⟩
  rwa [List.length_range] at this

/-- **C95, chains.**  Converting a Markov chain to the general form of a discretised process changes
neither its nodes nor the nodes and weights of tomorrow in any state. -/
theorem C95_chain_as_gdp (c : MChain K) (hc : c.WellFormed) (hne : c.values ≠ []) :
    c.toGDP.dproc.nNodes = c.dproc.nNodes ∧
    ∀ i < c.values.length, c.toGDP.dproc.node i = c.dproc.node i ∧
      ∃ w x, c.toGDP.dproc.Has i c.values.length w x ∧ c.dproc.Has i c.values.length w x := by
  refine ⟨rfl, ?_⟩
  intro i hi
  refine ⟨rfl, ?_⟩
  have hti : i < c.transitions.length := by rw [hc.1]; exact hi
  have hrow : c.transitions[i].length = c.values.length := hc.2 _ (List.getElem_mem hti)
  refine ⟨fun j => c.transitions[i].getD j 0, fun j => c.values.getD j [], ⟨?_, ?_⟩, ⟨?_, ?_⟩⟩
  · obtain ⟨v, vs, hv⟩ := List.exists_cons_of_ne_nil hne
    simp only [GDP.dproc, MChain.toGDP]
    simp [hv, List.replicate_succ]
  · intro j hj
    have hj' : j < c.transitions[i].length := by omega
    simp only [GDP.dproc, MChain.toGDP, pyGet, bind, Except.bind,
      List.getElem?_eq_getElem hti, List.getElem?_eq_getElem hj', List.getElem?_replicate, hi,
      if_true, List.getElem?_eq_getElem hj, List.getD_eq_getElem?_getD, Option.getD_some]
    exact ⟨trivial, trivial⟩
  · have : c.transitions ≠ [] := by
      intro h0
      rw [h0] at hti
      simp at hti
    obtain ⟨t, ts, ht⟩ := List.exists_cons_of_ne_nil this
    simp only [MChain.dproc, ht, List.headD_cons]
    exact hc.2 t (by rw [ht]; simp)
  · intro j hj
    have hj' : j < c.transitions[i].length := by omega
    simp only [MChain.dproc, pyGet, bind, Except.bind,
      List.getElem?_eq_getElem hti, List.getElem?_eq_getElem hj',
      List.getElem?_eq_getElem hj, List.getD_eq_getElem?_getD, Option.getD_some]
    exact ⟨trivial, trivial⟩

/-- **C95, iid.**  In a discretised iid process the nodes and weights of tomorrow are the points and
weights of the distribution, whatever the state. -/
theorem C95_iid (D : FiniteDist K) (hD : Proper D) (d i : ℕ) :
    ∃ w x, (D.dproc d).Has i D.points.length w x ∧
      ∀ f : List K → K, ((List.range D.points.length).map fun j => w j * f (x j)).sum
        = D.integrate f := by
  refine ⟨fun j => D.weights.getD j 0, fun j => D.points.getD j [], ⟨rfl, ?_⟩, ?_⟩
  · intro j hj
    have hj' : j < D.weights.length := by unfold Proper at hD; omega
    simp [FiniteDist.dproc, pyGet, hj, hj']
  · intro f
    unfold FiniteDist.integrate FiniteDist.items
    congr 1
    refine List.ext_getElem ?_ ?_
    · unfold Proper at hD
      simp [hD]
    · intro j h1 h2
      have hj : j < D.points.length := by simpa using h1
      have hj' : j < D.weights.length := by unfold Proper at hD; omega
      simp [hj, hj']

/-- Non-vacuity: a chain with a transition of probability zero. -/
example : ((⟨[[1 / 2, 1 / 2], [0, 1]], [[10], [20]]⟩ : MChain ℚ).dproc.iteritems 1 (1 / 100))
    = .ok [(1, [20])] := by decide +kernel

end

/-! ### C97 -/

/-- **C97 fails**: as the code stands every call raises, whatever the process. -/
theorem C97_always_fails (S : ℕ) (R : ℕ × ℕ) (ρ lo hi : K) (N : ℕ) (epsilons weights : List K) :
    ∃ e, var1DiscretizeGdp cartesianGridNew S R ρ lo hi N epsilons weights = .error e := by
  unfold var1DiscretizeGdp
  split
  · exact ⟨_, rfl⟩
  · split
    · exact ⟨_, rfl⟩
    · exact ⟨_, rfl⟩

/-- **C97** (partial: if the grid could be built, and for a process of mean zero).  A
one-dimensional autoregression gives `N` nodes spaced from `lo` to `hi`; the expectation of
tomorrow's value at each is `ρ` times the node, when the integration rule has total weight one and
mean zero. -/
theorem C97_conditional_mean_partial (ρ lo hi : K) (N : ℕ) (epsilons weights : List K)
    (hlen : epsilons.length = weights.length) (h1 : weights.sum = 1)
    (h0 : (List.zipWith (· * ·) weights epsilons).sum = 0) :
    ∃ g, var1DiscretizeGdp (.ok ()) 1 (1, 1) ρ lo hi N epsilons weights = .ok g ∧
      g.nodes.length = N ∧
      ∀ i < N, ∀ x : K, g.nodes[i]? = some [x] → ∃ (xs : List (List K)) (ws : List K),
        g.inodes[i]? = some xs ∧ g.iweights[i]? = some ws ∧
        (List.zipWith (fun w y => w * y.headD 0) ws xs).sum = ρ * x := by
  refine ⟨_, rfl, by simp [linspace], ?_⟩
  intro i hiN x hx
  have hi' : i < (linspace lo hi N).length := by simpa [linspace] using hiN
  simp only [List.getElem?_map, List.getElem?_eq_getElem hi', Option.map_some, Option.some.injEq,
    List.cons.injEq, and_true] at hx
  refine ⟨epsilons.map fun e => [ρ * x + e], weights, ?_, ?_, ?_⟩
  · simp only [List.getElem?_map, List.getElem?_eq_getElem hi', Option.map_some, hx]
  · simp only [List.getElem?_map, List.getElem?_eq_getElem hi', Option.map_some]
  · have key : ∀ (ws es : List K), es.length = ws.length →
        (List.zipWith (fun w y => w * y.headD 0) ws (es.map fun e => [ρ * x + e])).sum
          = ws.sum * (ρ * x) + (List.zipWith (· * ·) ws es).sum := by
      intro ws
      induction ws with
      | nil => intro es _; simp
      | cons w ws ih =>
        intro es he
        cases es with
        | nil => simp at he
        | cons e es =>
          simp only [List.map_cons, List.zipWith_cons_cons, List.sum_cons, List.headD_cons]
          rw [ih es (by simpa using he)]
          ring
    rw [key weights epsilons hlen, h1, h0]
    ring

/-- Non-vacuity: a symmetric rule on two nodes. -/
example : var1DiscretizeGdp (.ok ()) 1 (1, 1) (1 / 2) (-1) 1 2 [-1, 1] [1 / 2, 1 / 2]
    = .ok (⟨[[-1], [1]], [[[-3 / 2], [1 / 2]], [[-1 / 2], [3 / 2]]],
      [[1 / 2, 1 / 2], [1 / 2, 1 / 2]]⟩ : GDP ℚ) := by decide +kernel

/-! ### C96 -/

theorem length_take_drop_block {α : Type} (d : List α) (N T t : ℕ) (hd : d.length = T * N)
    (ht : t < T) : ((d.drop (t * N)).take N).length = N := by
  rw [List.length_take, List.length_drop, hd]
  have : (t + 1) * N ≤ T * N := Nat.mul_le_mul_right N ht
  rw [Nat.succ_mul] at this
  omega

/-- **C96, iid.**  The simulation of an iid process has `T` periods of `N` paths; the value of path
`n` in period `t` is draw number `t * N + n`, so each of the `T * N` draws is used exactly once. -/
theorem C96_iid_cells (draw : ℕ → Except Err (List (List K))) (N T : ℕ) (stoch : Bool)
    (d : List (List K)) (hd : draw (T * N) = .ok d) (hl : d.length = T * N) :
    ∃ s, iidSimulate draw N T stoch = .ok s ∧ s.length = T ∧ (∀ r ∈ s, r.length = N) ∧
      (∀ t < T, ∀ n < N, (s[t]?.bind fun r => r[n]?) = d[t * N + n]?) ∧ s.flatten = d := by
  refine ⟨(List.range T).map fun t => (d.drop (t * N)).take N, ?_, by simp, ?_, ?_, ?_⟩
  · simp [iidSimulate, hd, bind, Except.bind, pure, Except.pure]
  · intro r hr
    simp only [List.mem_map, List.mem_range] at hr
    obtain ⟨t, ht, rfl⟩ := hr
    exact length_take_drop_block d N T t hl ht
  · intro t ht n hn
    simp [ht, hn]
  · clear hd
    induction T generalizing d with
    | zero =>
      simp at hl
      simp [hl]
    | succ T ih =>
      rw [List.range_succ_eq_map]
      simp only [List.map_cons, List.map_map, List.flatten_cons, Nat.zero_mul, List.drop_zero]
      have := ih (d.drop N) (by rw [List.length_drop, hl, Nat.succ_mul]; omega)
      have e : (List.range T).map ((fun t => (d.drop (t * N)).take N) ∘ Nat.succ)
          = (List.range T).map fun t => ((d.drop N).drop (t * N)).take N := by
        refine List.map_congr_left fun t _ => ?_
        simp only [Function.comp, List.drop_drop]
        congr 2
        rw [Nat.succ_mul]
        omega
      rw [e, this]
      exact List.take_append_drop N d

/-- **C96, products** (partial: when every process can be simulated and no initial value is
given).  The simulated value of a product is the concatenation of the values of its processes in
the same period and path, in their order. -/
theorem C96_product_partial (N T : ℕ) (ss : List (List (List (List K)))) (hne : ss ≠ [])
    (hs : ∀ s ∈ ss, s.length = T ∧ ∀ r ∈ s, r.length = N) :
    ∃ s, productSimulate none N T (ss.map .ok) = .ok s ∧ s.length = T ∧
      (∀ r ∈ s, r.length = N) ∧
      ∀ t < T, ∀ n < N, ∃ xs : List (List K), xs.length = ss.length ∧
        (s[t]?.bind fun r => r[n]?) = some xs.flatten ∧
        ∀ (k : ℕ) (sk : List (List (List K))), ss[k]? = some sk →
          xs[k]? = sk[t]?.bind fun r => r[n]? := by
  have h1 : (ss.map (Except.ok (ε := Err))).mapM id = .ok ss := by
    rw [mapM_ok_iff, List.forall₂_map_left_iff]
    exact List.forall₂_same.2 fun _ _ => rfl
  have h2 : (ss.all fun s => s.length == T && s.all fun r => r.length == N) = true := by
    simp only [List.all_eq_true, Bool.and_eq_true, beq_iff_eq]
    exact hs
  refine ⟨(List.range T).map fun t => (List.range N).map fun n =>
        (ss.map fun s => (s.getD t []).getD n []).flatten, ?_, by simp, ?_, ?_⟩
  · unfold productSimulate
    rw [if_neg (by simp), h1]
    simp only [bind, Except.bind, h2, if_true, pure, Except.pure]
    rw [if_neg (by simpa using hne)]
  · intro r hr
    simp only [List.mem_map, List.mem_range] at hr
    obtain ⟨t, ht, rfl⟩ := hr
    simp
  · intro t ht n hn
    refine ⟨ss.map fun s => (s.getD t []).getD n [], by simp, by simp [ht, hn], ?_⟩
    intro k sk hk
    obtain ⟨h3, h4⟩ := hs sk (List.mem_of_getElem? hk)
    have ht' : t < sk.length := by omega
    have hn' : n < sk[t].length := by rw [h4 _ (List.getElem_mem ht')]; exact hn
    simp [hk, ht', hn']

/-- **C96 fails for products with a constant or an `AR1`**: neither can be simulated, so neither
can any product that contains one. -/
theorem C96_constant_ar1_fails (N T : ℕ) (m0 : Option (List K)) (stoch : Bool)
    (sims : List (Except Err (List (List (List K)))))
    (h : iidSimulate constantDraw N T stoch ∈ sims ∨ ar1Simulate stoch ∈ sims) :
    ∃ e, productSimulate m0 N T sims = .error e := by
  unfold productSimulate
  by_cases hm : m0.isSome
  · exact ⟨_, by rw [if_pos hm]⟩
  · rw [if_neg hm]
    rcases hs : sims.mapM id with e | ss
    · exact ⟨e, rfl⟩
    · exfalso
      rw [mapM_ok_iff] at hs
      have hall : ∀ x ∈ sims, ∃ v, x = .ok v := by
        clear h
        intro x hx
        induction hs with
        | nil => simp at hx
        | cons h _ ih =>
          rcases List.mem_cons.1 hx with rfl | hx
          · exact ⟨_, h⟩
          · exact ih hx
      rcases h with h | h
      · obtain ⟨v, hv⟩ := hall _ h
        simp [iidSimulate, constantDraw, bind, Except.bind] at hv
      · obtain ⟨v, hv⟩ := hall _ h
        unfold ar1Simulate at hv
        split at hv <;> cases hv

/-- **C96 fails for initial values**: a product refuses any. -/
theorem C96_initial_value_fails (N T : ℕ) (m0 : List K)
    (sims : List (Except Err (List (List (List K))))) :
    productSimulate (some m0) N T sims = .error (.exception "Not implemented") := by
  simp [productSimulate]

/-- **C96 fails for deterministic simulations of iid processes**: they are the random ones. -/
theorem C96_deterministic_fails (draw : ℕ → Except Err (List (List K))) (N T : ℕ) :
    iidSimulate draw N T false = iidSimulate draw N T true := rfl

/-- **C96, chains.**  A deterministic simulation of a chain stays in the initial state. -/
theorem C96_chain_deterministic (c : MChain K) (inds : List (List ℕ)) (N T i0 : ℕ) (v : List K)
    (hv : c.values[i0]? = some v) :
    mcSimulate c inds N T i0 false = .ok (List.replicate T (List.replicate N v)) := by
  have key : ∀ (n : ℕ), (List.replicate n i0).mapM (fun i => pyGet c.values i)
      = .ok (List.replicate n v) := by
    intro n
    rw [mapM_ok_iff, List.forall₂_iff_get]
    refine ⟨by simp, ?_⟩
    intro k h1 h2
    simp [pyGet, hv]
  simp only [mcSimulate, Bool.false_eq_true, if_false]
  rw [mapM_ok_iff, List.forall₂_iff_get]
  refine ⟨by simp, ?_⟩
  intro k h1 h2
  simp [key]

/-- Non-vacuity: two periods, two paths; a chain that stays in its second state beside draws. -/
example : productSimulate none 2 2
    [mcSimulate (⟨[[1, 0], [0, 1]], [[10], [20]]⟩ : MChain ℚ) [] 2 2 1 false,
      iidSimulate (fun _ => .ok [[1], [2], [3], [4]]) 2 2 true]
    = .ok [[[20, 1], [20, 2]], [[20, 3], [20, 4]]] := by decide +kernel

end Dolo
