import Mathlib.Tactic.IntervalCases
import Verif.Props.DecisionRule

/-!
# C79 (counterexamples), C80, C81: calls of interpolated decision rules
-/

set_option linter.unusedSectionVars false

namespace Dolo

variable {K : Type} [Field K] [LinearOrder K] [IsStrictOrderedRing K]

/-! ### Multilinear interpolation, a routine meeting the contract of C79 -/

/-- The cell of a dimension in which `x` lies, clamped to the grid. -/
def cellOf (l : List K) (x : K) : ℕ := min ((l.filter fun y => decide (y ≤ x)).length - 1) (l.length - 2)

/-- Multilinear interpolation (with linear extrapolation) of the rows given at the nodes, in C order. -/
def multilin : List (List K) → List (List K) → List K → List K
  | [], rows, _ => rows.headD []
  | _ :: _, _, [] => []
  | l :: ls, rows, x :: xs =>
    let m := (ls.map List.length).prod
    let q := cellOf l x
    let a := l.getD q 0
    let b := l.getD (q + 1) 0
    let w := (x - a) / (b - a)
    List.zipWith (fun u v => (1 - w) * u + w * v) (multilin ls (rows.drop (q * m)) xs)
      (multilin ls (rows.drop ((q + 1) * m)) xs)

/-- Multilinear interpolation, refusing an array which has not the shape of the grid.  (Used for both methods: only the
values at the nodes matter.) -/
def exactSplines : Splines K where
  evalLinear gg c p :=
    if c.shape = gg.map (fun a => a.pts.length) ++ [c.shape.getLastD 0] then
      .ok (multilin (gg.map Axis.pts) ((List.range (gg.map (fun a => a.pts.length)).prod).map
        (c.row (c.shape.getLastD 0))) p)
    else .error .typeError
  prefilterCubic _ c := .ok c
  evalCubic gg c p :=
    if c.shape = gg.map (fun a => a.pts.length) ++ [c.shape.getLastD 0] then
      .ok (multilin (gg.map Axis.pts) ((List.range (gg.map (fun a => a.pts.length)).prod).map
        (c.row (c.shape.getLastD 0))) p)
    else .error .typeError

private theorem filter_le_length (l : List K) (hl : l.Pairwise (· < ·)) (i : ℕ) (x : K) (h : l[i]? = some x) :
    (l.filter fun y => decide (y ≤ x)).length = i + 1 := by
  induction l generalizing i with
  | nil => simp at h
  | cons a l ih =>
    rw [List.pairwise_cons] at hl
    cases i with
    | zero =>
      simp only [List.getElem?_cons_zero, Option.some.injEq] at h
      subst h
      have : l.filter (fun y => decide (y ≤ a)) = [] := by
        rw [List.filter_eq_nil_iff]
        intro y hy
        simpa using hl.1 y hy
      simp [this]
    | succ i =>
      simp only [List.getElem?_cons_succ] at h
      have hax : a ≤ x := (hl.1 x (List.mem_of_getElem? h)).le
      simp [hax, ih hl.2 i h]

private theorem zipWith_left (u v : List K) (h : u.length = v.length) :
    List.zipWith (fun u v => (1 - (0 : K)) * u + 0 * v) u v = u := by
  induction u generalizing v with
  | nil => simp
  | cons a u ih =>
    cases v with
    | nil => simp at h
    | cons b v => simpa using ih v (by simpa using h)

private theorem zipWith_right (u v : List K) (h : u.length = v.length) :
    List.zipWith (fun u v => (1 - (1 : K)) * u + 1 * v) u v = v := by
  induction v generalizing u with
  | nil => simp
  | cons a v ih =>
    cases u with
    | nil => simp at h
    | cons b u => simpa using ih u (by simpa using h)

private theorem prodRows_cons_get (l : List K) (ls : List (List K)) (k : ℕ) (p : List K)
    (h : (prodRows (l :: ls))[k]? = some p) :
    ∃ i j x t, k = i * (ls.map List.length).prod + j ∧ j < (ls.map List.length).prod ∧ l[i]? = some x ∧
      (prodRows ls)[j]? = some t ∧ p = x :: t := by
  have hk := (List.getElem?_eq_some_iff.1 h).1
  rw [length_prodRows, List.map_cons, List.prod_cons] at hk
  set m := (ls.map List.length).prod with hm
  have hpos : 0 < m := by
    rcases Nat.eq_zero_or_pos m with h0 | h0
    · rw [h0] at hk; omega
    · exact h0
  have hi : k / m < l.length := (Nat.div_lt_iff_lt_mul hpos).2 hk
  have hj : k % m < m := Nat.mod_lt _ hpos
  have hkm : k = k / m * m + k % m := by rw [Nat.mul_comm]; exact (Nat.div_add_mod k m).symm
  have hj' : k % m < (prodRows ls).length := by rw [length_prodRows]; exact hj
  rw [hkm, prodRows_cons, getElem?_flatMap_block l _ m _ _ (by intro x _; simp [length_prodRows, hm]) hj,
    List.getElem?_eq_getElem hi] at h
  simp only [Option.bind_some, List.getElem?_map, List.getElem?_eq_getElem hj', Option.map_some, Option.some.injEq] at h
  exact ⟨k / m, k % m, l[k / m], (prodRows ls)[k % m], hkm, hj, List.getElem?_eq_getElem hi,
    List.getElem?_eq_getElem hj', h.symm⟩

private theorem multilin_node (nx : ℕ) : ∀ (ls : List (List K)) (rows : List (List K)) (k : ℕ) (p r : List K),
    (∀ l ∈ ls, l.Pairwise (· < ·) ∧ 2 ≤ l.length) → (∀ r ∈ rows, r.length = nx) →
    (ls.map List.length).prod ≤ rows.length → (prodRows ls)[k]? = some p → rows[k]? = some r → multilin ls rows p = r
  | [], rows, k, p, r, _, _, _, hp, hr => by
    have hk := (List.getElem?_eq_some_iff.1 hp).1
    obtain rfl : k = 0 := by simpa using hk
    cases rows with
    | nil => simp at hr
    | cons a rows => simpa [multilin] using hr
  | l :: ls, rows, k, p, r, hg, hlen, hrows, hp, hr => by
    obtain ⟨i, j, x, t, hk, hj, hx, ht, rfl⟩ := prodRows_cons_get l ls k p hp
    obtain ⟨hsort, hl2⟩ := hg l (by simp)
    have hi := (List.getElem?_eq_some_iff.1 hx).1
    rw [List.map_cons, List.prod_cons] at hrows
    set m := (ls.map List.length).prod with hm
    have hq : cellOf l x = min i (l.length - 2) := by
      unfold cellOf
      rw [filter_le_length l hsort i x hx]
      rfl
    have hq2 : cellOf l x + 2 ≤ l.length := by rw [hq]; omega
    have block : ∀ q, q + 1 ≤ l.length → ∃ u, rows[q * m + j]? = some u ∧ u.length = nx ∧
        multilin ls (rows.drop (q * m)) t = u := by
      intro q hq
      have hle : (q + 1) * m ≤ rows.length := le_trans (Nat.mul_le_mul_right m hq) hrows
      have hlt : q * m + j < rows.length := by
        have : (q + 1) * m = q * m + m := by ring
        omega
      refine ⟨rows[q * m + j], List.getElem?_eq_getElem hlt, hlen _ (List.getElem_mem hlt), ?_⟩
      refine multilin_node nx ls _ j t _ (fun l hl => hg l (by simp [hl])) (fun r hr => hlen r (List.mem_of_mem_drop hr))
        ?_ ht ?_
      · rw [List.length_drop]
        have : (q + 1) * m = q * m + m := by ring
        omega
      · rw [List.getElem?_drop, List.getElem?_eq_getElem hlt]
    obtain ⟨u, hu, hul, hum⟩ := block (cellOf l x) (by omega)
    obtain ⟨v, hv, hvl, hvm⟩ := block (cellOf l x + 1) (by omega)
    simp only [multilin, ← hm, hum, hvm]
    by_cases hc : cellOf l x = i
    · have ha : l.getD (cellOf l x) 0 = x := by rw [hc, List.getD_eq_getElem?_getD, hx]; rfl
      rw [ha, sub_self, zero_div, zipWith_left u v (by rw [hul, hvl])]
      rw [hc, ← hk, hr] at hu
      exact (Option.some.inj hu).symm
    · have hc' : cellOf l x + 1 = i := by
        have : i < l.length := hi
        rw [hq] at hc ⊢
        omega
      have hb : l.getD (cellOf l x + 1) 0 = x := by rw [hc', List.getD_eq_getElem?_getD, hx]; rfl
      have hql : cellOf l x < l.length := by omega
      have hlt : l.getD (cellOf l x) 0 < x := by
        rw [List.getD_eq_getElem?_getD, List.getElem?_eq_getElem hql]
        change l[cellOf l x] < x
        have := List.pairwise_iff_getElem.1 hsort (cellOf l x) i hql hi (by omega)
        rwa [(List.getElem?_eq_some_iff.1 hx).2] at this
      rw [hb, div_self (sub_pos.2 hlt).ne', zipWith_right u v (by rw [hul, hvl])]
      rw [hc', ← hk, hr] at hv
      exact (Option.some.inj hv).symm

private theorem linspace_pairwise (a b : K) (n : ℕ) (h : a < b) (hn : 2 ≤ n) :
    (linspace a b n).Pairwise (· < ·) := by
  unfold linspace
  rw [List.pairwise_map]
  refine List.Pairwise.imp ?_ List.pairwise_lt_range
  intro i j hij
  have h1 : ¬ n ≤ 1 := by omega
  have hn' : (1 : K) < n := by exact_mod_cast hn
  have hpos : 0 < (b - a) / ((n : K) - 1) := div_pos (sub_pos.2 h) (sub_pos.2 hn')
  have hij' : (i : K) < j := by exact_mod_cast hij
  simp only [h1, if_false]
  have := mul_lt_mul_of_pos_right hij' hpos
  linarith

theorem good_pts {a : Axis K} (h : a.Good) : a.pts.Pairwise (· < ·) ∧ 2 ≤ a.pts.length := by
  cases a with
  | uniform a b n => exact ⟨linspace_pairwise a b n h.1 h.2, by simpa [Axis.pts, length_linspace'] using h.2⟩
  | nodes l => exact h

private theorem exact_node (gg : List (Axis K)) (vals : NdArr K) (nx k : ℕ) (p : List K) (hg : ∀ a ∈ gg, a.Good)
    (hf : FitsGrid gg vals nx) (hp : (prodRows (gg.map Axis.pts))[k]? = some p) :
    exactSplines.evalLinear gg vals p = .ok (vals.row nx k) := by
  obtain ⟨hs, hd⟩ := hf
  have hlast : vals.shape.getLastD 0 = nx := by rw [hs]; simp
  have hmap : (gg.map Axis.pts).map List.length = gg.map (fun a => a.pts.length) := by rw [List.map_map]; rfl
  have hk := (List.getElem?_eq_some_iff.1 hp).1
  rw [length_prodRows, hmap] at hk
  unfold exactSplines
  simp only [hlast]
  rw [if_pos hs]
  congr 1
  refine multilin_node nx _ _ k p _ ?_ ?_ ?_ hp ?_
  · intro l hl
    obtain ⟨a, ha, rfl⟩ := List.mem_map.1 hl
    exact good_pts (hg a ha)
  · intro r hr
    obtain ⟨i, hi, rfl⟩ := List.mem_map.1 hr
    rw [List.mem_range] at hi
    rw [NdArr.row, List.length_take, List.length_drop, hd, hs, List.prod_append]
    simp only [List.prod_singleton]
    have : i * nx + nx ≤ (gg.map (fun a => a.pts.length)).prod * nx := by
      calc i * nx + nx = (i + 1) * nx := by ring
        _ ≤ _ := Nat.mul_le_mul_right _ hi
    omega
  · rw [hmap]; simp
  · rw [List.getElem?_map, List.getElem?_range hk]; rfl

/-- The contract of C79 can be met, by multilinear interpolation. -/
theorem exactSplines_interpolates : (exactSplines : Splines K).Interpolates where
  linear gg vals nx k p hg hf hp := exact_node gg vals nx k p hg hf hp
  cubic gg vals nx hg hf := ⟨vals, rfl, fun k p hp => exact_node gg vals nx k p (fun a ha => (hg a ha).1) hf hp⟩


/-! ### C79: what fails -/

/-- **C79 fails for linear interpolation with an unstructured exogenous grid.**  Whatever the interpolation
routine, the arrays it is later given have shape `(N, n_x)` (`N` the number of nodes of the endogenous grid), which is not
the shape of the grid as soon as there are two states. -/
theorem C79_linear_unstructured_fails (B : Splines K) (nodes : List (List K)) (endo : CGrid K) (hg : endo.Good)
    (inode : ℕ → ℕ → List K) (x : NdArr K) (nm nx : ℕ) (hs : x.shape = [nm, endo.nodes.length, nx]) :
    ∃ r l, DecisionRule.init B (.unstructured nodes) endo "linear" inode (some x) = .ok r ∧
      r.coefficients = some (.list l) ∧ l.length = nm ∧ ∀ c ∈ l, c.shape = [endo.nodes.length, nx] ∧
        (2 ≤ endo.n.length → ∀ gg n', endo.numbaRepr = .ok gg → ¬ FitsGrid gg c n') := by
  obtain ⟨gg, e1, e2, e3, e4, e5, e6⟩ := hg.repr
  obtain ⟨l, hl, hlen, hget⟩ := mapM_range_ok nm (fun i => x.item i) fun i hi => ⟨_, item_ok x hs i hi⟩
  refine ⟨⟨.unstructured nodes, endo, .linear, inode, some (.list l)⟩, l, ?_, rfl, hlen, ?_⟩
  · simp only [DecisionRule.init, interpOf, bind, Except.bind, getCoefficients, NdArr.len, hs, pyGet,
      pure, Except.pure] at hl ⊢
    simp [hl]
  · intro c hc
    obtain ⟨i, hi, rfl⟩ := List.mem_iff_getElem.1 hc
    obtain ⟨b, hb, hb'⟩ := hget i (by omega)
    rw [item_ok x hs i (by omega), Except.ok.injEq] at hb
    rw [List.getElem?_eq_getElem hi, Option.some.injEq] at hb'
    have hsh : l[i].shape = [endo.nodes.length, nx] := by rw [hb', ← hb]
    refine ⟨hsh, ?_⟩
    rintro h2 gg' n' hgg ⟨hfit, -⟩
    rw [e1, Except.ok.injEq] at hgg
    subst hgg
    have := congrArg List.length hfit
    rw [hsh] at this
    rw [e3, List.length_map] at h2
    simp at this
    omega

/-- For instance, with two states and one exogenous node, a routine which checks shapes (`exactSplines`) raises. -/
theorem C79_linear_unstructured_witness :
    ∃ g r, UniformGrid.mk' [0, 0] [1, 1] [2, 2] = .ok g ∧
      DecisionRule.init (exactSplines : Splines ℚ) (.unstructured [[5]]) (.uniform g) "linear" (fun _ _ => [])
        (some ⟨[1, 4, 1], [1, 2, 3, 4]⟩) = .ok r ∧
      (r.ops exactSplines).call2 (.int 0) (.vec [0, 1]) = .error .typeError := by
  refine ⟨_, _, rfl, rfl, ?_⟩
  simp [RuleOps.call2, DecisionRule.ops, DecisionRule.evalIS, DecisionRule.coefsAt, pyGetInt, pyGet, bind, Except.bind,
    CGrid.numbaRepr, uniformAxes, pure, Except.pure, splineEval, exactSplines, Axis.pts, linspace, List.mapM_cons]

/-- **C79 fails for uniform grids with different bounds.**  Whatever the interpolation routine, a rule with a uniform
exogenous grid takes the same values for any two endogenous grids with the same orders: the bounds of the endogenous
grid are not used at all (`__add__`, see C03). -/
theorem C79_uniform_fails (B : Splines K) (exo endo endo' : UniformGrid K) (hn : endo.n = endo'.n) (method : String)
    (inode : ℕ → ℕ → List K) (x : NdArr K) (r : DecisionRule K)
    (hr : DecisionRule.init B (.cartesian (.uniform exo)) (.uniform endo) method inode (some x) = .ok r) :
    ∃ r', DecisionRule.init B (.cartesian (.uniform exo)) (.uniform endo') method inode (some x) = .ok r' ∧
      ∀ m s, (r'.ops B).call2 m s = (r.ops B).call2 m s := by
  have hadd : (CGrid.uniform exo).add (.uniform endo') = (CGrid.uniform exo).add (.uniform endo) := by
    simp only [CGrid.add, C03_uniform_add_ignores_bounds exo endo' endo hn.symm]
  have hco : ∀ it, getCoefficients B (.cartesian (.uniform exo)) (.uniform endo') it x
      = getCoefficients B (.cartesian (.uniform exo)) (.uniform endo) it x := by
    intro it
    cases it <;> simp only [getCoefficients, hadd]
  simp only [DecisionRule.init, bind, Except.bind, hco, pure, Except.pure] at hr ⊢
  cases h1 : interpOf method with
  | error e => rw [h1] at hr; cases hr
  | ok it =>
    simp only [h1] at hr ⊢
    cases h2 : getCoefficients B (.cartesian (.uniform exo)) (.uniform endo) it x with
    | error e => rw [h2] at hr; cases hr
    | ok c =>
      simp only [h2, Except.ok.injEq] at hr ⊢
      subst hr
      refine ⟨_, rfl, ?_⟩
      have hms : ∀ m s, DecisionRule.evalMS B ⟨.cartesian (.uniform exo), .uniform endo', it, inode, some c⟩ m s
          = DecisionRule.evalMS B ⟨.cartesian (.uniform exo), .uniform endo, it, inode, some c⟩ m s := by
        intro m s
        cases it <;> simp only [DecisionRule.evalMS, hadd, DecisionRule.coefs]
      have his : ∀ i s, DecisionRule.evalIS B ⟨.cartesian (.uniform exo), .uniform endo', it, inode, some c⟩ i s
          = DecisionRule.evalIS B ⟨.cartesian (.uniform exo), .uniform endo, it, inode, some c⟩ i s := by
        intro i s
        cases it <;> simp only [DecisionRule.evalIS, hms]
      intro m s
      cases m with
      | int i => cases s <;> simp only [RuleOps.call2, DecisionRule.ops, his]
      | float m => cases m <;> cases s <;> simp only [RuleOps.call2, DecisionRule.ops, hms]

/-- For instance, with an exogenous grid on `[0, 1]` and an endogenous grid on `[2, 3]` on which the values are `0` at `2` and
`1` at `3`, the rule built on multilinear interpolation gives `2` at the node `(0, 2)`, not `0`. -/
theorem C79_uniform_witness :
    ∃ g h r, UniformGrid.mk' [0] [1] [2] = .ok g ∧ UniformGrid.mk' [2] [3] [2] = .ok h ∧
      DecisionRule.init (exactSplines : Splines ℚ) (.cartesian (.uniform g)) (.uniform h) "linear" (fun _ _ => [])
        (some ⟨[2, 2, 1], [0, 1, 0, 1]⟩) = .ok r ∧
      g.nodes[0]? = some [0] ∧ h.nodes[0]? = some [2] ∧ NdArr.at (⟨[2, 2, 1], [0, 1, 0, 1]⟩ : NdArr ℚ) 2 1 0 0 = [0] ∧
      (r.ops exactSplines).call2 (.float (.vec [0])) (.vec [2]) = .ok (.vec [2]) := by
  refine ⟨_, _, _, rfl, rfl, rfl, by simp [cartesianCore, linspace, npRepeat, List.range, List.range.loop],
    by simp [cartesianCore, linspace, npRepeat, List.range, List.range.loop], rfl, ?_⟩
  simp [RuleOps.call2, DecisionRule.ops, DecisionRule.evalMS, DecisionRule.coefs, pyGet, bind, Except.bind,
    CGrid.numbaRepr, uniformAxes, pure, Except.pure, splineEval, exactSplines, Axis.pts, linspace, List.mapM_cons,
    CGrid.add, UniformGrid.add, UniformGrid.mk', mlinspace, linspaces, cartesian, concatCols, multilin, cellOf,
    List.range, List.range.loop, NdArr.row, headRow, CGrid.n]
  norm_num

/-! ### C80: one exogenous value, several states -/

/-- **C80 (partial).**  For a rule without exogenous grid or on an unstructured one, a call with a node number and several
states gives row by row what the calls with each state give.  For a Cartesian exogenous grid this is false:
`C80_cartesian_fails`. -/
theorem C80_rowwise_partial (B : Splines K) (r : DecisionRule K) (hr : ∀ g, r.exoGrid ≠ .cartesian g) (i : ℤ)
    (ss vs : List (List K)) (hss : ss ≠ []) :
    (r.ops B).call2 (.int i) (.rows ss) = .ok (.rows vs) ↔
      List.Forall₂ (fun s v => (r.ops B).call2 (.int i) (.vec s) = .ok (.vec v)) ss vs := by
  have key : ∀ (f : List (List K) → Except Err (List (List K))) (o : Except Err (List K → Except Err (List K))),
      (∀ ss, f ss = o.bind fun g => ss.mapM g) →
      ((do let l ← f ss; pure (Pts.rows l)) = Except.ok (.rows vs) ↔
        List.Forall₂ (fun s v => (do headRow (← f [s])) = Except.ok (.vec v)) ss vs) := by
    intro f o hf
    simp only [hf, bind, pure, Except.pure]
    cases o with
    | error e =>
      cases ss with
      | nil => exact absurd rfl hss
      | cons a ss => simp [Except.bind, List.forall₂_cons_left_iff]
    | ok g =>
      have h1 : ∀ s v, (Except.bind (Except.bind (Except.ok g) fun g => [s].mapM g) fun x => headRow x)
          = Except.ok (Pts.vec v) ↔ g s = .ok v := by
        intro s v
        simp only [Except.bind, List.mapM_cons, List.mapM_nil, bind, pure, Except.pure]
        cases g s <;> simp [headRow, pyGet, bind, Except.bind, pure, Except.pure]
      simp only [h1, ← mapM_ok_iff]
      simp only [Except.bind]
      cases ss.mapM g <;> simp
  have hes : r.exoGrid = .empty → ∃ o : Except Err (List K → Except Err (List K)),
      ∀ ss, r.evalS B ss = o.bind fun g => ss.mapM g := by
    intro he
    cases hi : r.interp with
    | chebychev => exact ⟨.error .dispatchError, fun ss => by simp [DecisionRule.evalS, hi, Except.bind]⟩
    | linear =>
      refine ⟨do let c ← r.coefs; let gg ← r.endoGrid.numbaRepr; pure (B.evalLinear gg c), fun ss => ?_⟩
      simp only [DecisionRule.evalS, he, hi, bind, pure, Except.pure, splineEval]
      cases r.coefs <;> cases r.endoGrid.numbaRepr <;> rfl
    | cubic =>
      refine ⟨do let c ← r.coefs; let gg ← r.endoGrid.numbaRepr; pure (B.evalCubic gg c), fun ss => ?_⟩
      simp only [DecisionRule.evalS, he, hi, bind, pure, Except.pure, splineEval]
      cases r.coefs <;> cases r.endoGrid.numbaRepr <;> rfl
  have heis : ∃ o : Except Err (List K → Except Err (List K)), ∀ ss, r.evalIS B i ss = o.bind fun g => ss.mapM g := by
    cases he : r.exoGrid with
    | cartesian g => exact absurd he (hr g)
    | empty =>
      obtain ⟨o, ho⟩ := hes he
      exact ⟨o, fun ss => by simp only [DecisionRule.evalIS, he, ho]⟩
    | unstructured nodes =>
      cases hi : r.interp with
      | chebychev => exact ⟨.error .dispatchError, fun ss => by simp [DecisionRule.evalIS, he, hi, Except.bind]⟩
      | linear =>
        refine ⟨do let c ← r.coefsAt i; let gg ← r.endoGrid.numbaRepr; pure (B.evalLinear gg c), fun ss => ?_⟩
        simp only [DecisionRule.evalIS, he, hi, bind, pure, Except.pure, splineEval]
        cases r.coefsAt i <;> cases r.endoGrid.numbaRepr <;> rfl
      | cubic =>
        refine ⟨do let c ← r.coefsAt i; let gg ← r.endoGrid.numbaRepr; pure (B.evalCubic gg c), fun ss => ?_⟩
        simp only [DecisionRule.evalIS, he, hi, bind, pure, Except.pure, splineEval]
        cases r.coefsAt i <;> cases r.endoGrid.numbaRepr <;> rfl
  obtain ⟨o, ho⟩ := heis
  exact key (r.evalIS B i) o ho

/-- **C80 fails for a Cartesian exogenous grid.**  A rule with one, whose one-point calls can succeed, raises a `ValueError`
whenever it is called with one exogenous value (given by its coordinates or by its number) and any number of states
other than one. -/
theorem C80_cartesian_fails (B : Splines K) (r : DecisionRule K) (g : CGrid K) (hr : r.exoGrid = .cartesian g)
    (i : ℕ) (m s v : List K) (hi : g.nodes[i]? = some m)
    (hone : (r.ops B).call2 (.float (.vec m)) (.vec s) = .ok (.vec v)) (ss : List (List K)) (hss : ss.length ≠ 1) :
    (r.ops B).call2 (.float (.vec m)) (.rows ss) = .error .valueError ∧
    (r.ops B).call2 (.int i) (.rows ss) = .error .valueError := by
  have hit : r.interp ≠ .chebychev := by
    intro h
    simp [RuleOps.call2, DecisionRule.ops, DecisionRule.evalMS, hr, h, bind, Except.bind] at hone
  have hms : r.evalMS B [m] ss = .error .valueError := by
    simp only [RuleOps.call2, DecisionRule.ops, bind, Except.bind] at hone
    have hcc : concatCols [m] ss = .error .valueError := by
      simp only [concatCols, List.length_singleton, if_neg (Ne.symm hss)]
    cases hin : r.interp with
    | chebychev => exact absurd hin hit
    | linear =>
      simp only [DecisionRule.evalMS, hr, hin, bind, Except.bind] at hone ⊢
      cases h1 : g.add r.endoGrid with
      | error e => rw [h1] at hone; cases hone
      | ok grid =>
        cases h2 : r.coefs with
        | error e => rw [h1, h2] at hone; cases hone
        | ok c =>
          cases h3 : grid.numbaRepr with
          | error e => rw [h1, h2] at hone; simp [h3] at hone
          | ok gg => simp [h3, hcc]
    | cubic =>
      simp only [DecisionRule.evalMS, hr, hin, bind, Except.bind] at hone ⊢
      cases h1 : g.add r.endoGrid with
      | error e => rw [h1] at hone; cases hone
      | ok grid =>
        cases h2 : r.coefs with
        | error e => rw [h1, h2] at hone; cases hone
        | ok c =>
          cases h3 : grid.numbaRepr with
          | error e => rw [h1, h2] at hone; simp [h3] at hone
          | ok gg => simp [h3, hcc]
  constructor
  · simp [RuleOps.call2, DecisionRule.ops, hms, bind, Except.bind]
  · cases hin : r.interp with
    | chebychev => exact absurd hin hit
    | linear => simp only [RuleOps.call2, DecisionRule.ops, DecisionRule.evalIS, hr, hin, pyGetInt_ofNat, pyGet_some hi,
        hms, bind, Except.bind]
    | cubic => simp only [RuleOps.call2, DecisionRule.ops, DecisionRule.evalIS, hr, hin, pyGetInt_ofNat, pyGet_some hi,
        hms, bind, Except.bind]

/-! ### C81: the rule at the next exogenous state -/

/-- The call with one state that gives the rule at the `j`-th exogenous value that can follow node `i`. -/
def nextCall (B : Splines K) (r : DecisionRule K) (i j : ℕ) (s : List K) : Except Err (Pts (List K)) :=
  match r.exoGrid with
  | .empty => (r.ops B).call1 (.vec s)
  | .unstructured _ => (r.ops B).call2 (.int j) (.vec s)
  | .cartesian _ => (r.ops B).call2 (.float (.vec (r.inode i j))) (.vec s)

/-- **C81** (negative indices).  As in Python, the index `-k` of an exogenous node is the `k`-th from the end. -/
theorem C81_negative_index (B : Splines K) (r : DecisionRule K) (k : ℕ) (hk : 1 ≤ k) (ss : List (List K)) :
    (∀ g, r.exoGrid = .cartesian g → k ≤ g.nodes.length →
      r.evalIS B (-(k : ℤ)) ss = r.evalIS B ((g.nodes.length - k : ℕ) : ℤ) ss) ∧
    (∀ g l, r.exoGrid = .unstructured g → r.coefficients = some (.list l) → k ≤ l.length →
      r.evalIS B (-(k : ℤ)) ss = r.evalIS B ((l.length - k : ℕ) : ℤ) ss) ∧
    (r.exoGrid = .empty → ∀ i, r.evalIS B (-(k : ℤ)) ss = r.evalIS B i ss) := by
  have key : ∀ {α : Type} (l : List α), k ≤ l.length →
      pyGetInt l (-(k : ℤ)) = pyGetInt l ((l.length - k : ℕ) : ℤ) := by
    intro α l hl
    rw [pyGetInt_ofNat, pyGetInt, if_neg (by omega), if_pos (by omega)]
    congr 1
    omega
  refine ⟨?_, ?_, ?_⟩
  · intro g hg hl
    cases hi : r.interp <;> simp only [DecisionRule.evalIS, hg, hi, key _ hl]
  · intro g l hg hc hl
    cases hi : r.interp <;> simp only [DecisionRule.evalIS, hg, hi, DecisionRule.coefsAt, hc, key _ hl]
  · intro hg i
    cases hi : r.interp <;> simp only [DecisionRule.evalIS, hg, hi]

/-- **C81.**  For every kind of exogenous grid and any number of states, `eval_ijs(i, j, s)` is, row by row, the rule at the
`j`-th exogenous value that can follow node `i`. -/
theorem C81_eval_ijs (B : Splines K) (r : DecisionRule K) (i j : ℕ) (ss vs : List (List K)) (hss : ss ≠ []) :
    r.evalIJS B i j ss = .ok vs ↔ List.Forall₂ (fun s v => nextCall B r i j s = .ok (.vec v)) ss vs := by
  have key : ∀ (f : List (List K) → Except Err (List (List K))) (o : Except Err (List K → Except Err (List K))),
      (f ss = o.bind fun g => ss.mapM g) →
      ∀ c : List K → Except Err (Pts (List K)),
      (∀ s, c s = o.bind fun g => (g s).bind fun v => .ok (.vec v)) →
      (f ss = .ok vs ↔ List.Forall₂ (fun s v => c s = .ok (.vec v)) ss vs) := by
    intro f o hf c hc
    simp only [hf, hc]
    cases o with
    | error e =>
      cases ss with
      | nil => exact absurd rfl hss
      | cons a ss => simp [Except.bind, List.forall₂_cons_left_iff]
    | ok g =>
      have h1 : ∀ s v, ((Except.ok g : Except Err (List K → Except Err (List K))).bind fun g =>
          (g s).bind fun v => Except.ok (Pts.vec v)) = Except.ok (Pts.vec v) ↔ g s = .ok v := by
        intro s v
        simp only [Except.bind]
        cases g s <;> simp
      simp only [h1, ← mapM_ok_iff]
      rfl
  cases he : r.exoGrid with
  | empty =>
    cases hi : r.interp with
    | chebychev =>
      refine key _ (.error .dispatchError) ?_ _ ?_
      · simp [DecisionRule.evalIJS, DecisionRule.evalS, he, hi, Except.bind]
      · intro s
        simp [nextCall, RuleOps.call1, DecisionRule.ops, DecisionRule.evalS, he, hi, bind, Except.bind]
    | linear =>
      refine key _ (do let c ← r.coefs; let gg ← r.endoGrid.numbaRepr; pure (B.evalLinear gg c)) ?_ _ ?_
      · simp only [DecisionRule.evalIJS, DecisionRule.evalS, he, hi, bind, pure, Except.pure, splineEval]
        cases r.coefs <;> cases r.endoGrid.numbaRepr <;> rfl
      · intro s
        simp only [nextCall, RuleOps.call1, DecisionRule.ops, DecisionRule.evalS, he, hi, bind, pure, Except.pure, splineEval,
          List.mapM_cons, List.mapM_nil]
        cases r.coefs <;> cases r.endoGrid.numbaRepr <;> try rfl
        rename_i c gg
        simp only [Except.bind]
        cases B.evalLinear gg c s <;> rfl
    | cubic =>
      refine key _ (do let c ← r.coefs; let gg ← r.endoGrid.numbaRepr; pure (B.evalCubic gg c)) ?_ _ ?_
      · simp only [DecisionRule.evalIJS, DecisionRule.evalS, he, hi, bind, pure, Except.pure, splineEval]
        cases r.coefs <;> cases r.endoGrid.numbaRepr <;> rfl
      · intro s
        simp only [nextCall, RuleOps.call1, DecisionRule.ops, DecisionRule.evalS, he, hi, bind, pure, Except.pure, splineEval,
          List.mapM_cons, List.mapM_nil]
        cases r.coefs <;> cases r.endoGrid.numbaRepr <;> try rfl
        rename_i c gg
        simp only [Except.bind]
        cases B.evalCubic gg c s <;> rfl
  | unstructured nodes =>
    have h := C80_rowwise_partial B r (by simp [he]) j ss vs hss
    have e1 : r.evalIJS B i j ss = r.evalIS B j ss := by simp only [DecisionRule.evalIJS, he]
    have e2 : ∀ s, nextCall B r i j s = (r.ops B).call2 (.int j) (.vec s) := by intro s; simp only [nextCall, he]
    simp only [e1, e2, ← h]
    simp only [RuleOps.call2, DecisionRule.ops, bind, Except.bind, pure, Except.pure]
    cases r.evalIS B j ss <;> simp
  | cartesian g =>
    have hz : ∀ m (l : List (List K)), concatCols (List.replicate l.length m) l = .ok (l.map fun s => m ++ s) := by
      intro m l
      rw [concatCols, if_pos (by simp)]
      congr 1
      induction l with
      | nil => rfl
      | cons a l ih => simp [List.replicate_succ, ih]
    have hm : ∀ (f : List K → Except Err (List K)) m (l : List (List K)),
        (l.map fun s => m ++ s).mapM f = l.mapM fun s => f (m ++ s) := by
      intro f m l
      induction l with
      | nil => rfl
      | cons a l ih => simp only [List.map_cons, List.mapM_cons, ih]
    cases hi : r.interp with
    | chebychev =>
      refine key _ (.error .dispatchError) ?_ _ ?_
      · simp [DecisionRule.evalIJS, DecisionRule.evalMS, he, hi, Except.bind]
      · intro s
        simp [nextCall, RuleOps.call2, DecisionRule.ops, DecisionRule.evalMS, he, hi, bind, Except.bind]
    | linear =>
      refine key _ (do let grid ← g.add r.endoGrid; let c ← r.coefs; let gg ← grid.numbaRepr
                       pure fun s => B.evalLinear gg c (r.inode i j ++ s)) ?_ _ ?_
      · simp only [DecisionRule.evalIJS, DecisionRule.evalMS, he, hi, bind, pure, Except.pure, splineEval, hz]
        cases g.add r.endoGrid <;> cases r.coefs <;> try rfl
        rename_i grid c
        simp only [Except.bind]
        cases grid.numbaRepr <;> simp [hm]
      · intro s
        simp only [nextCall, RuleOps.call2, DecisionRule.ops, DecisionRule.evalMS, he, hi, bind, pure, Except.pure, splineEval]
        cases g.add r.endoGrid <;> cases r.coefs <;> try rfl
        rename_i grid c
        simp only [Except.bind]
        cases grid.numbaRepr <;> try rfl
        rename_i gg
        simp only [concatCols, List.length_singleton, if_true, List.zipWith_cons_cons, List.zipWith_nil_right,
          List.mapM_cons, List.mapM_nil, bind, Except.bind, pure, Except.pure]
        cases B.evalLinear gg c (r.inode i j ++ s) <;> rfl
    | cubic =>
      refine key _ (do let grid ← g.add r.endoGrid; let c ← r.coefs; let gg ← grid.numbaRepr
                       pure fun s => B.evalCubic gg c (r.inode i j ++ s)) ?_ _ ?_
      · simp only [DecisionRule.evalIJS, DecisionRule.evalMS, he, hi, bind, pure, Except.pure, splineEval, hz]
        cases g.add r.endoGrid <;> cases r.coefs <;> try rfl
        rename_i grid c
        simp only [Except.bind]
        cases grid.numbaRepr <;> simp [hm]
      · intro s
        simp only [nextCall, RuleOps.call2, DecisionRule.ops, DecisionRule.evalMS, he, hi, bind, pure, Except.pure, splineEval]
        cases g.add r.endoGrid <;> cases r.coefs <;> try rfl
        rename_i grid c
        simp only [Except.bind]
        cases grid.numbaRepr <;> try rfl
        rename_i gg
        simp only [concatCols, List.length_singleton, if_true, List.zipWith_cons_cons, List.zipWith_nil_right,
          List.mapM_cons, List.mapM_nil, bind, Except.bind, pure, Except.pure]
        cases B.evalCubic gg c (r.inode i j ++ s) <;> rfl

/-! ### The hypotheses can be met -/

/-- C79 on an unstructured grid, with cubic interpolation of two states: four values given back. -/
example (i : ℕ) (hi : i < 2) : ∃ g r, UniformGrid.mk' [0, 0] [1, 1] [2, 2] = .ok g ∧
    DecisionRule.init (exactSplines : Splines ℚ) (.unstructured [[5], [6]]) (.uniform g) "cubic" (fun _ _ => [])
      (some ⟨[2, 4, 1], [1, 2, 3, 4, 5, 6, 7, 8]⟩) = .ok r ∧
    (r.ops exactSplines).call2 (.int i) (.vec [1, 0]) = .ok (.vec [i * 4 + 3]) := by
  have hg : UniformGrid.mk' [(0 : ℚ), 0] [1, 1] [2, 2] = .ok ⟨[0, 0], [1, 1], [2, 2], [[0, 0], [0, 1], [1, 0], [1, 1]]⟩ := by
    norm_num [UniformGrid.mk', mlinspace, linspaces, cartesian, cartesianCore, linspace, npRepeat, List.range,
      List.range.loop, List.replicate, bind, Except.bind, pure, Except.pure]
  obtain ⟨r, hr, h⟩ := C79_unstructured_partial exactSplines exactSplines_interpolates [[5], [6]]
    (.uniform ⟨[0, 0], [1, 1], [2, 2], [[0, 0], [0, 1], [1, 0], [1, 1]]⟩)
    ⟨[0, 0], [1, 1], [2, 2], hg, rfl, by simp, by simp⟩ "cubic" (Or.inl ⟨rfl, trivial⟩) (fun _ _ => [])
    ⟨[2, 4, 1], [1, 2, 3, 4, 5, 6, 7, 8]⟩ 2 1 rfl rfl
  refine ⟨_, r, hg, hr, ?_⟩
  rw [(h i hi).1 2 [1, 0] rfl]
  interval_cases i <;> norm_num [NdArr.at, CGrid.nodes]

/-- C79 on Cartesian grids, non-uniform, and C80: a pair of nodes gives back its value; two states at once raise. -/
example : ∃ g h r, NonUniformGrid.mk' [[0, 1]] = .ok g ∧ NonUniformGrid.mk' [[0, 2, 3]] = .ok h ∧
    DecisionRule.init (exactSplines : Splines ℚ) (.cartesian (.nonUniform g)) (.nonUniform h) "linear" (fun _ _ => [])
      (some ⟨[2, 3, 1], [1, 2, 3, 4, 5, 6]⟩) = .ok r ∧
    (r.ops exactSplines).call2 (.float (.vec [1])) (.vec [2]) = .ok (.vec [5]) ∧
    (r.ops exactSplines).call2 (.float (.vec [1])) (.rows [[2], [3]]) = .error .valueError := by
  have hg : NonUniformGrid.mk' [[(0 : ℚ), 1]] = .ok ⟨[[0, 1]], [[0], [1]]⟩ := rfl
  have hh : NonUniformGrid.mk' [[(0 : ℚ), 2, 3]] = .ok ⟨[[0, 2, 3]], [[0], [2], [3]]⟩ := rfl
  obtain ⟨grid, hadd, hprod⟩ := C79_product_nonuniform (K := ℚ) ⟨[[0, 1]], [[0], [1]]⟩ ⟨[[0, 2, 3]], [[0], [2], [3]]⟩
    ⟨_, hg, by norm_num⟩ ⟨_, hh, by norm_num⟩
  obtain ⟨r, hr, h⟩ := C79_cartesian_partial exactSplines exactSplines_interpolates _ _ grid hadd hprod "linear"
    (Or.inr (Or.inl rfl)) (fun _ _ => []) ⟨[2, 3, 1], [1, 2, 3, 4, 5, 6]⟩ 1 rfl rfl
  have h1 := (h 1 1 [1] [2] rfl rfl).1
  have e : NdArr.at (⟨[2, 3, 1], [1, 2, 3, 4, 5, 6]⟩ : NdArr ℚ)
      (CGrid.nonUniform (⟨[[0, 2, 3]], [[0], [2], [3]]⟩ : NonUniformGrid ℚ)).nodes.length 1 1 1 = [5] := rfl
  rw [e] at h1
  refine ⟨_, _, r, hg, hh, hr, h1, ?_⟩
  have hx : r.exoGrid = .cartesian (.nonUniform ⟨[[0, 1]], [[0], [1]]⟩) := by
    simp only [DecisionRule.init, interpOf, bind, Except.bind, pure, Except.pure] at hr
    simp only [show ("linear" = "cubic") = False by simp, if_false, if_true] at hr
    cases hc : getCoefficients exactSplines (.cartesian (.nonUniform (⟨[[0, 1]], [[0], [1]]⟩ : NonUniformGrid ℚ)))
        (.nonUniform ⟨[[0, 2, 3]], [[0], [2], [3]]⟩) .linear ⟨[2, 3, 1], [1, 2, 3, 4, 5, 6]⟩ with
    | error e => rw [hc] at hr; cases hr
    | ok c =>
      rw [hc, Except.ok.injEq] at hr
      rw [← hr]
  exact (C80_cartesian_fails exactSplines r _ hx 1 [1] [2] [5] rfl h1 [[2], [3]] (by simp)).1

end Dolo
