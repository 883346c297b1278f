import Mathlib.Tactic.NormNum
import Verif.Lemmas.Multilinear
import Verif.Props.Relabel
import Verif.Props.ItiOperator
import Verif.Props.MethodsAgree
import Verif.Props.Howard
import Verif.Props.PolicyValue

/-!
# C152: linear interpolation has the properties that the solution methods rely on

`time_iteration`, `improved_time_iteration` and `value_iteration` set the values of a `DecisionRule` and evaluate it
between the nodes.  `eval_linear` belongs to the package `interpolation`, outside the repository; its contract here is
`Splines.Multilinear`: on arguments of the right shapes it returns the multilinear interpolant (with linear extrapolation).
-/

set_option linter.unusedSectionVars false

namespace Dolo

section
variable {K : Type} [Field K] [LinearOrder K] [IsStrictOrderedRing K]

/-- `eval_linear` is multilinear interpolation, for an array of values of the shape of the grid. -/
def Splines.Multilinear (B : Splines K) : Prop :=
  ∀ (gg : List (Axis K)) (vals : NdArr K) (nx : ℕ) (p : List K), (∀ a ∈ gg, a.Good) → FitsGrid gg vals nx →
    p.length = gg.length → B.evalLinear gg vals p = .ok (multilin (gg.map Axis.pts)
      ((List.range (gg.map (fun a => a.pts.length)).prod).map (vals.row nx)) p)

theorem exactSplines_multilinear : (exactSplines : Splines K).Multilinear := by
  intro gg vals nx p _ hf _
  obtain ⟨hs, hd⟩ := hf
  have hlast : vals.shape.getLastD 0 = nx := by rw [hs]; simp
  unfold exactSplines
  simp only [hlast]
  rw [if_pos hs]

/-- The array which `time_iteration` gives to `set_values`. -/
def tableArr (nm N nx : ℕ) (t : Table K) : NdArr K :=
  ⟨[nm, N, nx], (List.range (nm * N * nx)).map fun r => t (r / nx / N) (r / nx % N) (r % nx)⟩

/-- `mdr.eval_ijs(i, j, S)[:, k]` after `mdr.set_values(t)`, at one point (`0` where this raises). -/
def ruleInterp (B : Splines K) (exo : ExoGrid K) (endo : CGrid K) (inode : ℕ → ℕ → List K) (nm nx : ℕ)
    (t : Table K) (i j : ℕ) (S : ℕ → K) (k : ℕ) : K :=
  match (do
    let r ← DecisionRule.init B exo endo "linear" inode (some (tableArr nm endo.nodes.length nx t))
    r.evalIJS B i j [(List.range endo.n.length).map S]) with
  | .ok (row :: _) => row.getD k 0
  | _ => 0

/-- Coordinate `d` of node `n` of a grid. -/
def CGrid.coord (g : CGrid K) (n d : ℕ) : K := (g.nodes.getD n []).getD d 0

/-- `S` lies in the box spanned by the nodes. -/
def CGrid.InBox (g : CGrid K) (S : ℕ → K) : Prop :=
  ∀ d < g.n.length, (∃ n < g.nodes.length, g.coord n d ≤ S d) ∧ ∃ n < g.nodes.length, S d ≤ g.coord n d

/-! ### Grids and arrays -/

/-- The axes of a grid. -/
def CGrid.axes (g : CGrid K) : List (List K) :=
  match g.numbaRepr with
  | .ok gg => gg.map Axis.pts
  | .error _ => []

theorem good_axes {g : CGrid K} (h : g.Good) : (∀ l ∈ g.axes, GoodAxis l) ∧ g.nodes = prodRows g.axes ∧
    g.n.length = g.axes.length ∧ g.nodes.length = gridN g.axes := by
  obtain ⟨gg, e1, e2, e3, e4, e5, e6⟩ := h.repr
  have ha : g.axes = gg.map Axis.pts := by simp [CGrid.axes, e1]
  refine ⟨?_, by rw [ha]; exact e2, by rw [ha, e3]; simp, ?_⟩
  · rw [ha]
    intro l hl
    obtain ⟨a, ha, rfl⟩ := List.mem_map.1 hl
    exact good_pts (e4 a ha)
  · rw [e2, ha, length_prodRows]; rfl

/-- The point as a list. -/
def pt (D : ℕ) (S : ℕ → K) : List K := (List.range D).map S

theorem pt_length (D : ℕ) (S : ℕ → K) : (pt D S).length = D := by simp [pt]

theorem pt_getD (D : ℕ) (S : ℕ → K) (d : ℕ) (hd : d < D) : (pt D S).getD d 0 = S d := by
  simp [pt, hd]

/-- The weight of node `n` at `S`. -/
def CGrid.weight (g : CGrid K) (S : ℕ → K) (n : ℕ) : K := nodeW g.axes (pt g.n.length S) (gridNode g.axes n)

private theorem tableArr_getD (nm N nx : ℕ) (t : Table K) (i n k : ℕ) (hi : i < nm) (hn : n < N) (hk : k < nx) :
    (tableArr nm N nx t).data.getD ((i * N + n) * nx + k) 0 = t i n k := by
  have h1 : i * N + n < nm * N := by
    calc i * N + n < i * N + N := by omega
      _ = (i + 1) * N := by ring
      _ ≤ nm * N := Nat.mul_le_mul_right _ hi
  have h2 : (i * N + n) * nx + k < nm * N * nx := by
    calc (i * N + n) * nx + k < (i * N + n) * nx + nx := by omega
      _ = (i * N + n + 1) * nx := by ring
      _ ≤ nm * N * nx := Nat.mul_le_mul_right _ h1
  have e1 : ((i * N + n) * nx + k) / nx = i * N + n := by
    rw [Nat.add_comm, Nat.add_mul_div_right _ _ (by omega), Nat.div_eq_of_lt hk, Nat.zero_add]
  have e2 : ((i * N + n) * nx + k) % nx = k := by
    rw [Nat.add_comm, Nat.add_mul_mod_self_right, Nat.mod_eq_of_lt hk]
  have e3 : (i * N + n) / N = i := by
    rw [Nat.add_comm, Nat.add_mul_div_right _ _ (by omega), Nat.div_eq_of_lt hn, Nat.zero_add]
  have e4 : (i * N + n) % N = n := by
    rw [Nat.add_comm, Nat.add_mul_mod_self_right, Nat.mod_eq_of_lt hn]
  simp [tableArr, h2, e1, e2, e3, e4]

private theorem row_getD (x : NdArr K) (nx k c : ℕ) (hc : c < nx) : (x.row nx k).getD c 0 = x.data.getD (k * nx + c) 0 := by
  simp [NdArr.row, List.getD_eq_getElem?_getD, List.getElem?_take, hc, List.getElem?_drop]

private theorem row_length (x : NdArr K) (N nx k : ℕ) (hx : x.data.length = N * nx) (hk : k < N) :
    (x.row nx k).length = nx := by
  have : k * nx + nx ≤ N * nx := by
    calc k * nx + nx = (k + 1) * nx := by ring
      _ ≤ _ := Nat.mul_le_mul_right _ hk
  rw [NdArr.row, List.length_take, List.length_drop, hx]
  omega

/-- One evaluation, for values of the right shape. -/
private theorem eval_linear_sum {B : Splines K} (hB : B.Multilinear) {gg : List (Axis K)} (hg : ∀ a ∈ gg, a.Good)
    {y : NdArr K} {nx : ℕ} (hf : FitsGrid gg y nx) {p : List K} (hp : p.length = gg.length) :
    ∃ row, B.evalLinear gg y p = .ok row ∧ row.length = nx ∧ ∀ c < nx, row.getD c 0
      = ∑ k ∈ Finset.range (gridN (gg.map Axis.pts)), nodeW (gg.map Axis.pts) p (gridNode (gg.map Axis.pts) k)
        * y.data.getD (k * nx + c) 0 := by
  have hga : ∀ l ∈ gg.map Axis.pts, GoodAxis l := by
    intro l hl
    obtain ⟨a, ha, rfl⟩ := List.mem_map.1 hl
    exact good_pts (hg a ha)
  have hN : gridN (gg.map Axis.pts) = (gg.map (fun a => a.pts.length)).prod := by
    unfold gridN; rw [List.map_map]; rfl
  have hlen : y.data.length = gridN (gg.map Axis.pts) * nx := by
    rw [hf.2, hf.1, hN]; simp
  have hrows : ∀ r ∈ (List.range (gg.map (fun a => a.pts.length)).prod).map (y.row nx), r.length = nx := by
    intro r hr
    obtain ⟨k, hk, rfl⟩ := List.mem_map.1 hr
    exact row_length y _ nx k hlen (by rw [hN]; exact List.mem_range.1 hk)
  have hp' : p.length = (gg.map Axis.pts).length := by simpa using hp
  refine ⟨_, hB gg y nx p hg hf hp, multilin_length nx _ _ _ hga hrows (by simp [hN]) hp', fun c hc => ?_⟩
  rw [multilin_sum nx c hc _ _ _ hga hrows (by simp [hN]) hp']
  apply Finset.sum_congr rfl
  intro k hk
  rw [Finset.mem_range, hN] at hk
  congr 1
  rw [← row_getD y nx k c hc]
  simp [hk]

private theorem tableArr_length (nm N nx : ℕ) (t : Table K) : (tableArr nm N nx t).data.length = nm * N * nx := by
  simp [tableArr]

/-- Values of an interpolated rule without exogenous grid. -/
theorem ruleInterp_empty {B : Splines K} (hB : B.Multilinear) {endo : CGrid K} (hg : endo.Good)
    (inode : ℕ → ℕ → List K) (nx : ℕ) (t : Table K) (i j : ℕ) (S : ℕ → K) (k : ℕ) :
    ruleInterp B .empty endo inode 1 nx t i j S k
      = if k < nx then ∑ n ∈ Finset.range endo.nodes.length, endo.weight S n * t 0 n k else 0 := by
  obtain ⟨gg, e1, e2, e3, e4, e5, e6⟩ := hg.repr
  obtain ⟨a1, a2, a3, a4⟩ := good_axes hg
  have ha : endo.axes = gg.map Axis.pts := by simp [CGrid.axes, e1]
  have hN : endo.nodes.length = (gg.map (fun a => a.pts.length)).prod := by
    rw [e2, length_prodRows, List.map_map]; rfl
  obtain ⟨y, hy, hyd, hfit⟩ := reshape_fits e4 (tableArr 1 endo.nodes.length nx t) nx
    (by rw [tableArr_length, one_mul, hN])
  have hD : endo.n.length = gg.length := by rw [e3]; simp
  obtain ⟨row, hrow, hlen, hval⟩ := eval_linear_sum hB e4 hfit (p := pt endo.n.length S) (by rw [pt_length, hD])
  have hev : (do
      let r ← DecisionRule.init B .empty endo "linear" inode (some (tableArr 1 endo.nodes.length nx t))
      r.evalIJS B i j [(List.range endo.n.length).map S]) = .ok [row] := by
    have hrow' : B.evalLinear gg y ((List.range endo.n.length).map S) = .ok row := hrow
    simp [DecisionRule.init, interpOf, bind, Except.bind, getCoefficients, pure, Except.pure, e3.symm ▸ hy,
      DecisionRule.evalIJS, DecisionRule.evalS, DecisionRule.coefs, e1, splineEval, List.mapM_cons, hrow']
  unfold ruleInterp
  rw [hev]
  change row.getD k 0 = _
  split_ifs with hk
  · rw [hval k hk, ← ha, a4]
    apply Finset.sum_congr rfl
    intro n hn
    rw [Finset.mem_range, ← a4] at hn
    rw [hyd, ← tableArr_getD 1 endo.nodes.length nx t 0 n k (by omega) hn hk, Nat.zero_mul, Nat.zero_add]
    rfl
  · rw [List.getD_eq_getElem?_getD, List.getElem?_eq_none (by omega)]
    rfl

/-- Values of an interpolated rule with an unstructured exogenous grid (a Markov chain), and one state. -/
theorem ruleInterp_unstructured {B : Splines K} (hB : B.Multilinear) {endo : CGrid K} (hg : endo.Good)
    (h1 : endo.n.length = 1) (nodes : List (List K)) (inode : ℕ → ℕ → List K) (nm nx : ℕ) (t : Table K) (i j : ℕ)
    (S : ℕ → K) (k : ℕ) :
    ruleInterp B (.unstructured nodes) endo inode nm nx t i j S k
      = if j < nm ∧ k < nx then ∑ n ∈ Finset.range endo.nodes.length, endo.weight S n * t j n k else 0 := by
  obtain ⟨gg, e1, e2, e3, e4, e5, e6⟩ := hg.repr
  obtain ⟨a1, a2, a3, a4⟩ := good_axes hg
  have ha : endo.axes = gg.map Axis.pts := by simp [CGrid.axes, e1]
  have hD : endo.n.length = gg.length := by rw [e3]; simp
  have hgl : gg.length = 1 := by omega
  obtain ⟨a, rfl⟩ := List.length_eq_one_iff.1 hgl
  have hN : endo.nodes.length = a.pts.length := by
    rw [e2, length_prodRows]; simp
  have hs : (tableArr nm endo.nodes.length nx t).shape = [nm, endo.nodes.length, nx] := rfl
  obtain ⟨l, hl, hll, hget⟩ := mapM_range_ok nm (fun i => (tableArr nm endo.nodes.length nx t).item i)
    fun i hi => ⟨_, item_ok _ hs i hi⟩
  have hinit : DecisionRule.init B (.unstructured nodes) endo "linear" inode
      (some (tableArr nm endo.nodes.length nx t))
      = .ok ⟨.unstructured nodes, endo, .linear, inode, some (.list l)⟩ := by
    simp only [DecisionRule.init, interpOf, bind, Except.bind, getCoefficients, e1, NdArr.len, hs, pyGet,
      pure, Except.pure] at hl ⊢
    simp [hl]
  by_cases hj : j < nm
  · obtain ⟨c, hc, hli⟩ := hget j hj
    rw [item_ok _ hs j hj, Except.ok.injEq] at hc
    have hfit : FitsGrid [a] c nx := by
      subst hc
      refine ⟨by simp [hN], ?_⟩
      have := item_length (tableArr nm endo.nodes.length nx t) (nm := nm) (N := endo.nodes.length) (nx := nx)
        (tableArr_length _ _ _ _) j hj
      simpa using this
    obtain ⟨row, hrow, hlen, hval⟩ := eval_linear_sum hB e4 hfit (p := pt endo.n.length S) (by rw [pt_length, hD])
    have hrow' : B.evalLinear [a] c ((List.range endo.n.length).map S) = .ok row := hrow
    have hev : (do
        let r ← DecisionRule.init B (.unstructured nodes) endo "linear" inode
          (some (tableArr nm endo.nodes.length nx t))
        r.evalIJS B i j [(List.range endo.n.length).map S]) = .ok [row] := by
      rw [hinit]
      simp [bind, Except.bind, pure, Except.pure, DecisionRule.evalIJS, DecisionRule.evalIS, DecisionRule.coefsAt,
        pyGetInt_ofNat, pyGet_some hli, e1, splineEval, List.mapM_cons, hrow']
    unfold ruleInterp
    rw [hev]
    change row.getD k 0 = _
    by_cases hk : k < nx
    · rw [if_pos ⟨hj, hk⟩, hval k hk, ← ha, a4]
      apply Finset.sum_congr rfl
      intro n hn
      rw [Finset.mem_range, ← a4] at hn
      rw [← tableArr_getD nm endo.nodes.length nx t j n k hj hn hk, ← hc]
      congr 1
      have hlt : n * nx + k < endo.nodes.length * nx := by
        calc n * nx + k < n * nx + nx := by omega
          _ = (n + 1) * nx := by ring
          _ ≤ _ := Nat.mul_le_mul_right _ hn
      have e : j * (endo.nodes.length * nx) + (n * nx + k) = (j * endo.nodes.length + n) * nx + k := by ring
      simp only [List.getD_eq_getElem?_getD, List.getElem?_take, hlt, if_true, List.getElem?_drop, e]
    · rw [if_neg (fun h => hk h.2), List.getD_eq_getElem?_getD, List.getElem?_eq_none (by omega)]
      rfl
  · have hnone : l[j]? = none := List.getElem?_eq_none (by omega)
    unfold ruleInterp
    rw [hinit]
    simp [bind, Except.bind, DecisionRule.evalIJS, DecisionRule.evalIS, DecisionRule.coefsAt, pyGetInt_ofNat, pyGet,
      hnone, hj]

/-- The rules considered: no exogenous grid, or an unstructured one and one state (with several states `eval_linear` is
called with arrays of a wrong shape: `C79_linear_unstructured_fails`). -/
def LinearCase (exo : ExoGrid K) (endo : CGrid K) (nm : ℕ) : Prop :=
  match exo with
  | .empty => nm = 1
  | .unstructured _ => endo.n.length = 1
  | .cartesian _ => False

/-- The exogenous node whose values are used at the integration node `j`. -/
def ExoGrid.source : ExoGrid K → ℕ → ℕ
  | .empty, _ => 0
  | _, j => j

theorem ruleInterp_eq {B : Splines K} (hB : B.Multilinear) {exo : ExoGrid K} {endo : CGrid K} (hg : endo.Good) {nm : ℕ}
    (hc : LinearCase exo endo nm) (inode : ℕ → ℕ → List K) (nx : ℕ) (t : Table K) (i j : ℕ) (S : ℕ → K) (k : ℕ) :
    ruleInterp B exo endo inode nm nx t i j S k
      = if exo.source j < nm ∧ k < nx then
          ∑ n ∈ Finset.range endo.nodes.length, endo.weight S n * t (exo.source j) n k else 0 := by
  cases exo with
  | empty =>
    change nm = 1 at hc
    subst hc
    rw [ruleInterp_empty hB hg]
    simp [ExoGrid.source]
  | unstructured nodes =>
    rw [ruleInterp_unstructured hB hg hc]
    rfl
  | cartesian g => exact hc.elim

theorem coord_eq {g : CGrid K} (h : g.Good) (n d : ℕ) : g.coord n d = (gridNode g.axes n).getD d 0 := by
  unfold CGrid.coord gridNode
  rw [(good_axes h).2.1]

theorem weight_sum {g : CGrid K} (h : g.Good) (S : ℕ → K) :
    ∑ n ∈ Finset.range g.nodes.length, g.weight S n = 1 := by
  obtain ⟨a1, a2, a3, a4⟩ := good_axes h
  rw [a4]
  exact nodeW_sum_one g.axes _ a1 (by rw [pt_length, a3])

theorem weight_coord {g : CGrid K} (h : g.Good) (S : ℕ → K) (d : ℕ) (hd : d < g.n.length) :
    ∑ n ∈ Finset.range g.nodes.length, g.weight S n * g.coord n d = S d := by
  obtain ⟨a1, a2, a3, a4⟩ := good_axes h
  have := nodeW_sum_coord g.axes (pt g.n.length S) d a1 (by rw [pt_length, a3]) (by omega)
  rw [pt_getD _ _ _ hd, ← a4] at this
  rw [← this]
  apply Finset.sum_congr rfl
  intro n _
  rw [coord_eq h]
  rfl

/-- The coordinates of the nodes are the nodes of the axes. -/
private theorem mem_axis : ∀ (ls : List (List K)), (∀ l ∈ ls, GoodAxis l) → ∀ d < ls.length, ∀ x : K,
    x ∈ ls.getD d [] ↔ ∃ n < gridN ls, (gridNode ls n).getD d 0 = x
  | [], _, d, hd, _ => by simp at hd
  | l :: ls, hg, d, hd, x => by
    have hg' : ∀ l ∈ ls, GoodAxis l := fun l hl => hg l (by simp [hl])
    have hpos : 0 < gridN ls := by
      unfold gridN
      refine List.prod_pos ?_
      intro m hm
      obtain ⟨l, hl, rfl⟩ := List.mem_map.1 hm
      have := (hg' l hl).2
      omega
    have hl2 := (hg l (by simp)).2
    have split : (∃ n < gridN (l :: ls), (gridNode (l :: ls) n).getD d 0 = x)
        ↔ ∃ i < l.length, ∃ j < gridN ls, (l.getD i 0 :: gridNode ls j).getD d 0 = x := by
      constructor
      · rintro ⟨n, hn, hx⟩
        rw [gridN_cons] at hn
        refine ⟨n / gridN ls, (Nat.div_lt_iff_lt_mul hpos).2 hn, n % gridN ls, Nat.mod_lt _ hpos, ?_⟩
        rw [← hx]
        have e := gridNode_cons l ls (n / gridN ls) (n % gridN ls) ((Nat.div_lt_iff_lt_mul hpos).2 hn)
          (Nat.mod_lt _ hpos)
        rw [← e]
        congr 2
        rw [Nat.mul_comm]
        exact Nat.div_add_mod n (gridN ls)
      · rintro ⟨i, hi, j, hj, hx⟩
        refine ⟨i * gridN ls + j, ?_, ?_⟩
        · rw [gridN_cons]
          calc i * gridN ls + j < i * gridN ls + gridN ls := by omega
            _ = (i + 1) * gridN ls := by ring
            _ ≤ _ := Nat.mul_le_mul_right _ hi
        · rw [← hx]
          congr 1
          exact gridNode_cons l ls i j hi hj
    rw [split]
    cases d with
    | zero =>
      change x ∈ l ↔ ∃ i < l.length, ∃ j < gridN ls, l.getD i 0 = x
      constructor
      · intro hx
        obtain ⟨i, hi, e⟩ := List.mem_iff_getElem.1 hx
        exact ⟨i, hi, 0, hpos, by simp [hi, e]⟩
      · rintro ⟨i, hi, j, hj, e⟩
        rw [← e]
        simp [hi]
    | succ d =>
      have ih := mem_axis ls hg' d (by simpa using hd) x
      change x ∈ ls.getD d [] ↔ ∃ i < l.length, ∃ j < gridN ls, (gridNode ls j).getD d 0 = x
      rw [ih]
      exact ⟨fun h => ⟨0, by omega, h⟩, fun ⟨_, _, h⟩ => h⟩

theorem mem_axes {g : CGrid K} (h : g.Good) (d : ℕ) (hd : d < g.n.length) (x : K) :
    x ∈ g.axes.getD d [] ↔ ∃ n < g.nodes.length, g.coord n d = x := by
  obtain ⟨a1, a2, a3, a4⟩ := good_axes h
  rw [mem_axis g.axes a1 d (by omega) x, a4]
  simp only [coord_eq h]

theorem axis_good {g : CGrid K} (h : g.Good) (d : ℕ) (hd : d < g.n.length) : GoodAxis (g.axes.getD d []) := by
  obtain ⟨a1, a2, a3, a4⟩ := good_axes h
  refine a1 _ ?_
  rw [List.getD_eq_getElem?_getD, List.getElem?_eq_getElem (by omega)]
  exact List.getElem_mem _

theorem axis_ends {l : List K} (h : GoodAxis l) (x : K) (hx : x ∈ l) :
    l.getD 0 0 ≤ x ∧ x ≤ l.getD (l.length - 1) 0 := by
  obtain ⟨i, hi, rfl⟩ := List.mem_iff_getElem.1 hx
  have mono : ∀ a b (ha : a < l.length) (hb : b < l.length), a ≤ b → l[a] ≤ l[b] := by
    intro a b ha hb hab
    rcases Nat.lt_or_eq_of_le hab with hlt | rfl
    · exact (List.pairwise_iff_getElem.1 h.1 a b ha hb hlt).le
    · exact le_refl _
  have h0 : 0 < l.length := by have := h.2; omega
  constructor
  · have := mono 0 i h0 hi (by omega)
    simpa [h0] using this
  · have hl : l.length - 1 < l.length := by omega
    have := mono i (l.length - 1) hi hl (by omega)
    simpa [hl] using this

theorem weight_nonneg {g : CGrid K} (h : g.Good) (S : ℕ → K) (hS : g.InBox S) (n : ℕ) : 0 ≤ g.weight S n := by
  obtain ⟨a1, a2, a3, a4⟩ := good_axes h
  refine nodeW_nonneg g.axes _ _ a1 fun d hd => ?_
  have hd' : d < g.n.length := by omega
  rw [pt_getD _ _ _ hd']
  obtain ⟨⟨n1, hn1, h1⟩, ⟨n2, hn2, h2⟩⟩ := hS d hd'
  have m1 := axis_ends (axis_good h d hd') _ ((mem_axes h d hd' _).2 ⟨n1, hn1, rfl⟩)
  have m2 := axis_ends (axis_good h d hd') _ ((mem_axes h d hd' _).2 ⟨n2, hn2, rfl⟩)
  exact ⟨m1.1.trans h1, h2.trans m2.2⟩

/-! ### The theorems -/

section
variable {B : Splines K} {exo : ExoGrid K} {endo : CGrid K} {nm : ℕ}

/-- **C152, weights.**  Between the nodes and outside the grid, a linearly interpolated rule returns a weighted sum of
its values at the nodes of the grid.  The weights depend on the point only: they sum to one, the weighted mean of the
nodes is the point itself, and they are not negative inside the box. -/
theorem C152_weights (hB : B.Multilinear) (hg : endo.Good) (hc : LinearCase exo endo nm) :
    ∃ W : (ℕ → K) → ℕ → K,
      (∀ S, ∑ n ∈ Finset.range endo.nodes.length, W S n = 1) ∧
      (∀ S, ∀ d < endo.n.length, ∑ n ∈ Finset.range endo.nodes.length, W S n * endo.coord n d = S d) ∧
      (∀ S, endo.InBox S → ∀ n < endo.nodes.length, 0 ≤ W S n) ∧
      ∀ inode nx t i j S k, exo.source j < nm → k < nx → ruleInterp B exo endo inode nm nx t i j S k
        = ∑ n ∈ Finset.range endo.nodes.length, W S n * t (exo.source j) n k :=
  ⟨endo.weight, weight_sum hg, weight_coord hg, fun S hS n _ => weight_nonneg hg S hS n,
    fun inode nx t i j S k hj hk => by rw [ruleInterp_eq hB hg hc, if_pos ⟨hj, hk⟩]⟩

/-- **C152, affine rules are reproduced everywhere**, outside the grid as well. -/
theorem C152_affine (hB : B.Multilinear) (hg : endo.Good) (hc : LinearCase exo endo nm) (inode : ℕ → ℕ → List K)
    (nx : ℕ) (t : Table K) (i j k : ℕ) (hj : exo.source j < nm) (hk : k < nx) (a : K) (b : ℕ → K)
    (ht : ∀ n < endo.nodes.length,
      t (exo.source j) n k = a + ∑ d ∈ Finset.range endo.n.length, b d * endo.coord n d) (S : ℕ → K) :
    ruleInterp B exo endo inode nm nx t i j S k = a + ∑ d ∈ Finset.range endo.n.length, b d * S d := by
  rw [ruleInterp_eq hB hg hc, if_pos ⟨hj, hk⟩]
  have e : ∀ n ∈ Finset.range endo.nodes.length, endo.weight S n * t (exo.source j) n k
      = a * endo.weight S n
        + ∑ d ∈ Finset.range endo.n.length, b d * (endo.weight S n * endo.coord n d) := by
    intro n hn
    rw [ht n (Finset.mem_range.1 hn), mul_add, Finset.mul_sum]
    congr 1
    · ring
    · exact Finset.sum_congr rfl fun d _ => by ring
  rw [Finset.sum_congr rfl e, Finset.sum_add_distrib, ← Finset.mul_sum, weight_sum hg, mul_one, Finset.sum_comm]
  congr 1
  apply Finset.sum_congr rfl
  intro d hd
  rw [← Finset.mul_sum, weight_coord hg S d (Finset.mem_range.1 hd)]

/-- **C152, bounds.**  Inside the box, an interpolated control stays within bounds that its values at the nodes meet. -/
theorem C152_bounds_partial (hB : B.Multilinear) (hg : endo.Good) (hc : LinearCase exo endo nm) (inode : ℕ → ℕ → List K)
    (nx : ℕ) (t : Table K) (i j k : ℕ) (hj : exo.source j < nm) (hk : k < nx) (lo hi : K)
    (ht : ∀ n < endo.nodes.length, lo ≤ t (exo.source j) n k ∧ t (exo.source j) n k ≤ hi) (S : ℕ → K)
    (hS : endo.InBox S) :
    lo ≤ ruleInterp B exo endo inode nm nx t i j S k ∧ ruleInterp B exo endo inode nm nx t i j S k ≤ hi := by
  rw [ruleInterp_eq hB hg hc, if_pos ⟨hj, hk⟩]
  have hw := weight_sum hg S
  constructor
  · calc lo = ∑ n ∈ Finset.range endo.nodes.length, endo.weight S n * lo := by rw [← Finset.sum_mul, hw, one_mul]
      _ ≤ _ := Finset.sum_le_sum fun n hn =>
        mul_le_mul_of_nonneg_left (ht n (Finset.mem_range.1 hn)).1 (weight_nonneg hg S hS n)
  · calc _ ≤ ∑ n ∈ Finset.range endo.nodes.length, endo.weight S n * hi := Finset.sum_le_sum fun n hn =>
        mul_le_mul_of_nonneg_left (ht n (Finset.mem_range.1 hn)).2 (weight_nonneg hg S hS n)
      _ = hi := by rw [← Finset.sum_mul, hw, one_mul]

/-- **C152, no amplification.**  Inside the box, two rules which differ by at most `ε` at the nodes differ by at most
`ε`. -/
theorem C152_nonexpansive_partial (hB : B.Multilinear) (hg : endo.Good) (hc : LinearCase exo endo nm)
    (inode : ℕ → ℕ → List K) (nx : ℕ) (t u : Table K) (i j k : ℕ) (hj : exo.source j < nm) (hk : k < nx) (ε : K)
    (ht : ∀ n < endo.nodes.length, |t (exo.source j) n k - u (exo.source j) n k| ≤ ε) (S : ℕ → K) (hS : endo.InBox S) :
    |ruleInterp B exo endo inode nm nx t i j S k - ruleInterp B exo endo inode nm nx u i j S k| ≤ ε := by
  have e := C152_bounds_partial hB hg hc inode nx (fun i n k => t i n k - u i n k) i j k hj hk (-ε) ε
    (fun n hn => abs_le.1 (ht n hn)) S hS
  rw [ruleInterp_eq hB hg hc, if_pos ⟨hj, hk⟩] at e
  rw [ruleInterp_eq hB hg hc, ruleInterp_eq hB hg hc, if_pos ⟨hj, hk⟩, if_pos ⟨hj, hk⟩, ← Finset.sum_sub_distrib, abs_le]
  simp only [mul_sub] at e
  exact e

/-- **C152, averages.**  What value iteration needs (hypothesis `average` of C108): when the states reached lie in the
box, the value there is an average of the values at the nodes. -/
theorem C152_average_partial (hB : B.Multilinear) (hg : endo.Good) (hc : LinearCase exo endo nm)
    (inode : ℕ → ℕ → List K) (adm : ℕ → ℕ → (ℕ → K) → Prop) (transition : (m s x M : ℕ → K) → ℕ → K) (dp : DProc K)
    (s : ℕ → ℕ → K) (hsrc : ∀ i < nm, ∀ j < dp.nInodes i, exo.source j < nm)
    (hbox : ∀ i < nm, ∀ n < endo.nodes.length, ∀ y, adm i n y → ∀ j < dp.nInodes i,
      endo.InBox (transition (dp.node i) (s n) y (dp.inode i j))) :
    ∀ i < nm, ∀ n < endo.nodes.length, ∀ y, adm i n y → ∀ j < dp.nInodes i, ∃ w : ℕ → ℕ → K,
      (∀ a < nm, ∀ b < endo.nodes.length, 0 ≤ w a b) ∧
      ∑ a ∈ Finset.range nm, ∑ b ∈ Finset.range endo.nodes.length, w a b = 1 ∧
      ∀ v, ruleInterp B exo endo inode nm 1 v i j (transition (dp.node i) (s n) y (dp.inode i j)) 0
        = ∑ a ∈ Finset.range nm, ∑ b ∈ Finset.range endo.nodes.length, w a b * v a b 0 := by
  intro i hi n hn y hy j hj
  set S := transition (dp.node i) (s n) y (dp.inode i j) with hSdef
  have hS := hbox i hi n hn y hy j hj
  have hsj := hsrc i hi j hj
  refine ⟨fun a b => if a = exo.source j then endo.weight S b else 0, ?_, ?_, ?_⟩
  · intro a _ b _
    by_cases h : a = exo.source j
    · simp only [if_pos h]; exact weight_nonneg hg S hS b
    · simp only [if_neg h]; exact le_refl _
  · rw [Finset.sum_eq_single_of_mem (exo.source j) (Finset.mem_range.2 hsj)]
    · simp [weight_sum hg]
    · intro a _ ha
      simp [ha]
  · intro v
    rw [ruleInterp_eq hB hg hc, if_pos ⟨hsj, Nat.one_pos⟩,
      Finset.sum_eq_single_of_mem (exo.source j) (Finset.mem_range.2 hsj)]
    · simp
    · intro a _ ha
      simp [ha]

/-- **C152 with C145.**  What the theorems on `evaluate_policy` (C145) assume of the interpolation holds for
`interp_method="linear"` when the policy never leaves the box: the values are the expected discounted utilities of a
Markov chain on the nodes, whose moves `w` have nonnegative weights and keep the mean of the state. -/
theorem C152_policy_value_partial (hB : B.Multilinear) (hg : endo.Good) (hc : LinearCase exo endo nm)
    (inode : ℕ → ℕ → List K) (nv c : ℕ) (hcv : c < nv) (val : (m s x v M S X V : ℕ → K) → ℕ → K)
    (g : (m s x M : ℕ → K) → ℕ → K) (s : ℕ → ℕ → K) (x : Table K) (dr : ℕ → ℕ → (ℕ → K) → ℕ → K) (dp : DProc K) (beta : K)
    (utility : (m s x M S X : ℕ → K) → K) (h0 : 0 ≤ beta) (h1 : beta < 1)
    (hw : ∀ i < nm, ∀ j < dp.nInodes 0, 0 ≤ dp.iweight i j)
    (hw1 : ∀ i < nm, ∑ j ∈ Finset.range (dp.nInodes 0), dp.iweight i j = 1)
    (hval : ∀ m s x v M S X V, val m s x v M S X V c = utility m s x M S X + beta * V c)
    (hsrc : ∀ j < dp.nInodes 0, exo.source j < nm)
    (hbox : ∀ i < nm, ∀ n < endo.nodes.length, ∀ j < dp.nInodes 0,
      endo.InBox (g (dp.node i) (s n) (x i n) (dp.inode i j))) :
    ∃ w : ℕ → ℕ → ℕ → Fin nm × Fin endo.nodes.length → K,
      DiscountedValue nm endo.nodes.length c val g s x dr (ruleInterp B exo endo inode nm nv) dp beta 1 utility w ∧
      (∀ i < nm, ∀ n < endo.nodes.length, ∀ j < dp.nInodes 0, ∀ a, 0 ≤ w i n j a) ∧
      ∀ i n, ∀ j < dp.nInodes 0, ∀ d < endo.n.length,
        ∑ a, w i n j a * endo.coord a.2 d = g (dp.node i) (s n) (x i n) (dp.inode i j) d := by
  have pick : ∀ j < dp.nInodes 0, ∀ F : ℕ → K,
      ∑ a : Fin nm × Fin endo.nodes.length, (if (a.1 : ℕ) = exo.source j then F a.2 else 0)
        = ∑ n ∈ Finset.range endo.nodes.length, F n := by
    intro j hj F
    rw [Fintype.sum_prod_type, Finset.sum_eq_single_of_mem (⟨exo.source j, hsrc j hj⟩ : Fin nm) (Finset.mem_univ _)]
    · simp [Finset.sum_range]
    · intro a _ ha
      have : (a : ℕ) ≠ exo.source j := fun e => ha (Fin.ext e)
      simp [this]
  have nonneg : ∀ i < nm, ∀ n < endo.nodes.length, ∀ j < dp.nInodes 0, ∀ a : Fin nm × Fin endo.nodes.length,
      0 ≤ (if (a.1 : ℕ) = exo.source j then
        endo.weight (g (dp.node i) (s n) (x i n) (dp.inode i j)) a.2 else 0) := by
    intro i hi n hn j hj a
    split_ifs
    · exact weight_nonneg hg _ (hbox i hi n hn j hj) _
    · exact le_refl _
  refine ⟨fun i n j a => if (a.1 : ℕ) = exo.source j then
    endo.weight (g (dp.node i) (s n) (x i n) (dp.inode i j)) a.2 else 0,
    ⟨h0, zero_le_one, by rw [mul_one]; exact h1, hw, hw1, hval, ?_⟩, nonneg, ?_⟩
  · intro i hi n hn j hj
    have one : ∑ a : Fin nm × Fin endo.nodes.length, (if (a.1 : ℕ) = exo.source j then
        endo.weight (g (dp.node i) (s n) (x i n) (dp.inode i j)) a.2 else 0) = 1 := by
      rw [pick j hj, weight_sum hg]
    refine ⟨?_, one, fun v => ?_⟩
    · rw [Finset.sum_congr rfl fun a _ => abs_of_nonneg (nonneg i hi n hn j hj a)]
      exact one.le
    · rw [ruleInterp_eq hB hg hc, if_pos ⟨hsrc j hj, hcv⟩, ← pick j hj fun n' =>
        endo.weight (g (dp.node i) (s n) (x i n) (dp.inode i j)) n' * v (exo.source j) n' c]
      refine Finset.sum_congr rfl fun a _ => ?_
      by_cases h : (a.1 : ℕ) = exo.source j
      · rw [if_pos h, if_pos h, h]
      · rw [if_neg h, if_neg h, zero_mul]
  · intro i n j hj d hd
    rw [← weight_coord hg (g (dp.node i) (s n) (x i n) (dp.inode i j)) d hd, ← pick j hj fun n' =>
      endo.weight (g (dp.node i) (s n) (x i n) (dp.inode i j)) n' * endo.coord n' d]
    refine Finset.sum_congr rfl fun a _ => ?_
    beta_reduce
    by_cases h : (a.1 : ℕ) = exo.source j
    · rw [if_pos h, if_pos h]
    · rw [if_neg h, if_neg h, zero_mul]

/-- **C152 fails outside the box.**  At *every* state outside the box, and for every grid, there are values at the nodes
between zero and one whose interpolated value is not: extrapolation breaks bounds. -/
theorem C152_outside_fails (hB : B.Multilinear) (hg : endo.Good) (hc : LinearCase exo endo nm) (inode : ℕ → ℕ → List K)
    (nx : ℕ) (i j k : ℕ) (hj : exo.source j < nm) (hk : k < nx) (S : ℕ → K) (hS : ¬ endo.InBox S) :
    ∃ t : Table K, (∀ i n k, n < endo.nodes.length → 0 ≤ t i n k ∧ t i n k ≤ 1) ∧
      (ruleInterp B exo endo inode nm nx t i j S k < 0 ∨ 1 < ruleInterp B exo endo inode nm nx t i j S k) := by
  unfold CGrid.InBox at hS
  push Not at hS
  obtain ⟨d, hd, hS⟩ := hS
  have hax := axis_good hg d hd
  have h0 : 0 < (endo.axes.getD d []).length := by have := hax.2; omega
  have h1 : (endo.axes.getD d []).length - 1 < (endo.axes.getD d []).length := by omega
  obtain ⟨n0, hn0, e0⟩ := (mem_axes hg d hd ((endo.axes.getD d []).getD 0 0)).1 (by
    rw [List.getD_eq_getElem?_getD (l := endo.axes.getD d []), List.getElem?_eq_getElem h0]; exact List.getElem_mem h0)
  obtain ⟨n1, hn1, e1⟩ := (mem_axes hg d hd ((endo.axes.getD d []).getD ((endo.axes.getD d []).length - 1) 0)).1 (by
    rw [List.getD_eq_getElem?_getD (l := endo.axes.getD d []), List.getElem?_eq_getElem h1]; exact List.getElem_mem h1)
  have ends : ∀ n < endo.nodes.length, endo.coord n0 d ≤ endo.coord n d ∧ endo.coord n d ≤ endo.coord n1 d := by
    intro n hn
    rw [e0, e1]
    exact axis_ends hax _ ((mem_axes hg d hd _).2 ⟨n, hn, rfl⟩)
  have hlt : endo.coord n0 d < endo.coord n1 d := by
    rw [e0, e1, List.getD_eq_getElem?_getD (l := endo.axes.getD d []), List.getElem?_eq_getElem h0,
      List.getD_eq_getElem?_getD (l := endo.axes.getD d []), List.getElem?_eq_getElem h1]
    exact List.pairwise_iff_getElem.1 hax.1 _ _ h0 h1 (by have := hax.2; omega)
  have hpos : 0 < endo.coord n1 d - endo.coord n0 d := sub_pos.2 hlt
  refine ⟨fun _ n _ => (endo.coord n d - endo.coord n0 d) / (endo.coord n1 d - endo.coord n0 d), ?_, ?_⟩
  · intro _ n _ hn
    obtain ⟨a, b⟩ := ends n hn
    exact ⟨div_nonneg (sub_nonneg.2 a) hpos.le, by rw [div_le_one hpos]; linarith⟩
  · rw [C152_affine hB hg hc inode nx _ i j k hj hk (-(endo.coord n0 d / (endo.coord n1 d - endo.coord n0 d)))
      (fun e => if e = d then 1 / (endo.coord n1 d - endo.coord n0 d) else 0) (by
        intro n _
        simp only [ite_mul, zero_mul, Finset.sum_ite_eq', Finset.mem_range, hd, if_true]
        ring) S]
    simp only [ite_mul, zero_mul, Finset.sum_ite_eq', Finset.mem_range, hd, if_true]
    have e : -(endo.coord n0 d / (endo.coord n1 d - endo.coord n0 d)) + 1 / (endo.coord n1 d - endo.coord n0 d) * S d
        = (S d - endo.coord n0 d) / (endo.coord n1 d - endo.coord n0 d) := by ring
    rw [e]
    by_cases hlo : ∃ n < endo.nodes.length, endo.coord n d ≤ S d
    · right
      have := hS hlo n1 hn1
      rw [one_lt_div hpos]
      linarith
    · left
      push Not at hlo
      exact div_neg_of_neg_of_pos (sub_neg.2 (hlo n0 hn0)) hpos

/-- **C152, the order of the states.**  Two grids with the same nodes, their dimensions and nodes in other orders, give
the same interpolated values (hypothesis `interp` of C136). -/
theorem C152_order (hB : B.Multilinear) (hg : endo.Good) {endo' : CGrid K} (hg' : endo'.Good) {exo' : ExoGrid K}
    (hc : LinearCase exo endo nm) (hc' : LinearCase exo' endo' nm) (inode inode' : ℕ → ℕ → List K) (nx : ℕ)
    (hD : endo'.n.length = endo.n.length) (hN : endo'.nodes.length = endo.nodes.length)
    (sta point con node : ℕ → ℕ) (hsta : Permutes endo.n.length sta) (hpoint : Permutes endo.nodes.length point)
    (hcon : Permutes nx con)
    (hgrid : ∀ n < endo.nodes.length, VecIn endo.n.length sta (endo'.coord n) (endo.coord (point n)))
    (t' t : Table K)
    (ht : ∀ i < nm, ∀ n < endo.nodes.length, VecIn nx con (t' i n) (t (node i) (point n)))
    (i' i j' j : ℕ) (hj : exo'.source j' < nm) (hjj : exo.source j = node (exo'.source j')) (hjn : exo.source j < nm)
    (s' s : ℕ → K) (hs : VecIn endo.n.length sta s' s) :
    VecIn nx con (ruleInterp B exo' endo' inode' nm nx t' i' j' s') (ruleInterp B exo endo inode nm nx t i j s) := by
  intro k hk
  obtain ⟨a1, a2, a3, a4⟩ := good_axes hg
  obtain ⟨b1, b2, b3, b4⟩ := good_axes hg'
  rw [ruleInterp_eq hB hg' hc', ruleInterp_eq hB hg hc, if_pos ⟨hj, hk⟩, if_pos ⟨hjn, hcon.lt hk⟩, hN,
    ← hpoint.sum fun n => endo.weight s n * t (exo.source j) n (con k)]
  -- the axes are the same
  have hax : ∀ d < endo.n.length, endo'.axes.getD d [] = endo.axes.getD (sta d) [] := by
    intro d hd
    refine List.Pairwise.eq_of_mem_iff (r := (· < ·)) (axis_good hg' d (by omega)).1
      (axis_good hg (sta d) (hsta.lt hd)).1 fun {x} => ?_
    rw [mem_axes hg' d (by omega), mem_axes hg (sta d) (hsta.lt hd)]
    constructor
    · rintro ⟨n, hn, rfl⟩
      rw [hN] at hn
      exact ⟨point n, hpoint.lt hn, (hgrid n hn d hd).symm⟩
    · rintro ⟨n, hn, rfl⟩
      obtain ⟨m, hm, rfl⟩ := hpoint.surj hn
      exact ⟨m, by omega, hgrid m hm d hd⟩
  apply Finset.sum_congr rfl
  intro n hn
  rw [Finset.mem_range] at hn
  rw [ht _ hj n hn k hk, ← hjj]
  congr 1
  -- the weights are the same
  unfold CGrid.weight
  rw [nodeW_prod _ _ _ (by rw [pt_length, b3]) (gridNode_length _ _ (by rw [← b4, hN]; exact hn)),
    nodeW_prod _ _ _ (by rw [pt_length, a3]) (gridNode_length _ _ (by rw [← a4]; exact hpoint.lt hn)), ← b3, ← a3, hD]
  have e : ∀ d ∈ Finset.range endo.n.length,
      hatW (endo'.axes.getD d []) ((pt endo.n.length s').getD d 0) ((gridNode endo'.axes n).getD d 0)
      = (fun d => hatW (endo.axes.getD d []) ((pt endo.n.length s).getD d 0)
        ((gridNode endo.axes (point n)).getD d 0)) (sta d) := by
    intro d hd
    rw [Finset.mem_range] at hd
    change _ = hatW (endo.axes.getD (sta d) []) ((pt endo.n.length s).getD (sta d) 0)
        ((gridNode endo.axes (point n)).getD (sta d) 0)
    rw [hax d hd, pt_getD _ _ _ hd, pt_getD _ _ _ (hsta.lt hd), hs d hd, ← coord_eq hg', ← coord_eq hg,
      hgrid n hn d hd]
  rw [Finset.prod_congr rfl e]
  refine Finset.prod_nbij sta (fun d hd => Finset.mem_range.2 (hsta.lt (Finset.mem_range.1 hd))) ?_ ?_ (fun _ _ => rfl)
  · intro a ha b hb h
    exact hsta.inj (by simpa using ha) (by simpa using hb) h
  · intro b hb
    obtain ⟨a, ha, h⟩ := hsta.surj (j := b) (by simpa using hb)
    exact ⟨a, by simpa using ha, h⟩

private theorem coord_product {g h grid : CGrid K} (hg : g.Good) (hp : IsProductGrid g h grid) (a b : ℕ)
    (ha : a < g.nodes.length) (hb : b < h.nodes.length) :
    grid.nodes.getD (a * h.nodes.length + b) [] = g.nodes.getD a [] ++ h.nodes.getD b [] ∧
      (g.nodes.getD a []).length = g.n.length := by
  obtain ⟨c1, c2, c3, c4⟩ := good_axes hg
  constructor
  · rw [hp.2.2, List.getD_eq_getElem?_getD, getElem?_flatMap_block g.nodes _ h.nodes.length a b (by intro x _; simp) hb,
      List.getElem?_eq_getElem ha]
    simp [ha, hb]
  · have e : g.nodes.getD a [] = gridNode g.axes a := by unfold gridNode; rw [c2]
    rw [e, gridNode_length _ _ (by omega), c3]

/-- **C152, Cartesian exogenous grid.**  With a Cartesian exogenous grid, the rule evaluated between the nodes is a weighted
sum of its values at all pairs of an exogenous and an endogenous node.  The weights depend on the point only, sum to one,
reproduce the exogenous point and the state, and are not negative inside the boxes. -/
theorem C152_cartesian_partial (hB : B.Multilinear) {exo endo grid : CGrid K} (he : exo.Good) (hg : endo.Good)
    (hadd : exo.add endo = .ok grid) (hp : IsProductGrid exo endo grid) :
    ∃ W : List K → (ℕ → K) → ℕ → ℕ → K,
      (∀ m S, m.length = exo.n.length →
        ∑ a ∈ Finset.range exo.nodes.length, ∑ b ∈ Finset.range endo.nodes.length, W m S a b = 1 ∧
        (∀ d < exo.n.length, ∑ a ∈ Finset.range exo.nodes.length, ∑ b ∈ Finset.range endo.nodes.length,
          W m S a b * exo.coord a d = m.getD d 0) ∧
        (∀ d < endo.n.length, ∑ a ∈ Finset.range exo.nodes.length, ∑ b ∈ Finset.range endo.nodes.length,
          W m S a b * endo.coord b d = S d) ∧
        (exo.InBox (fun d => m.getD d 0) → endo.InBox S →
          ∀ a < exo.nodes.length, ∀ b < endo.nodes.length, 0 ≤ W m S a b)) ∧
      ∀ inode nx t i j S k, (inode i j).length = exo.n.length → k < nx →
        ruleInterp B (.cartesian exo) endo inode exo.nodes.length nx t i j S k
          = ∑ a ∈ Finset.range exo.nodes.length, ∑ b ∈ Finset.range endo.nodes.length, W (inode i j) S a b * t a b k := by
  have hgood := hp.1
  obtain ⟨gg, e1, e2, e3, e4, e5, e6⟩ := hgood.repr
  obtain ⟨a1, a2, a3, a4⟩ := good_axes hgood
  have hD : grid.n.length = exo.n.length + endo.n.length := by rw [hp.2.1]; simp
  have hN : grid.nodes.length = exo.nodes.length * endo.nodes.length := by
    rw [hp.2.2, List.length_flatMap]; simp
  -- the point, as a function
  let P : List K → (ℕ → K) → ℕ → K := fun m S d => if d < exo.n.length then m.getD d 0 else S (d - exo.n.length)
  have hpt : ∀ m S, m.length = exo.n.length → pt grid.n.length (P m S) = m ++ pt endo.n.length S := by
    intro m S hm
    apply List.ext_getElem
    · simp [pt, hD, hm]
    · intro d h1 h2
      rw [pt_length] at h1
      by_cases hd : d < exo.n.length
      · rw [List.getElem_append_left (by omega)]
        simp [pt, P, hd, hm]
      · rw [List.getElem_append_right (by omega)]
        simp [pt, P, hd, hm]
  have cE : ∀ a < exo.nodes.length, ∀ b < endo.nodes.length, ∀ d < exo.n.length,
      grid.coord (a * endo.nodes.length + b) d = exo.coord a d := by
    intro a ha b hb d hd
    obtain ⟨f1, f2⟩ := coord_product he hp a b ha hb
    unfold CGrid.coord
    rw [f1, List.getD_eq_getElem?_getD, List.getElem?_append_left (by omega), ← List.getD_eq_getElem?_getD]
  have cS : ∀ a < exo.nodes.length, ∀ b < endo.nodes.length, ∀ d,
      grid.coord (a * endo.nodes.length + b) (exo.n.length + d) = endo.coord b d := by
    intro a ha b hb d
    obtain ⟨f1, f2⟩ := coord_product he hp a b ha hb
    unfold CGrid.coord
    rw [f1, List.getD_eq_getElem?_getD, List.getElem?_append_right (by omega), f2, ← List.getD_eq_getElem?_getD,
      Nat.add_sub_cancel_left]
  have blocks : ∀ F : ℕ → K, ∑ n ∈ Finset.range grid.nodes.length, F n
      = ∑ a ∈ Finset.range exo.nodes.length, ∑ b ∈ Finset.range endo.nodes.length, F (a * endo.nodes.length + b) := by
    intro F
    rw [hN, sum_range_blocks]
  have idx : ∀ a < exo.nodes.length, ∀ b < endo.nodes.length, a * endo.nodes.length + b < grid.nodes.length := by
    intro a ha b hb
    rw [hN]
    calc a * endo.nodes.length + b < a * endo.nodes.length + endo.nodes.length := by omega
      _ = (a + 1) * endo.nodes.length := by ring
      _ ≤ _ := Nat.mul_le_mul_right _ ha
  refine ⟨fun m S a b => grid.weight (P m S) (a * endo.nodes.length + b), fun m S hm => ⟨?_, ?_, ?_, ?_⟩, ?_⟩
  · rw [← blocks]; exact weight_sum hgood _
  · intro d hd
    have := weight_coord hgood (P m S) d (by omega)
    rw [blocks] at this
    rw [show m.getD d 0 = P m S d by simp [P, hd], ← this]
    refine Finset.sum_congr rfl fun a ha => Finset.sum_congr rfl fun b hb => ?_
    rw [cE a (Finset.mem_range.1 ha) b (Finset.mem_range.1 hb) d hd]
  · intro d hd
    have := weight_coord hgood (P m S) (exo.n.length + d) (by omega)
    rw [blocks] at this
    rw [show S d = P m S (exo.n.length + d) by simp [P], ← this]
    refine Finset.sum_congr rfl fun a ha => Finset.sum_congr rfl fun b hb => ?_
    rw [cS a (Finset.mem_range.1 ha) b (Finset.mem_range.1 hb) d]
  · intro hm' hS a ha b hb
    refine weight_nonneg hgood _ ?_ _
    intro d hd
    have hne : 0 < exo.nodes.length := by omega
    have hne' : 0 < endo.nodes.length := by omega
    by_cases hde : d < exo.n.length
    · obtain ⟨⟨n1, hn1, h1⟩, ⟨n2, hn2, h2⟩⟩ := hm' d hde
      have eP : P m S d = m.getD d 0 := by simp [P, hde]
      rw [eP]
      exact ⟨⟨_, idx n1 hn1 0 hne', by rw [cE n1 hn1 0 hne' d hde]; exact h1⟩,
        ⟨_, idx n2 hn2 0 hne', by rw [cE n2 hn2 0 hne' d hde]; exact h2⟩⟩
    · obtain ⟨q, rfl⟩ : ∃ q, d = exo.n.length + q := ⟨d - exo.n.length, by omega⟩
      obtain ⟨⟨n1, hn1, h1⟩, ⟨n2, hn2, h2⟩⟩ := hS q (by omega)
      have eP : P m S (exo.n.length + q) = S q := by simp [P]
      rw [eP]
      exact ⟨⟨_, idx 0 hne n1 hn1, by rw [cS 0 hne n1 hn1 q]; exact h1⟩,
        ⟨_, idx 0 hne n2 hn2, by rw [cS 0 hne n2 hn2 q]; exact h2⟩⟩
  · intro inode nx t i j S k hm hk
    have ha : grid.axes = gg.map Axis.pts := by simp [CGrid.axes, e1]
    have hNg : grid.nodes.length = (gg.map (fun a => a.pts.length)).prod := by
      rw [e2, length_prodRows, List.map_map]; rfl
    obtain ⟨y, hy, hyd, hfit⟩ := reshape_fits e4 (tableArr exo.nodes.length endo.nodes.length nx t) nx
      (by rw [tableArr_length, ← hNg, hN])
    have hDg : grid.n.length = gg.length := by rw [e3]; simp
    obtain ⟨row, hrow, hlen, hval⟩ := eval_linear_sum hB e4 hfit (p := pt grid.n.length (P (inode i j) S))
      (by rw [pt_length, hDg])
    have hrow' : B.evalLinear gg y (inode i j ++ (List.range endo.n.length).map S) = .ok row := by
      rw [← hrow, hpt _ _ hm]
      rfl
    have hev : (do
        let r ← DecisionRule.init B (.cartesian exo) endo "linear" inode
          (some (tableArr exo.nodes.length endo.nodes.length nx t))
        r.evalIJS B i j [(List.range endo.n.length).map S]) = .ok [row] := by
      simp [DecisionRule.init, interpOf, bind, Except.bind, getCoefficients, pure, Except.pure, hadd, e3.symm ▸ hy,
        DecisionRule.evalIJS, DecisionRule.evalMS, DecisionRule.coefs, e1, splineEval, List.mapM_cons, concatCols, hrow']
    unfold ruleInterp
    rw [hev]
    change row.getD k 0 = _
    rw [hval k hk, ← ha, ← a4, blocks]
    refine Finset.sum_congr rfl fun a ha' => Finset.sum_congr rfl fun b hb => ?_
    rw [hyd, tableArr_getD _ _ nx t a b k (Finset.mem_range.1 ha') (Finset.mem_range.1 hb) hk]
    rfl

end

end

/-- **C152, linearity.**  Interpolation is linear in the values (hypothesis of C103 and C123). -/
theorem C152_linear {B : Splines ℝ} (hB : B.Multilinear) {exo : ExoGrid ℝ} {endo : CGrid ℝ} (hg : endo.Good) {nm : ℕ}
    (hc : LinearCase exo endo nm) (inode : ℕ → ℕ → List ℝ) (nx : ℕ) :
    InterpLinear (ruleInterp B exo endo inode nm nx) := by
  intro a t u i j S l
  rw [ruleInterp_eq hB hg hc, ruleInterp_eq hB hg hc, ruleInterp_eq hB hg hc]
  split_ifs
  · rw [Finset.mul_sum, ← Finset.sum_add_distrib]
    exact Finset.sum_congr rfl fun n _ => by ring
  · simp

/-! ### Rules of `perturb` -/

section perturb
open Matrix
variable {nm ns nx : ℕ} {solve : MatSolver ℝ} {qz : ∀ ns nx : ℕ, Matrix (Fin ns ⊕ Fin nx) (Fin ns ⊕ Fin nx) ℝ →
      Matrix (Fin ns ⊕ Fin nx) (Fin ns ⊕ Fin nx) ℝ → ℝ → QZ (Fin ns ⊕ Fin nx) ℝ}
    {cut : WithTop ℝ → WithTop ℝ → ℝ} {process : ExoProc nm ℝ} {dv : Derivs nm ns nx ℝ}
    {mb : Fin nm → ℝ} {sb : Fin ns → ℝ} {xb : Fin nx → ℝ} {t : BiTaylor nm ns nx ℝ} {M : TIModel ℝ}

/-- `M` uses a linearly interpolated rule on the grid `endo`, for iid shocks (no exogenous grid) or a Markov chain. -/
structure UsesLinear (M : TIModel ℝ) (process : ExoProc nm ℝ) (ns : ℕ) (B : Splines ℝ) (exo : ExoGrid ℝ)
    (endo : CGrid ℝ) (inode : ℕ → ℕ → List ℝ) : Prop where
  multilinear : B.Multilinear
  good : endo.Good
  rule : LinearCase exo endo M.dp.nNodes
  states : endo.n.length = ns
  points : M.N = endo.nodes.length
  grid : ∀ n < M.N, ∀ d < ns, M.s n d = endo.coord n d
  interp : M.interp = ruleInterp B exo endo inode M.dp.nNodes M.nx
  /-- without exogenous grid shocks are iid; with an unstructured grid, tomorrow's nodes are today's -/
  shocks : (exo = .empty ∧ process = .iid) ∨ ((∃ nodes, exo = .unstructured nodes) ∧
    ∀ i < M.dp.nNodes, ∀ j < M.dp.nInodes i, j < M.dp.nNodes ∧
      headVec nm (M.dp.inode i j) = headVec nm (M.dp.node j))

/-- **C152, rules of `perturb`.**  Linear interpolation of the rule of `perturb` gives back this rule, at all states
(hypothesis `ReproducesRule` of C121). -/
theorem C152_perturb {B : Splines ℝ} {exo : ExoGrid ℝ} {endo : CGrid ℝ} {inode : ℕ → ℕ → List ℝ}
    (h : SameModel solve qz cut process dv mb sb xb t M) (hU : UsesLinear M process ns B exo endo inode) :
    ReproducesRule M t := by
  obtain ⟨C_m, hC0, hev, -⟩ := rule_closed h.solver qz cut process dv h.decomposition mb sb xb t h.solved
  intro xs hx i hi j hj S
  have hD := hU.states
  have hpts := hU.points
  have src : exo.source j < M.dp.nNodes ∧ C_m *ᵥ (headVec nm (M.dp.inode i j) - mb)
      = C_m *ᵥ (headVec nm (M.dp.node (exo.source j)) - mb) := by
    rcases hU.shocks with ⟨rfl, hiid⟩ | ⟨⟨nodes, rfl⟩, hmc⟩
    · have := hU.rule
      change M.dp.nNodes = 1 at this
      refine ⟨by change 0 < _; omega, ?_⟩
      rw [hC0 hiid]; simp
    · obtain ⟨h1, h2⟩ := hmc i hi j hj
      exact ⟨h1, by rw [h2]; rfl⟩
  rw [hev, src.2]
  congr 2
  funext k
  have hk : (k : ℕ) < M.nx := by rw [h.controls]; exact k.2
  have key := C152_affine hU.multilinear hU.good hU.rule inode M.nx xs i j k src.1 hk
    (xb k + (C_m *ᵥ (headVec nm (M.dp.node (exo.source j)) - mb)) k - (t.C_s *ᵥ sb) k)
    (fun d => if hd : d < ns then t.C_s k ⟨d, hd⟩ else 0)
  have sums : ∀ v : ℕ → ℝ, ∑ d ∈ Finset.range endo.n.length, (if hd : d < ns then t.C_s k ⟨d, hd⟩ else 0) * v d
      = (t.C_s *ᵥ headVec ns v) k := by
    intro v
    rw [hD]
    simp only [Matrix.mulVec, dotProduct, headVec]
    rw [Finset.sum_fin_eq_sum_range]
    refine Finset.sum_congr rfl fun d hd => ?_
    rw [dif_pos (Finset.mem_range.1 hd), dif_pos (Finset.mem_range.1 hd)]
  have hfin := key ?_ S
  · change _ = M.interp xs i j S k
    rw [hU.interp, hfin, sums S]
    simp only [Pi.add_apply, Matrix.mulVec_sub, Pi.sub_apply]
    ring
  · intro n hn
    have e := hx (exo.source j) src.1 n (by omega)
    rw [hev] at e
    injection e with e
    injection e with e
    have e' := congrFun e k
    change _ = xs (exo.source j) n k at e'
    rw [← e', sums]
    have hs : headVec ns (M.s n) = headVec ns (endo.coord n) := by
      funext d
      exact hU.grid n (by omega) d d.2
    rw [hs]
    simp only [Pi.add_apply, Matrix.mulVec_sub, Pi.sub_apply]
    ring

/-- **C152 with C121.**  For a linear model, and linearly interpolated rules, the rule of `perturb` on the grid is an
equilibrium in the sense of `time_iteration`, whenever it meets the constraints (if they are imposed). -/
theorem C152_equilibrium_partial {B : Splines ℝ} {exo : ExoGrid ℝ} {endo : CGrid ℝ} {inode : ℕ → ℕ → List ℝ}
    (h : SameModel solve qz cut process dv mb sb xb t M) (hU : UsesLinear M process ns B exo endo inode)
    (xs : Table ℝ) (hx : Tabulates M t xs) (c : Bool)
    (hb : ∀ i < M.dp.nNodes, ∀ n < M.N, ∀ k < M.nx, (∀ l ∈ lowerAt M c i n k, l ≤ xs i n k) ∧
      ∀ u ∈ upperAt M c i n k, xs i n k ≤ u) :
    Equilibrium M c xs :=
  C121_equilibrium_partial h (C152_perturb h hU) xs hx c hb

end perturb

/-! ### Examples -/

/-- A grid with two states. -/
private def gridC : CGrid ℚ := .nonUniform ⟨[[0, 1], [0, 2, 3]], [[0, 0], [0, 2], [0, 3], [1, 0], [1, 2], [1, 3]]⟩

private theorem gridC_good : gridC.Good := ⟨[[0, 1], [0, 2, 3]], rfl, by norm_num⟩

/-- Far outside the grid, the rule with values `1 + 2 s_0 + 3 s_1` at the nodes. -/
example : ruleInterp exactSplines .empty gridC (fun _ _ => []) 1 1
    (fun _ n _ => 1 + (2 * gridC.coord n 0 + 3 * gridC.coord n 1)) 0 0 (fun d => if d = 0 then 5 else -7) 0 = -10 := by
  have h := C152_affine exactSplines_multilinear gridC_good (exo := .empty) (nm := 1) rfl (fun _ _ => []) 1
    (fun _ n _ => 1 + (2 * gridC.coord n 0 + 3 * gridC.coord n 1)) 0 0 0 (by decide) (by decide) 1
    (fun d => if d = 0 then 2 else 3) (by
      intro n _
      simp [gridC, CGrid.n, Finset.sum_range_succ]) (fun d => if d = 0 then 5 else -7)
  rw [h]
  norm_num [gridC, CGrid.n, Finset.sum_range_succ]

/-- Inside the box, any rule with values between zero and one stays between zero and one. -/
example (t : Table ℚ) (ht : ∀ n < 6, 0 ≤ t 0 n 0 ∧ t 0 n 0 ≤ 1) :
    0 ≤ ruleInterp exactSplines .empty gridC (fun _ _ => []) 1 1 t 0 0 (fun d => if d = 0 then 1 / 3 else 5 / 2) 0 := by
  refine (C152_bounds_partial exactSplines_multilinear gridC_good (exo := .empty) (nm := 1) rfl (fun _ _ => []) 1 t 0 0 0
    (by decide) (by decide) 0 1 (fun n hn => ht n hn) _ ?_).1
  intro d hd
  have hd2 : d < 2 := hd
  interval_cases d
  · exact ⟨⟨0, by decide, by norm_num [gridC, CGrid.coord, CGrid.nodes]⟩,
      ⟨3, by decide, by norm_num [gridC, CGrid.coord, CGrid.nodes]⟩⟩
  · exact ⟨⟨0, by decide, by norm_num [gridC, CGrid.coord, CGrid.nodes]⟩,
      ⟨2, by decide, by norm_num [gridC, CGrid.coord, CGrid.nodes]⟩⟩

/-- The point `(2, 0)` is outside the box. -/
example : ¬ gridC.InBox fun d => if d = 0 then 2 else 0 := by
  intro h
  obtain ⟨-, n, hn, h⟩ := h 0 (by decide)
  have hn6 : n < 6 := hn
  interval_cases n <;> norm_num [gridC, CGrid.coord, CGrid.nodes] at h

/-- The same nodes, the states in the other order. -/
private def gridC' : CGrid ℚ := .nonUniform ⟨[[0, 2, 3], [0, 1]], [[0, 0], [0, 1], [2, 0], [2, 1], [3, 0], [3, 1]]⟩

example (t t' : Table ℚ) (ht : ∀ n < 6, t' 0 n 0 = t 0 (3 * (n % 2) + n / 2) 0) (x y : ℚ) :
    ruleInterp exactSplines .empty gridC' (fun _ _ => []) 1 1 t' 0 0 (fun d => if d = 0 then y else x) 0
      = ruleInterp exactSplines .empty gridC (fun _ _ => []) 1 1 t 0 0 (fun d => if d = 0 then x else y) 0 := by
  refine C152_order exactSplines_multilinear gridC_good (endo' := gridC') ⟨[[0, 2, 3], [0, 1]], rfl, by norm_num⟩
    (exo := .empty) (exo' := .empty) (nm := 1) rfl rfl (fun _ _ => []) (fun _ _ => []) 1 rfl rfl
    (fun d => 1 - d) (fun n => 3 * (n % 2) + n / 2) id id ?_ ?_ ?_ ?_ t' t ?_ 0 0 0 0 (by decide) rfl (by decide) _ _ ?_ 0
    (by decide)
  · refine ⟨fun d hd => ?_, fun d hd e he h => ?_, fun d hd => ?_⟩
    · have : d < 2 := hd
      change 1 - d < 2
      omega
    · have h1 : d < 2 := hd
      have h2 : e < 2 := he
      change 1 - d = 1 - e at h
      omega
    · have : d < 2 := hd
      exact ⟨1 - d, by change 1 - d < 2; omega, by change 1 - (1 - d) = d; omega⟩
  · refine ⟨fun d hd => ?_, fun d hd e he h => ?_, fun d hd => ?_⟩
    · have : d < 6 := hd
      change 3 * (d % 2) + d / 2 < 6
      omega
    · have h1 : d < 6 := hd
      have h2 : e < 6 := he
      change 3 * (d % 2) + d / 2 = 3 * (e % 2) + e / 2 at h
      omega
    · have : d < 6 := hd
      exact ⟨2 * (d % 3) + d / 3, by change _ < 6; omega, by
        change 3 * ((2 * (d % 3) + d / 3) % 2) + (2 * (d % 3) + d / 3) / 2 = d; omega⟩
  · exact ⟨fun _ h => h, fun _ _ _ _ h => h, fun d hd => ⟨d, hd, rfl⟩⟩
  · intro n hn d hd
    have hn6 : n < 6 := hn
    have hd2 : d < 2 := hd
    interval_cases n <;> interval_cases d <;> rfl
  · intro i hi n hn k hk
    obtain rfl : i = 0 := by omega
    obtain rfl : k = 0 := by omega
    exact ht n hn
  · intro d hd
    have hd2 : d < 2 := hd
    interval_cases d <;> simp

/-- The hypotheses of `C152_policy_value_partial`: half of the state is kept, the box is never left. -/
example : ∃ w, DiscountedValue (K := ℚ) 1 2 0 (fun m s _ _ _ _ _ V _ => s 0 + 1 / 2 * V 0) (fun _ s _ _ _ => s 0 / 2)
    (fun n _ => n) (fun _ _ _ => 0) (fun _ _ _ _ => 0)
    (ruleInterp exactSplines .empty (.nonUniform ⟨[[0, 1]], [[0], [1]]⟩) (fun _ _ => []) 1 1)
    (iidDProc 1 (fun _ => 1) (fun _ _ => 0)) (1 / 2 : ℚ) 1 (fun _ s _ _ _ _ => s 0) w := by
  obtain ⟨w, h, -⟩ := C152_policy_value_partial (K := ℚ) exactSplines_multilinear (exo := .empty)
    (endo := .nonUniform ⟨[[0, 1]], [[0], [1]]⟩) (nm := 1) ⟨[[0, 1]], rfl, by norm_num⟩ rfl (fun _ _ => []) 1 0 (by decide)
    (fun m s _ _ _ _ _ V _ => s 0 + 1 / 2 * V 0) (fun _ s _ _ _ => s 0 / 2) (fun n _ => n) (fun _ _ _ => 0)
    (fun _ _ _ _ => 0) (iidDProc 1 (fun _ => 1) (fun _ _ => 0)) (1 / 2) (fun _ s _ _ _ _ => s 0) (by norm_num) (by norm_num)
    (by intro i _ j _; simp [iidDProc]) (by intro i _; simp [iidDProc]) (by intros; rfl) (fun j _ => Nat.one_pos)
    (by
      intro i _ n hn j _ d hd
      have hn2 : n < 2 := hn
      obtain rfl : d = 0 := by
        have : d < 1 := hd
        omega
      refine ⟨⟨0, by decide, ?_⟩, ⟨1, by decide, ?_⟩⟩ <;> interval_cases n <;> norm_num [CGrid.coord, CGrid.nodes])
  exact ⟨w, h⟩

/-- The linear model of C121, with a linearly interpolated rule on the nodes 0 and 1. -/
noncomputable def modelRL : TIModel ℝ :=
  { modelR with
    interp := ruleInterp exactSplines .empty (.nonUniform ⟨[[0, 1]], [[0], [1]]⟩) (fun _ _ => []) 1 1 }

/-- The hypotheses of `C152_equilibrium_partial`. -/
example : SameModel solverR qzR (fun _ _ => 0) .iid dvR 0 0 0 (ruleR 0 0 0) modelRL ∧
    UsesLinear modelRL (.iid : ExoProc 1 ℝ) 1 exactSplines .empty (.nonUniform ⟨[[0, 1]], [[0], [1]]⟩) (fun _ _ => []) ∧
    Tabulates modelRL (ruleR 0 0 0) (fun _ n _ => 3 / 4 * n) := by
  refine ⟨⟨solverR_correct, qzR_ok, perturbR 0 0 0, rfl, ?_, ?_, ?_⟩,
    ⟨exactSplines_multilinear, ⟨[[0, 1]], rfl, by norm_num⟩, rfl, rfl, rfl, ?_, rfl, .inl ⟨rfl, rfl⟩⟩, ?_⟩
  · intro m s x M' S X k
    exact dif_pos k.2
  · intro m s x M' k
    exact dif_pos k.2
  · intro i _
    refine ⟨?_, rfl, ?_⟩
    · simp [modelRL, modelR, iidDProc]
    · funext k
      simp [modelRL, modelR, iidDProc, Finset.sum_range_succ, headVec]; norm_num
  · intro n hn d hd
    have hn2 : n < 2 := hn
    obtain rfl : d = 0 := by omega
    interval_cases n <;> simp [modelRL, modelR, CGrid.coord, CGrid.nodes]
  · intro i hi n hn
    rw [evalR]
    congr 2
    funext k
    simp [headVec, modelRL, modelR]

end Dolo
