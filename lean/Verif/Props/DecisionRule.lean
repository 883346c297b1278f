import Verif.Lemmas.DecisionRule
import Verif.Props.Cartesian

/-!
# C79, C80, C81: interpolated decision rules
-/

set_option linter.unusedSectionVars false

namespace Dolo

variable {K : Type} [Field K] [LinearOrder K] [IsStrictOrderedRing K]

/-! ### Specification -/

/-- The nodes of one dimension of a grid. -/
def Axis.pts : Axis K → List K
  | .uniform a b n => linspace a b n
  | .nodes l => l

/-- A dimension on which one can interpolate: increasing, with two nodes at least. -/
def Axis.Good : Axis K → Prop
  | .uniform a b n => a < b ∧ 2 ≤ n
  | .nodes l => l.Pairwise (· < ·) ∧ 2 ≤ l.length

/-- The `k`-th row of length `nx` of an array, read in C order. -/
def NdArr.row (x : NdArr K) (nx k : ℕ) : List K := (x.data.drop (k * nx)).take nx

/-- `x[i, k, :]` for an array with `N` nodes along its second axis and `nx` values along the third. -/
def NdArr.at (x : NdArr K) (N nx i k : ℕ) : List K := (x.data.drop ((i * N + k) * nx)).take nx

/-- `vals` holds one row of `nx` values per node of the grid `gg`, and has the shape of the grid. -/
def FitsGrid (gg : List (Axis K)) (vals : NdArr K) (nx : ℕ) : Prop :=
  vals.shape = gg.map (fun a => a.pts.length) ++ [nx] ∧ vals.data.length = vals.shape.prod

/-- What is asked from the interpolation routines: at the nodes of a grid, they give back the values
interpolated, *provided* the array of values has the shape of the grid (and, for cubic splines, the grid is uniform). -/
structure Splines.Interpolates (B : Splines K) : Prop where
  linear : ∀ (gg : List (Axis K)) (vals : NdArr K) (nx k : ℕ) (p : List K), (∀ a ∈ gg, a.Good) → FitsGrid gg vals nx →
    (prodRows (gg.map Axis.pts))[k]? = some p → B.evalLinear gg vals p = .ok (vals.row nx k)
  cubic : ∀ (gg : List (Axis K)) (vals : NdArr K) (nx : ℕ), (∀ a ∈ gg, a.Good ∧ ∃ x y n, a = .uniform x y n) →
    FitsGrid gg vals nx → ∃ c, B.prefilterCubic gg vals = .ok c ∧ ∀ k p, (prodRows (gg.map Axis.pts))[k]? = some p →
      B.evalCubic gg c p = .ok (vals.row nx k)

/-- A grid built by the constructors of its class, on a box with two nodes at least in each dimension. -/
def CGrid.Good : CGrid K → Prop
  | .uniform g => ∃ min max n, UniformGrid.mk' min max n = .ok g ∧ min.length = n.length ∧
      List.Forall₂ (· < ·) min max ∧ ∀ m ∈ n, 2 ≤ m
  | .nonUniform g => ∃ l, NonUniformGrid.mk' l = .ok g ∧ ∀ a ∈ l, a.Pairwise (· < ·) ∧ 2 ≤ a.length

def CGrid.IsUniform : CGrid K → Prop
  | .uniform _ => True
  | .nonUniform _ => False

/-! ### Auxiliary -/

theorem length_linspace' (a b : K) (n : ℕ) : (linspace a b n).length = n := by simp [linspace]

private theorem uniform_axes : ∀ (min max : List K) (n : List ℕ), min.length = n.length →
    List.Forall₂ (· < ·) min max → (∀ m ∈ n, 2 ≤ m) →
    ∃ gg, uniformAxes min max n = .ok gg ∧ linspaces min max n = .ok (gg.map Axis.pts) ∧
      (∀ a ∈ gg, a.Good ∧ ∃ x y n, a = .uniform x y n) ∧ n = gg.map (fun a => a.pts.length)
  | [], _, [], _, h2, _ => ⟨[], rfl, rfl, by simp, rfl⟩
  | [], _, _ :: _, h1, _, _ => by simp at h1
  | _ :: _, _, [], h1, _, _ => by simp at h1
  | a :: as, [], _ :: _, _, h2, _ => by cases h2
  | a :: as, b :: bs, n :: ns, h1, h2, h3 => by
    rw [List.forall₂_cons] at h2
    obtain ⟨gg, e1, e2, e3, e4⟩ := uniform_axes as bs ns (by simpa using h1) h2.2 fun m hm => h3 m (by simp [hm])
    refine ⟨.uniform a b n :: gg, ?_, ?_, ?_, ?_⟩
    · simp [uniformAxes, e1, bind, Except.bind, pure, Except.pure]
    · simp [linspaces, e2, bind, Except.bind, pure, Except.pure, Axis.pts]
    · intro x hx
      rcases List.mem_cons.1 hx with rfl | hx
      · exact ⟨⟨h2.1, h3 n (by simp)⟩, _, _, _, rfl⟩
      · exact e3 x hx
    · change n :: ns = (linspace a b n).length :: gg.map (fun a => a.pts.length)
      rw [length_linspace', ← e4]

/-- What the proofs use about a well-formed grid. -/
theorem CGrid.Good.repr {g : CGrid K} (h : g.Good) : ∃ gg, g.numbaRepr = .ok gg ∧ g.nodes = prodRows (gg.map Axis.pts) ∧
    g.n = gg.map (fun a => a.pts.length) ∧ (∀ a ∈ gg, a.Good) ∧ g.n ≠ [] ∧
    (g.IsUniform → ∀ a ∈ gg, a.Good ∧ ∃ x y n, a = .uniform x y n) := by
  cases g with
  | uniform g =>
    obtain ⟨min, max, n, h0, h1, h2, h3⟩ := h
    obtain ⟨gg, e1, e2, e3, e4⟩ := uniform_axes min max n h1 h2 h3
    unfold UniformGrid.mk' mlinspace at h0
    split at h0
    · cases h0
    · rename_i hn
      rw [e2] at h0
      cases gg with
      | nil => simp [e4] at hn
      | cons a gg =>
        simp only [bind, Except.bind, List.map_cons, cartesian_cons, pure, Except.pure, Except.ok.injEq] at h0
        subst h0
        exact ⟨a :: gg, e1, rfl, e4, fun a ha => (e3 a ha).1, by simpa [CGrid.n] using hn, fun _ => e3⟩
  | nonUniform g =>
    obtain ⟨l, h0, h1⟩ := h
    unfold NonUniformGrid.mk' at h0
    split at h0
    · cases h0
    · cases l with
      | nil => cases h0
      | cons a r =>
        rw [cartesian_cons] at h0
        simp only [bind, Except.bind, pure, Except.pure, Except.ok.injEq] at h0
        subst h0
        refine ⟨(a :: r).map .nodes, rfl, ?_, ?_, ?_, by simp [CGrid.n], fun h => h.elim⟩
        · simp only [List.map_map]
          change prodRows (a :: r) = prodRows ((a :: r).map id)
          rw [List.map_id]
        · simp only [List.map_map]
          rfl
        · intro x hx
          obtain ⟨y, hy, rfl⟩ := List.mem_map.1 hx
          exact h1 y hy

private theorem prod_pos {n : List ℕ} (h : ∀ m ∈ n, 2 ≤ m) : n.prod ≠ 0 := by
  rw [Ne, List.prod_eq_zero_iff]
  intro h0
  have := h 0 h0
  omega

private theorem good_len {a : Axis K} (h : a.Good) : 2 ≤ a.pts.length := by
  cases a with
  | uniform a b n => simpa [Axis.pts, length_linspace'] using h.2
  | nodes l => exact h.2

private theorem good_prod {gg : List (Axis K)} (h : ∀ a ∈ gg, a.Good) :
    (gg.map (fun a => a.pts.length)).prod ≠ 0 := by
  apply prod_pos
  intro m hm
  obtain ⟨a, ha, rfl⟩ := List.mem_map.1 hm
  exact good_len (h a ha)

theorem reshape_fits {gg : List (Axis K)} (hg : ∀ a ∈ gg, a.Good) (x : NdArr K) (nx : ℕ)
    (hx : x.data.length = (gg.map (fun a => a.pts.length)).prod * nx) :
    ∃ y, x.reshapeLast (gg.map (fun a => a.pts.length)) = .ok y ∧ y.data = x.data ∧ FitsGrid gg y nx := by
  have h0 := good_prod hg
  refine ⟨⟨gg.map (fun a => a.pts.length) ++ [nx], x.data⟩, ?_, rfl, rfl, by simp [hx]⟩
  unfold NdArr.reshapeLast
  rw [if_neg h0, hx, Nat.mul_mod_right, if_pos rfl, Nat.mul_div_cancel_left _ (Nat.pos_of_ne_zero h0)]

theorem item_ok (x : NdArr K) {nm N nx : ℕ} (hs : x.shape = [nm, N, nx]) (i : ℕ) (hi : i < nm) :
    x.item i = .ok ⟨[N, nx], (x.data.drop (i * (N * nx))).take (N * nx)⟩ := by
  simp [NdArr.item, hs, hi]

theorem item_length (x : NdArr K) {nm N nx : ℕ} (hd : x.data.length = nm * N * nx) (i : ℕ) (hi : i < nm) :
    ((x.data.drop (i * (N * nx))).take (N * nx)).length = N * nx := by
  rw [List.length_take, List.length_drop, hd]
  have : i * (N * nx) + N * nx ≤ nm * N * nx := by
    calc i * (N * nx) + N * nx = (i + 1) * (N * nx) := by ring
      _ ≤ nm * (N * nx) := Nat.mul_le_mul_right _ hi
      _ = nm * N * nx := by ring
  omega


private theorem call_is (B : Splines K) (r : DecisionRule K) (i : ℤ) (f : List K → Except Err (List K))
    (h : ∀ ss, r.evalIS B i ss = ss.mapM f) (s v : List K) (hf : f s = .ok v) :
    (r.ops B).call2 (.int i) (.vec s) = .ok (.vec v) := by
  simp [RuleOps.call2, DecisionRule.ops, h, List.mapM_cons, hf, bind, Except.bind, pure, Except.pure, headRow, pyGet]

private theorem call_is_rows (B : Splines K) (r : DecisionRule K) (i : ℤ) (f : List K → Except Err (List K))
    (h : ∀ ss, r.evalIS B i ss = ss.mapM f) (g : ℕ → List K) (ks : List ℕ) (ss : List (List K))
    (hf : List.Forall₂ (fun k s => f s = .ok (g k)) ks ss) :
    (r.ops B).call2 (.int i) (.rows ss) = .ok (.rows (ks.map g)) := by
  simp [RuleOps.call2, DecisionRule.ops, h, mapM_forall₂ f g hf, bind, Except.bind, pure, Except.pure]

private theorem nodes_len {g : CGrid K} {gg : List (Axis K)} (h : g.nodes = prodRows (gg.map Axis.pts)) :
    g.nodes.length = (gg.map (fun a => a.pts.length)).prod := by
  rw [h, length_prodRows, List.map_map]
  rfl

/-! ### C79: values at the nodes -/

/-- **C79, unstructured exogenous grid (partial).**  A rule built from values on (exogenous node, endogenous node) gives
back these values when called with the number of an exogenous node and nodes of the endogenous grid: for cubic
interpolation on a uniform grid, and for linear interpolation on a grid with *one* dimension.  What is missing (linear
interpolation with several states) is false: `C79_linear_unstructured_fails`. -/
theorem C79_unstructured_partial (B : Splines K) (hB : B.Interpolates) (nodes : List (List K)) (endo : CGrid K)
    (hg : endo.Good) (method : String)
    (hm : (method = "cubic" ∧ endo.IsUniform) ∨ ((method = "linear" ∨ method = "multilinear") ∧ endo.n.length = 1))
    (inode : ℕ → ℕ → List K) (x : NdArr K) (nm nx : ℕ) (hs : x.shape = [nm, endo.nodes.length, nx])
    (hd : x.data.length = x.shape.prod) :
    ∃ r, DecisionRule.init B (.unstructured nodes) endo method inode (some x) = .ok r ∧ ∀ i : ℕ, i < nm →
      (∀ (k : ℕ) s, endo.nodes[k]? = some s →
        (r.ops B).call2 (.int i) (.vec s) = .ok (.vec (x.at endo.nodes.length nx i k))) ∧
      ∀ (ks : List ℕ) (ss : List (List K)), List.Forall₂ (fun k s => endo.nodes[k]? = some s) ks ss →
        (r.ops B).call2 (.int i) (.rows ss) = .ok (.rows (ks.map fun k => x.at endo.nodes.length nx i k)) := by
  obtain ⟨gg, e1, e2, e3, e4, e5, e6⟩ := hg.repr
  have hN := nodes_len e2
  have hd' : x.data.length = nm * endo.nodes.length * nx := by rw [hd, hs]; simp [mul_assoc]
  have hrow : ∀ i k, k < endo.nodes.length →
      (((x.data.drop (i * (endo.nodes.length * nx))).take (endo.nodes.length * nx)).drop (k * nx)).take nx
        = x.at endo.nodes.length nx i k := fun i k hk => take_drop_block _ _ _ _ _ hk
  have fin : ∀ (r : DecisionRule K) (i : ℕ) (f : List K → Except Err (List K)),
      (∀ ss, r.evalIS B i ss = ss.mapM f) →
      (∀ (k : ℕ) s, endo.nodes[k]? = some s → f s = .ok (x.at endo.nodes.length nx i k)) →
      (∀ (k : ℕ) s, endo.nodes[k]? = some s →
        (r.ops B).call2 (.int i) (.vec s) = .ok (.vec (x.at endo.nodes.length nx i k))) ∧
      ∀ (ks : List ℕ) (ss : List (List K)), List.Forall₂ (fun k s => endo.nodes[k]? = some s) ks ss →
        (r.ops B).call2 (.int i) (.rows ss) = .ok (.rows (ks.map fun k => x.at endo.nodes.length nx i k)) := by
    intro r i f hr hf
    exact ⟨fun k s hk => call_is B r i f hr s _ (hf k s hk),
      fun ks ss h => call_is_rows B r i f hr (fun k => x.at endo.nodes.length nx i k) ks ss (h.imp fun k s => hf k s)⟩
  rcases hm with ⟨rfl, hu⟩ | ⟨hm, h1⟩
  · have hgu := e6 hu
    -- every node has its own spline
    have hf : ∀ i, i < nm → ∃ c, (do
        let xi ← x.item i
        let xi ← xi.reshapeLast endo.n
        B.prefilterCubic gg xi) = .ok c ∧ ∀ (k : ℕ) s, endo.nodes[k]? = some s →
          B.evalCubic gg c s = .ok (x.at endo.nodes.length nx i k) := by
      intro i hi
      obtain ⟨y, hy, hyd, hfit⟩ := reshape_fits e4 ⟨[endo.nodes.length, nx],
        (x.data.drop (i * (endo.nodes.length * nx))).take (endo.nodes.length * nx)⟩ nx
        (by rw [← hN]; exact item_length x hd' i hi)
      obtain ⟨c, hc, hev⟩ := hB.cubic gg y nx hgu hfit
      refine ⟨c, ?_, ?_⟩
      · simp [item_ok x hs i hi, bind, Except.bind, e3, hy, hc]
      · intro k s hk
        rw [hev k s (by rw [← e2]; exact hk), NdArr.row, hyd, hrow i k (List.getElem?_eq_some_iff.1 hk).1]
    obtain ⟨l, hl, -, hget⟩ := mapM_range_ok nm _ fun i hi => let ⟨c, hc, _⟩ := hf i hi; ⟨c, hc⟩
    refine ⟨⟨.unstructured nodes, endo, .cubic, inode, some (.list l)⟩, ?_, ?_⟩
    · simp only [DecisionRule.init, interpOf, if_true, bind, Except.bind, getCoefficients, e1, NdArr.len, hs, pyGet,
        pure, Except.pure] at hl ⊢
      simp [hl]
    · intro i hi
      obtain ⟨c, hc, hev⟩ := hf i hi
      obtain ⟨c', hc', hli⟩ := hget i hi
      have : c' = c := by rw [hc] at hc'; exact (Except.ok.inj hc').symm
      subst this
      refine fin _ i (B.evalCubic gg c') (fun ss => ?_) hev
      simp [DecisionRule.evalIS, DecisionRule.coefsAt, pyGetInt_ofNat, pyGet_some hli, bind, Except.bind, e1, splineEval]
  · have hgl : gg.length = 1 := by rw [e3] at h1; simpa using h1
    obtain ⟨a, rfl⟩ := List.length_eq_one_iff.1 hgl
    have hN' : endo.nodes.length = a.pts.length := by simpa using hN
    obtain ⟨l, hl, -, hget⟩ := mapM_range_ok nm (fun i => x.item i) fun i hi => ⟨_, item_ok x hs i hi⟩
    refine ⟨⟨.unstructured nodes, endo, .linear, inode, some (.list l)⟩, ?_, ?_⟩
    · rcases hm with rfl | rfl <;>
      · simp only [DecisionRule.init, interpOf, bind, Except.bind, getCoefficients, e1, NdArr.len, hs, pyGet,
          pure, Except.pure] at hl ⊢
        simp [hl]
    · intro i hi
      obtain ⟨c, hc, hli⟩ := hget i hi
      rw [item_ok x hs i hi, Except.ok.injEq] at hc
      subst hc
      refine fin _ i (B.evalLinear [a] ⟨[endo.nodes.length, nx],
        (x.data.drop (i * (endo.nodes.length * nx))).take (endo.nodes.length * nx)⟩) (fun ss => ?_) ?_
      · simp only [DecisionRule.evalIS, DecisionRule.coefsAt, pyGetInt_ofNat, pyGet_some hli, bind, Except.bind, e1,
          splineEval]
      · intro k s hk
        rw [hB.linear [a] _ nx k s e4 ⟨by simp [hN'], by simpa using item_length x hd' i hi⟩
          (by rw [← e2]; exact hk), NdArr.row, hrow i k (List.getElem?_eq_some_iff.1 hk).1]

/-- **C79, no exogenous grid.**  A rule without exogenous grid gives back its values at the nodes, for linear
interpolation, and for cubic interpolation on a uniform grid, with one point or several. -/
theorem C79_empty (B : Splines K) (hB : B.Interpolates) (endo : CGrid K) (hg : endo.Good) (method : String)
    (hm : (method = "cubic" ∧ endo.IsUniform) ∨ method = "linear" ∨ method = "multilinear")
    (inode : ℕ → ℕ → List K) (x : NdArr K) (nx : ℕ) (hs : x.shape = [1, endo.nodes.length, nx])
    (hd : x.data.length = x.shape.prod) :
    ∃ r, DecisionRule.init B .empty endo method inode (some x) = .ok r ∧
      (∀ (k : ℕ) s, endo.nodes[k]? = some s → (r.ops B).call1 (.vec s) = .ok (.vec (x.at endo.nodes.length nx 0 k))) ∧
      ∀ (ks : List ℕ) (ss : List (List K)), List.Forall₂ (fun k s => endo.nodes[k]? = some s) ks ss →
        (r.ops B).call1 (.rows ss) = .ok (.rows (ks.map fun k => x.at endo.nodes.length nx 0 k)) := by
  obtain ⟨gg, e1, e2, e3, e4, e5, e6⟩ := hg.repr
  have hN := nodes_len e2
  have hd' : x.data.length = endo.nodes.length * nx := by rw [hd, hs]; simp
  have fin : ∀ (r : DecisionRule K) (f : List K → Except Err (List K)), (∀ ss, r.evalS B ss = ss.mapM f) →
      (∀ (k : ℕ) s, endo.nodes[k]? = some s → f s = .ok (x.at endo.nodes.length nx 0 k)) →
      (∀ (k : ℕ) s, endo.nodes[k]? = some s → (r.ops B).call1 (.vec s) = .ok (.vec (x.at endo.nodes.length nx 0 k))) ∧
      ∀ (ks : List ℕ) (ss : List (List K)), List.Forall₂ (fun k s => endo.nodes[k]? = some s) ks ss →
        (r.ops B).call1 (.rows ss) = .ok (.rows (ks.map fun k => x.at endo.nodes.length nx 0 k)) := by
    intro r f hr hf
    refine ⟨fun k s hk => ?_, fun ks ss h => ?_⟩
    · simp [RuleOps.call1, DecisionRule.ops, hr, List.mapM_cons, hf k s hk, bind, Except.bind, pure, Except.pure, headRow,
        pyGet]
    · simp only [RuleOps.call1, DecisionRule.ops, hr, mapM_forall₂ f (fun k => x.at endo.nodes.length nx 0 k)
        (h.imp fun k s => hf k s), bind, Except.bind, pure, Except.pure]
  rcases hm with ⟨rfl, hu⟩ | hm
  · have hi := item_ok x hs 0 (by omega)
    have hrow : (x.data.drop (0 * (endo.nodes.length * nx))).take (endo.nodes.length * nx) = x.data := by
      simp [← hd']
    obtain ⟨y, hy, hyd, hfit⟩ := reshape_fits e4 ⟨[endo.nodes.length, nx], x.data⟩ nx (by rw [← hN]; exact hd')
    obtain ⟨c, hc, hev⟩ := hB.cubic gg y nx (e6 hu) hfit
    refine ⟨⟨.empty, endo, .cubic, inode, some (.one c)⟩, ?_, ?_⟩
    · simp only [DecisionRule.init, interpOf, bind, Except.bind, getCoefficients, e1, hi, hrow, e3, hy, hc, pure,
        Except.pure, if_true]
    · refine fin _ (B.evalCubic gg c) (fun ss => ?_) ?_
      · simp only [DecisionRule.evalS, DecisionRule.coefs, bind, Except.bind, e1, splineEval]
      · intro k s hk
        rw [hev k s (by rw [← e2]; exact hk), NdArr.row, hyd, NdArr.at]
        simp
  · obtain ⟨y, hy, hyd, hfit⟩ := reshape_fits e4 x nx (by rw [← hN]; exact hd')
    refine ⟨⟨.empty, endo, .linear, inode, some (.one y)⟩, ?_, ?_⟩
    · rcases hm with rfl | rfl <;>
      · simp only [DecisionRule.init, interpOf, bind, Except.bind, getCoefficients, e3, hy, pure, Except.pure]
        simp
    · refine fin _ (B.evalLinear gg y) (fun ss => ?_) ?_
      · simp only [DecisionRule.evalS, DecisionRule.coefs, bind, Except.bind, e1, splineEval]
      · intro k s hk
        rw [hB.linear gg y nx k s e4 hfit (by rw [← e2]; exact hk), NdArr.row, hyd, NdArr.at]
        simp

/-- `grid` is the grid on the product of the two boxes: its nodes are all concatenations, the second varying fastest. -/
def IsProductGrid (g h grid : CGrid K) : Prop :=
  grid.Good ∧ grid.n = g.n ++ h.n ∧ grid.nodes = g.nodes.flatMap fun m => h.nodes.map fun s => m ++ s

/-- **C79, Cartesian exogenous grid (partial).**  If adding the two grids gives the grid on the product of the boxes (true
for non-uniform grids, and for uniform grids with equal bounds: `C79_product_nonuniform`, `C79_product_uniform`), the
rule gives back its values at pairs of nodes, the exogenous node being given by its coordinates or by its number.  What is missing, uniform grids with
different bounds, is false: `C79_uniform_fails`. -/
theorem C79_cartesian_partial (B : Splines K) (hB : B.Interpolates) (exo endo grid : CGrid K)
    (hadd : exo.add endo = .ok grid) (hgrid : IsProductGrid exo endo grid) (method : String)
    (hm : (method = "cubic" ∧ grid.IsUniform) ∨ method = "linear" ∨ method = "multilinear")
    (inode : ℕ → ℕ → List K) (x : NdArr K) (nx : ℕ) (hs : x.shape = [exo.nodes.length, endo.nodes.length, nx])
    (hd : x.data.length = x.shape.prod) :
    ∃ r, DecisionRule.init B (.cartesian exo) endo method inode (some x) = .ok r ∧
      ∀ (i k : ℕ) m s, exo.nodes[i]? = some m → endo.nodes[k]? = some s →
        (r.ops B).call2 (.float (.vec m)) (.vec s) = .ok (.vec (x.at endo.nodes.length nx i k)) ∧
        (r.ops B).call2 (.int i) (.vec s) = .ok (.vec (x.at endo.nodes.length nx i k)) := by
  obtain ⟨hg, hn, hnodes⟩ := hgrid
  obtain ⟨gg, e1, e2, e3, e4, e5, e6⟩ := hg.repr
  have hN := nodes_len e2
  have hN' : grid.nodes.length = exo.nodes.length * endo.nodes.length := by
    rw [hnodes, List.length_flatMap]
    simp
  have hd' : x.data.length = (gg.map (fun a => a.pts.length)).prod * nx := by rw [← hN, hN', hd, hs]; simp [mul_assoc]
  obtain ⟨y, hy, hyd, hfit⟩ := reshape_fits e4 x nx hd'
  have hnode : ∀ (i k : ℕ) m s, exo.nodes[i]? = some m → endo.nodes[k]? = some s →
      (prodRows (gg.map Axis.pts))[i * endo.nodes.length + k]? = some (m ++ s) := by
    intro i k m s hi hk
    rw [← e2, hnodes, getElem?_flatMap_block _ _ endo.nodes.length i k (by intro z _; simp)
      (List.getElem?_eq_some_iff.1 hk).1, hi]
    simp [hk]
  have fin : ∀ (r : DecisionRule K) (f : List K → Except Err (List K)), r.exoGrid = .cartesian exo →
      (r.interp = .linear ∨ r.interp = .cubic) →
      (∀ m s, r.evalMS B [m] [s] = [m ++ s].mapM f) →
      (∀ (i k : ℕ) m s, exo.nodes[i]? = some m → endo.nodes[k]? = some s →
        f (m ++ s) = .ok (x.at endo.nodes.length nx i k)) →
      ∀ (i k : ℕ) m s, exo.nodes[i]? = some m → endo.nodes[k]? = some s →
        (r.ops B).call2 (.float (.vec m)) (.vec s) = .ok (.vec (x.at endo.nodes.length nx i k)) ∧
        (r.ops B).call2 (.int i) (.vec s) = .ok (.vec (x.at endo.nodes.length nx i k)) := by
    intro r f hx hint hr hf i k m s hi hk
    have h1 : r.evalMS B [m] [s] = .ok [x.at endo.nodes.length nx i k] := by
      rw [hr]
      simp [List.mapM_cons, hf i k m s hi hk, bind, Except.bind, pure, Except.pure]
    constructor
    · simp [RuleOps.call2, DecisionRule.ops, h1, bind, Except.bind, pure, Except.pure, headRow, pyGet]
    · have h2 : r.evalIS B i [s] = .ok [x.at endo.nodes.length nx i k] := by
        rcases hint with hint | hint <;>
        simp only [DecisionRule.evalIS, hx, hint, pyGetInt_ofNat, pyGet_some hi, h1, bind, Except.bind]
      simp [RuleOps.call2, DecisionRule.ops, h2, bind, Except.bind, pure, Except.pure, headRow, pyGet]
  rcases hm with ⟨rfl, hu⟩ | hm
  · obtain ⟨c, hc, hev⟩ := hB.cubic gg y nx (e6 hu) hfit
    refine ⟨⟨.cartesian exo, endo, .cubic, inode, some (.one c)⟩, ?_, ?_⟩
    · simp only [DecisionRule.init, interpOf, bind, Except.bind, getCoefficients, hadd, e1, e3, hy, hc, pure,
        Except.pure, if_true]
    · refine fin _ (B.evalCubic gg c) rfl (Or.inr rfl) (fun m s => ?_) ?_
      · simp [DecisionRule.evalMS, DecisionRule.coefs, bind, Except.bind, hadd, e1, splineEval, concatCols]
      · intro i k m s hi hk
        rw [hev _ _ (hnode i k m s hi hk), NdArr.row, hyd, NdArr.at]
  · refine ⟨⟨.cartesian exo, endo, .linear, inode, some (.one y)⟩, ?_, ?_⟩
    · rcases hm with rfl | rfl <;>
      · simp only [DecisionRule.init, interpOf, bind, Except.bind, getCoefficients, pure, Except.pure]
        simp [hadd, e3, hy]
    · refine fin _ (B.evalLinear gg y) rfl (Or.inl rfl) (fun m s => ?_) ?_
      · simp [DecisionRule.evalMS, DecisionRule.coefs, bind, Except.bind, hadd, e1, splineEval, concatCols]
      · intro i k m s hi hk
        rw [hB.linear gg y nx _ _ e4 hfit (hnode i k m s hi hk), NdArr.row, hyd, NdArr.at]


private theorem nonUniform_mk {l : List (List K)} (hl : l ≠ []) (h : ∀ a ∈ l, 2 ≤ a.length) :
    NonUniformGrid.mk' l = .ok ⟨l, prodRows l⟩ := by
  unfold NonUniformGrid.mk'
  have : l.any List.isEmpty = false := by
    rw [List.any_eq_false]
    intro a ha
    have := h a ha
    cases a with
    | nil => simp at this
    | cons => simp
  rw [this]
  cases l with
  | nil => exact absurd rfl hl
  | cons a r =>
    rw [cartesian_cons]
    rfl

/-- The hypothesis of `C79_cartesian_partial` holds for non-uniform grids. -/
theorem C79_product_nonuniform (g h : NonUniformGrid K) (hg : (CGrid.nonUniform g).Good)
    (hh : (CGrid.nonUniform h).Good) :
    ∃ grid, (CGrid.nonUniform g).add (.nonUniform h) = .ok grid ∧
      IsProductGrid (.nonUniform g) (.nonUniform h) grid := by
  have key : ∀ g : NonUniformGrid K, (CGrid.nonUniform g).Good →
      g = ⟨g.listOfNodes, prodRows g.listOfNodes⟩ ∧ g.listOfNodes ≠ [] ∧
      ∀ a ∈ g.listOfNodes, a.Pairwise (· < ·) ∧ 2 ≤ a.length := by
    rintro g ⟨l, h0, h1⟩
    have hl : l ≠ [] := by
      rintro rfl
      simp [NonUniformGrid.mk', cartesian, bind, Except.bind] at h0
    rw [nonUniform_mk hl fun a ha => (h1 a ha).2, Except.ok.injEq] at h0
    subst h0
    exact ⟨rfl, hl, h1⟩
  obtain ⟨eg, ng, gg⟩ := key g hg
  obtain ⟨eh, nh, gh⟩ := key h hh
  have hall : ∀ a ∈ g.listOfNodes ++ h.listOfNodes, a.Pairwise (· < ·) ∧ 2 ≤ a.length := by
    intro a ha
    rcases List.mem_append.1 ha with ha | ha
    · exact gg a ha
    · exact gh a ha
  have hmk : NonUniformGrid.mk' (g.listOfNodes ++ h.listOfNodes)
      = .ok ⟨g.listOfNodes ++ h.listOfNodes, prodRows (g.listOfNodes ++ h.listOfNodes)⟩ :=
    nonUniform_mk (by simp [ng]) fun a ha => (hall a ha).2
  refine ⟨.nonUniform ⟨g.listOfNodes ++ h.listOfNodes, prodRows (g.listOfNodes ++ h.listOfNodes)⟩, ?_, ⟨_, hmk, hall⟩, ?_, ?_⟩
  · simp [CGrid.add, NonUniformGrid.add, hmk, bind, Except.bind, pure, Except.pure]
  · simp [CGrid.n]
  · rw [eg, eh]
    exact prodRows_append _ _

private theorem linspaces_append : ∀ (a b : List K) (n : List ℕ) (sl : List (List K)) (a' b' : List K) (n' : List ℕ),
    a.length = b.length → a.length = n.length → linspaces a b n = .ok sl →
    linspaces (a ++ a') (b ++ b') (n ++ n') = (linspaces a' b' n').map (sl ++ ·)
  | [], b, n, sl, a', b', n', h1, h2, h => by
    obtain rfl := List.eq_nil_of_length_eq_zero h1.symm
    obtain rfl := List.eq_nil_of_length_eq_zero h2.symm
    simp only [linspaces, Except.ok.injEq] at h
    subst h
    simp only [List.nil_append]
    cases linspaces a' b' n' <;> rfl
  | a :: as, [], _, _, _, _, _, h1, _, _ => by simp at h1
  | a :: as, _ :: _, [], _, _, _, _, _, h2, _ => by simp at h2
  | a :: as, b :: bs, n :: ns, sl, a', b', n', h1, h2, h => by
    simp only [linspaces, bind, Except.bind, pure, Except.pure] at h
    split at h
    · cases h
    · rename_i rest hr
      simp only [Except.ok.injEq] at h
      subst h
      have ih := linspaces_append as bs ns rest a' b' n' (by simpa using h1) (by simpa using h2) hr
      simp only [List.cons_append, linspaces, ih, bind, Except.bind, pure, Except.pure]
      cases linspaces a' b' n' <;> rfl

/-- ... and for uniform grids with the same bounds. -/
theorem C79_product_uniform (g h : UniformGrid K) (hg : (CGrid.uniform g).Good) (hh : (CGrid.uniform h).Good)
    (hmin : g.min = h.min) (hmax : g.max = h.max) :
    ∃ grid, (CGrid.uniform g).add (.uniform h) = .ok grid ∧ IsProductGrid (.uniform g) (.uniform h) grid ∧
      grid.IsUniform := by
  have key : ∀ g : UniformGrid K, (CGrid.uniform g).Good → g.min.length = g.n.length ∧ g.n ≠ [] ∧
      List.Forall₂ (· < ·) g.min g.max ∧ (∀ m ∈ g.n, 2 ≤ m) ∧
      ∃ sl, linspaces g.min g.max g.n = .ok sl ∧ sl ≠ [] ∧ g.nodes = prodRows sl := by
    rintro g ⟨min, max, n, h0, h1, h2, h3⟩
    obtain ⟨gg, e1, e2, e3, e4⟩ := uniform_axes min max n h1 h2 h3
    unfold UniformGrid.mk' mlinspace at h0
    split at h0
    · cases h0
    · rename_i hn
      rw [e2] at h0
      cases gg with
      | nil => simp [e4] at hn
      | cons a gg =>
        simp only [bind, Except.bind, List.map_cons, cartesian_cons, pure, Except.pure, Except.ok.injEq] at h0
        subst h0
        exact ⟨h1, by simpa using hn, h2, h3, _, e2, by simp, rfl⟩
  obtain ⟨l1, n1, f1, t1, s1, hs1, z1, k1⟩ := key g hg
  obtain ⟨l2, n2, f2, t2, s2, hs2, z2, k2⟩ := key h hh
  have hls : linspaces (g.min ++ g.min) (g.max ++ g.max) (g.n ++ h.n) = .ok (s1 ++ s2) := by
    rw [linspaces_append _ _ _ s1 _ _ _ f1.length_eq l1 hs1, hmin, hmax, hs2]
    rfl
  have hmk : UniformGrid.mk' (g.min ++ g.min) (g.max ++ g.max) (g.n ++ h.n)
      = .ok ⟨g.min ++ g.min, g.max ++ g.max, g.n ++ h.n, prodRows (s1 ++ s2)⟩ := by
    unfold UniformGrid.mk' mlinspace
    rw [if_neg (by simp [n1]), hls]
    cases s1 with
    | nil => exact absurd rfl z1
    | cons a r =>
      simp only [bind, Except.bind, List.cons_append, cartesian_cons]
      rfl
  refine ⟨.uniform _, by simp [CGrid.add, UniformGrid.add, hmk, bind, Except.bind, pure, Except.pure],
    ⟨⟨_, _, _, hmk, ?_, ?_, ?_⟩, rfl, ?_⟩, trivial⟩
  · rw [List.length_append, List.length_append, l1]
    congr 1
    rw [← l2, ← hmin, l1]
  · exact List.rel_append f1 f1
  · intro m hm
    rcases List.mem_append.1 hm with hm | hm
    · exact t1 m hm
    · exact t2 m hm
  · simp only [CGrid.nodes, k1, k2]
    exact prodRows_append _ _

end Dolo
