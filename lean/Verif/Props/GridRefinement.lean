import Mathlib.Data.Real.Basic
import Mathlib.Tactic.Linarith
import Mathlib.Tactic.FieldSimp
import Mathlib.Tactic.Positivity
import Mathlib.Tactic.NormNum
import Verif.Props.Multilinear
import Verif.Props.RuleSensitivity
import Verif.Props.ValueSensitivity

/-!
# C158: rules found on a grid approach the true rules as the grid is refined
-/

set_option linter.unusedSectionVars false

namespace Dolo

section interpolation
variable {K : Type} [Field K] [LinearOrder K] [IsStrictOrderedRing K]

/-! ### Specification -/

/-- In dimension `d` the nodes are at most `η` apart: every number between the first and the last lies between two of
them that are. -/
def CGrid.Mesh (g : CGrid K) (d : ℕ) (η : K) : Prop :=
  ∀ x, (∃ n < g.nodes.length, g.coord n d ≤ x) → (∃ n < g.nodes.length, x ≤ g.coord n d) →
    ∃ n < g.nodes.length, ∃ n' < g.nodes.length, g.coord n d ≤ x ∧ x ≤ g.coord n' d ∧ g.coord n' d - g.coord n d ≤ η

/-! ### Lemmas -/

private theorem axis_between {l : List K} (h : GoodAxis l) (x y : K) (hy : y ∈ l) :
    y ≤ l.getD (cellOf l x) 0 ∨ l.getD (cellOf l x + 1) 0 ≤ y := by
  obtain ⟨h0, h1, e0, e1, -⟩ := cell_getD h x
  obtain ⟨i, hi, rfl⟩ := List.mem_iff_getElem.1 hy
  rw [e0, e1]
  rcases Nat.lt_trichotomy i (cellOf l x) with hlt | heq | hgt
  · left; exact (List.pairwise_iff_getElem.1 h.1 i _ hi h0 hlt).le
  · left; subst heq; exact le_refl _
  · right
    rcases Nat.lt_or_eq_of_le (Nat.succ_le_of_lt hgt) with h2 | h2
    · exact (List.pairwise_iff_getElem.1 h.1 _ i h1 hi h2).le
    · subst h2; exact le_refl _

/-- A weighted sum of a function of one coordinate: only the ends of the cell count. -/
private theorem weight_fun {g : CGrid K} (h : g.Good) (S : ℕ → K) (hS : g.InBox S) (d : ℕ) (hd : d < g.n.length) (η : K)
    (hη : g.Mesh d η) : ∃ a b, a ≤ S d ∧ S d ≤ b ∧ a < b ∧ b - a ≤ η ∧ ∀ G : K → K,
      ∑ n ∈ Finset.range g.nodes.length, g.weight S n * G (g.coord n d)
        = (1 - (S d - a) / (b - a)) * G a + (S d - a) / (b - a) * G b := by
  obtain ⟨a1, a2, a3, a4⟩ := good_axes h
  have hga := axis_good h d hd
  obtain ⟨⟨n1, hn1, h1⟩, ⟨n2, hn2, h2⟩⟩ := hS d hd
  have m1 := axis_ends hga _ ((mem_axes h d hd _).2 ⟨n1, hn1, rfl⟩)
  have m2 := axis_ends hga _ ((mem_axes h d hd _).2 ⟨n2, hn2, rfl⟩)
  obtain ⟨c1, c2⟩ := cell_bounds hga (S d) (m1.1.trans h1) (h2.trans m2.2)
  obtain ⟨l0, l1, e0, e1, hab⟩ := cell_getD hga (S d)
  set l := g.axes.getD d [] with hl
  set a := l.getD (cellOf l (S d)) 0 with ha
  set b := l.getD (cellOf l (S d) + 1) 0 with hb
  have ma : a ∈ l := by rw [e0]; exact List.getElem_mem _
  have mb : b ∈ l := by rw [e1]; exact List.getElem_mem _
  refine ⟨a, b, c1, c2, hab, ?_, ?_⟩
  · obtain ⟨na, hna, ea⟩ := (mem_axes h d hd a).1 ma
    obtain ⟨nb, hnb, eb⟩ := (mem_axes h d hd b).1 mb
    obtain ⟨n, hn, n', hn', q1, q2, q3⟩ := hη ((a + b) / 2) ⟨na, hna, by rw [ea]; linarith⟩ ⟨nb, hnb, by rw [eb]; linarith⟩
    have b1 := axis_between hga (S d) _ ((mem_axes h d hd _).2 ⟨n, hn, rfl⟩)
    have b2 := axis_between hga (S d) _ ((mem_axes h d hd _).2 ⟨n', hn', rfl⟩)
    rw [← ha, ← hb] at b1 b2
    have r1 : g.coord n d ≤ a := by
      rcases b1 with r | r
      · exact r
      · linarith
    have r2 : b ≤ g.coord n' d := by
      rcases b2 with r | r
      · linarith
      · exact r
    linarith
  · intro G
    have := nodeW_sum_fun G g.axes (pt g.n.length S) d a1 (by rw [pt_length, a3]) (by omega)
    rw [pt_getD _ _ _ hd, ← a4] at this
    rw [Finset.sum_congr rfl (fun n _ => by rw [coord_eq h]; rfl :
      ∀ n ∈ Finset.range g.nodes.length, g.weight S n * G (g.coord n d)
        = nodeW g.axes (pt g.n.length S) (gridNode g.axes n) * G ((gridNode g.axes n).getD d 0)), this]
    exact hat_sum hga (S d) fun i => G (l.getD i 0)

private theorem weight_dist {g : CGrid K} (h : g.Good) (S : ℕ → K) (hS : g.InBox S) (d : ℕ) (hd : d < g.n.length) (η : K)
    (hη : g.Mesh d η) : ∑ n ∈ Finset.range g.nodes.length, g.weight S n * |g.coord n d - S d| ≤ η / 2 := by
  obtain ⟨a, b, h1, h2, hab, hw, hG⟩ := weight_fun h S hS d hd η hη
  rw [hG fun y => |y - S d|, abs_of_nonpos (by linarith : a - S d ≤ 0), abs_of_nonneg (by linarith : 0 ≤ b - S d)]
  have hpos : 0 < b - a := by linarith
  have e : (1 - (S d - a) / (b - a)) * -(a - S d) + (S d - a) / (b - a) * (b - S d)
      = 2 * ((S d - a) * (b - S d)) / (b - a) := by field_simp; ring
  rw [e, div_le_iff₀ hpos]
  have hsq : 4 * ((S d - a) * (b - S d)) ≤ (b - a) ^ 2 := by nlinarith [sq_nonneg ((S d - a) - (b - S d))]
  have : (b - a) ^ 2 ≤ η * (b - a) := by nlinarith
  linarith

private theorem weight_var {g : CGrid K} (h : g.Good) (S : ℕ → K) (hS : g.InBox S) (d : ℕ) (hd : d < g.n.length) (η : K)
    (hη : g.Mesh d η) : ∑ n ∈ Finset.range g.nodes.length, g.weight S n * (g.coord n d - S d) ^ 2 ≤ η ^ 2 / 4 := by
  obtain ⟨a, b, h1, h2, hab, hw, hG⟩ := weight_fun h S hS d hd η hη
  rw [hG fun y => (y - S d) ^ 2]
  have hpos : 0 < b - a := by linarith
  have e : (1 - (S d - a) / (b - a)) * (a - S d) ^ 2 + (S d - a) / (b - a) * (b - S d) ^ 2
      = (S d - a) * (b - S d) := by field_simp; ring
  rw [e]
  have hsq : 4 * ((S d - a) * (b - S d)) ≤ (b - a) ^ 2 := by nlinarith [sq_nonneg ((S d - a) - (b - S d))]
  have : (b - a) ^ 2 ≤ η ^ 2 := by nlinarith
  linarith

/-! ### Interpolation -/

variable {B : Splines K} {exo : ExoGrid K} {endo : CGrid K} {nm : ℕ}

/-- **C158, Lipschitz rules.**  If the values at the nodes are those of a function which changes by at most
`∑ Lip_d |Δ_d|`, the interpolated value at a state of the box is within `∑ Lip_d η_d / 2` of the true one `y`, where `η_d`
is the distance between nodes. -/
theorem C158_lipschitz (hB : B.Multilinear) (hg : endo.Good) (hc : LinearCase exo endo nm) (inode : ℕ → ℕ → List K)
    (nx : ℕ) (t : Table K) (i j k : ℕ) (hj : exo.source j < nm) (hk : k < nx) (S : ℕ → K) (hS : endo.InBox S)
    (η : ℕ → K) (hη : ∀ d < endo.n.length, endo.Mesh d (η d)) (Lip : ℕ → K) (hL : ∀ d < endo.n.length, 0 ≤ Lip d) (y : K)
    (ht : ∀ n < endo.nodes.length,
      |t (exo.source j) n k - y| ≤ ∑ d ∈ Finset.range endo.n.length, Lip d * |endo.coord n d - S d|) :
    |ruleInterp B exo endo inode nm nx t i j S k - y| ≤ ∑ d ∈ Finset.range endo.n.length, Lip d * (η d / 2) := by
  rw [ruleInterp_eq hB hg hc, if_pos ⟨hj, hk⟩]
  have e : ∑ n ∈ Finset.range endo.nodes.length, endo.weight S n * t (exo.source j) n k - y
      = ∑ n ∈ Finset.range endo.nodes.length, endo.weight S n * (t (exo.source j) n k - y) := by
    simp only [mul_sub, Finset.sum_sub_distrib, ← Finset.sum_mul, weight_sum hg, one_mul]
  rw [e]
  calc |∑ n ∈ Finset.range endo.nodes.length, endo.weight S n * (t (exo.source j) n k - y)|
      ≤ ∑ n ∈ Finset.range endo.nodes.length,
        endo.weight S n * ∑ d ∈ Finset.range endo.n.length, Lip d * |endo.coord n d - S d| := by
        refine (Finset.abs_sum_le_sum_abs _ _).trans (Finset.sum_le_sum fun n hn => ?_)
        rw [abs_mul, abs_of_nonneg (weight_nonneg hg S hS n)]
        exact mul_le_mul_of_nonneg_left (ht n (Finset.mem_range.1 hn)) (weight_nonneg hg S hS n)
    _ = ∑ d ∈ Finset.range endo.n.length,
        Lip d * ∑ n ∈ Finset.range endo.nodes.length, endo.weight S n * |endo.coord n d - S d| := by
        simp only [Finset.mul_sum]
        rw [Finset.sum_comm]
        exact Finset.sum_congr rfl fun d _ => Finset.sum_congr rfl fun n _ => by ring
    _ ≤ _ := Finset.sum_le_sum fun d hd => mul_le_mul_of_nonneg_left
        (weight_dist hg S hS d (Finset.mem_range.1 hd) _ (hη d (Finset.mem_range.1 hd))) (hL d (Finset.mem_range.1 hd))

/-- **C158, smooth rules.**  If the values at the nodes are those of a function with a first-order expansion at `S`, with
gradient `p` and a remainder of at most `∑ M_d Δ_d ^ 2`, the error of interpolation is at most `∑ M_d η_d ^ 2 / 4`:
with twice as many nodes it is four times smaller. -/
theorem C158_smooth (hB : B.Multilinear) (hg : endo.Good) (hc : LinearCase exo endo nm) (inode : ℕ → ℕ → List K)
    (nx : ℕ) (t : Table K) (i j k : ℕ) (hj : exo.source j < nm) (hk : k < nx) (S : ℕ → K) (hS : endo.InBox S)
    (η : ℕ → K) (hη : ∀ d < endo.n.length, endo.Mesh d (η d)) (M : ℕ → K) (hM : ∀ d < endo.n.length, 0 ≤ M d) (y : K)
    (p : ℕ → K)
    (ht : ∀ n < endo.nodes.length,
      |t (exo.source j) n k - (y + ∑ d ∈ Finset.range endo.n.length, p d * (endo.coord n d - S d))|
        ≤ ∑ d ∈ Finset.range endo.n.length, M d * (endo.coord n d - S d) ^ 2) :
    |ruleInterp B exo endo inode nm nx t i j S k - y| ≤ ∑ d ∈ Finset.range endo.n.length, M d * (η d ^ 2 / 4) := by
  rw [ruleInterp_eq hB hg hc, if_pos ⟨hj, hk⟩]
  have hlin : ∑ n ∈ Finset.range endo.nodes.length,
      endo.weight S n * ∑ d ∈ Finset.range endo.n.length, p d * (endo.coord n d - S d) = 0 := by
    simp only [Finset.mul_sum]
    rw [Finset.sum_comm]
    refine Finset.sum_eq_zero fun d hd => ?_
    have h1 := weight_coord hg S d (Finset.mem_range.1 hd)
    have h2 := weight_sum hg S
    calc ∑ n ∈ Finset.range endo.nodes.length, endo.weight S n * (p d * (endo.coord n d - S d))
        = p d * (∑ n ∈ Finset.range endo.nodes.length, endo.weight S n * endo.coord n d
          - (∑ n ∈ Finset.range endo.nodes.length, endo.weight S n) * S d) := by
          rw [Finset.sum_mul, ← Finset.sum_sub_distrib, Finset.mul_sum]
          exact Finset.sum_congr rfl fun n _ => by ring
      _ = 0 := by rw [h1, h2]; ring
  have e : ∑ n ∈ Finset.range endo.nodes.length, endo.weight S n * t (exo.source j) n k - y
      = ∑ n ∈ Finset.range endo.nodes.length, endo.weight S n * (t (exo.source j) n k
        - (y + ∑ d ∈ Finset.range endo.n.length, p d * (endo.coord n d - S d))) := by
    have : ∀ n ∈ Finset.range endo.nodes.length, endo.weight S n * (t (exo.source j) n k
        - (y + ∑ d ∈ Finset.range endo.n.length, p d * (endo.coord n d - S d)))
        = endo.weight S n * t (exo.source j) n k - endo.weight S n * y
          - endo.weight S n * ∑ d ∈ Finset.range endo.n.length, p d * (endo.coord n d - S d) := fun n _ => by ring
    rw [Finset.sum_congr rfl this, Finset.sum_sub_distrib, Finset.sum_sub_distrib, hlin, ← Finset.sum_mul, weight_sum hg,
      one_mul, sub_zero]
  rw [e]
  calc |∑ n ∈ Finset.range endo.nodes.length, endo.weight S n * (t (exo.source j) n k
        - (y + ∑ d ∈ Finset.range endo.n.length, p d * (endo.coord n d - S d)))|
      ≤ ∑ n ∈ Finset.range endo.nodes.length,
        endo.weight S n * ∑ d ∈ Finset.range endo.n.length, M d * (endo.coord n d - S d) ^ 2 := by
        refine (Finset.abs_sum_le_sum_abs _ _).trans (Finset.sum_le_sum fun n hn => ?_)
        rw [abs_mul, abs_of_nonneg (weight_nonneg hg S hS n)]
        exact mul_le_mul_of_nonneg_left (ht n (Finset.mem_range.1 hn)) (weight_nonneg hg S hS n)
    _ = ∑ d ∈ Finset.range endo.n.length,
        M d * ∑ n ∈ Finset.range endo.nodes.length, endo.weight S n * (endo.coord n d - S d) ^ 2 := by
        simp only [Finset.mul_sum]
        rw [Finset.sum_comm]
        exact Finset.sum_congr rfl fun d _ => Finset.sum_congr rfl fun n _ => by ring
    _ ≤ _ := Finset.sum_le_sum fun d hd => mul_le_mul_of_nonneg_left
        (weight_var hg S hS d (Finset.mem_range.1 hd) _ (hη d (Finset.mem_range.1 hd))) (hM d (Finset.mem_range.1 hd))

/-! ### Uniform grids -/

private theorem uniformAxes_getD : ∀ (min max : List K) (n : List ℕ) (gg : List (Axis K)), uniformAxes min max n = .ok gg →
    ∀ d < gg.length, (gg.map Axis.pts).getD d [] = linspace (min.getD d 0) (max.getD d 0) (n.getD d 0)
  | [], _, _, gg, h, d, hd => by
    simp only [uniformAxes, Except.ok.injEq] at h
    subst h
    simp at hd
  | a :: as, b :: bs, n :: ns, gg, h, d, hd => by
    rcases hr : uniformAxes as bs ns with e | rest
    · simp [uniformAxes, hr, bind, Except.bind] at h
    · simp only [uniformAxes, hr, bind, Except.bind, pure, Except.pure, Except.ok.injEq] at h
      subst h
      cases d with
      | zero => rfl
      | succ d => simpa using uniformAxes_getD as bs ns rest hr d (by simpa using hd)
  | a :: as, [], _, gg, h, d, hd => by simp [uniformAxes] at h
  | a :: as, b :: bs, [], gg, h, d, hd => by simp [uniformAxes] at h

/-- **C158, uniform grids.**  The nodes of a `UniformCartesianGrid` are `(max - min) / (n - 1)` apart. -/
theorem C158_uniform (g : UniformGrid K) (h : (CGrid.uniform g).Good) (d : ℕ) (hd : d < g.n.length) :
    (CGrid.uniform g).Mesh d ((g.max.getD d 0 - g.min.getD d 0) / ((g.n.getD d 0 : K) - 1)) := by
  have hd' : d < (CGrid.uniform g).n.length := hd
  obtain ⟨a1, a2, a3, a4⟩ := good_axes h
  have hga := axis_good h d hd'
  obtain ⟨gg, e1, -, e3, -⟩ := h.repr
  have ha : (CGrid.uniform g).axes = gg.map Axis.pts := by simp [CGrid.axes, e1]
  have hl := uniformAxes_getD _ _ _ gg e1 d (by
    rw [ha, List.length_map] at a3
    omega)
  rw [← ha] at hl
  intro x ⟨n1, hn1, h1⟩ ⟨n2, hn2, h2⟩
  have m1 := axis_ends hga _ ((mem_axes h d hd' _).2 ⟨n1, hn1, rfl⟩)
  have m2 := axis_ends hga _ ((mem_axes h d hd' _).2 ⟨n2, hn2, rfl⟩)
  obtain ⟨c1, c2⟩ := cell_bounds hga x (m1.1.trans h1) (h2.trans m2.2)
  obtain ⟨l0, l1, b0, b1, -⟩ := cell_getD hga x
  obtain ⟨n, hn, en⟩ := (mem_axes h d hd' ((CGrid.uniform g).axes.getD d [])[cellOf _ x]).1 (List.getElem_mem l0)
  obtain ⟨n', hn', en'⟩ := (mem_axes h d hd' ((CGrid.uniform g).axes.getD d [])[cellOf _ x + 1]).1 (List.getElem_mem l1)
  refine ⟨n, hn, n', hn', by rw [en, ← b0]; exact c1, by rw [en', ← b1]; exact c2, ?_⟩
  rw [en, en']
  clear b0 b1 en en' c1 c2
  have hlen := hga.2
  generalize cellOf ((CGrid.uniform g).axes.getD d []) x = q at l0 l1 ⊢
  revert l0 l1 hlen
  rw [hl]
  intro l0 l1 hlen
  rw [length_linspace'] at hlen
  have hn1 : ¬ g.n.getD d 0 ≤ 1 := by omega
  simp only [linspace, List.getElem_map, List.getElem_range, hn1, if_false]
  apply le_of_eq
  push_cast
  ring

end interpolation

/-! ### time_iteration -/

section rules

/-- The values at the nodes of a rule `φ`, a function of the exogenous and the endogenous states. -/
def tabulated (M : TIModel ℝ) (φ : (m s : ℕ → ℝ) → ℕ → ℝ) : Table ℝ := fun i n => φ (M.dp.node i) (M.s n)

/-- The expected arbitrage residual of the rule `φ` at node `i` and grid point `n`, future controls being those of `φ`
itself and not interpolated ones. -/
def trueResidual (M : TIModel ℝ) (φ : (m s : ℕ → ℝ) → ℕ → ℝ) (i n k : ℕ) : ℝ :=
  ∑ j ∈ Finset.range (M.dp.nInodes i), M.dp.iweight i j *
    M.f (M.dp.node i) (M.s n) (φ (M.dp.node i) (M.s n)) (M.dp.inode i j)
      (M.g (M.dp.node i) (M.s n) (φ (M.dp.node i) (M.s n)) (M.dp.inode i j))
      (φ (M.dp.inode i j) (M.g (M.dp.node i) (M.s n) (φ (M.dp.node i) (M.s n)) (M.dp.inode i j))) k

/-- `φ` is a true equilibrium rule, as seen from the grid points: it solves the complementarity problems of the model
there, future controls being given by `φ` everywhere. -/
def TrueEquilibrium (M : TIModel ℝ) (c : Bool) (φ : (m s : ℕ → ℝ) → ℕ → ℝ) : Prop :=
  ∀ i < M.dp.nNodes, ∀ n < M.N, ∀ k < M.nx,
    SolvesMCP (lowerAt M c i n k) (upperAt M c i n k) (φ (M.dp.node i) (M.s n) k) (trueResidual M φ i n k)

/-- Interpolation of the values of `φ` at the nodes gives the values of `φ` at the states reached, up to `ε`. -/
def InterpolatesWithin (M : TIModel ℝ) (φ : (m s : ℕ → ℝ) → ℕ → ℝ) (ε : ℝ) : Prop :=
  ∀ i < M.dp.nNodes, ∀ n < M.N, ∀ j < M.dp.nInodes i, ∀ k < M.nx,
    |M.interp (tabulated M φ) i j (M.g (M.dp.node i) (M.s n) (φ (M.dp.node i) (M.s n)) (M.dp.inode i j)) k
      - φ (M.dp.inode i j) (M.g (M.dp.node i) (M.s n) (φ (M.dp.node i) (M.s n)) (M.dp.inode i j)) k| ≤ ε

/-- The arbitrage function changes by at most `Lf` times the change of the future controls. -/
def ArbitrageLipschitz (M : TIModel ℝ) (Lf : ℝ) : Prop :=
  ∀ m s x m' s' X X' e, (∀ k < M.nx, |X k - X' k| ≤ e) → ∀ k < M.nx, |M.f m s x m' s' X k - M.f m s x m' s' X' k| ≤ Lf * e

/-- **C158, equilibria.**  The equilibrium rule on the grid is within `κ Lf ε / (1 - q)` of the true rule at the grid
points, where `ε` is the error that interpolation makes for the true rule. -/
theorem C158_equilibrium (M : TIModel ℝ) (c : Bool) (D : ℕ → ℕ → (ℕ → ℝ) → Prop) (μ L ℓ Lf ε : ℝ) (hε : 0 ≤ Lf * ε)
    (hO : OwnControls M D μ L) (hF : FutureLipschitz M D ℓ) (hℓ : 0 ≤ ℓ) (hq : ℓ < μ)
    (hw : ∀ i < M.dp.nNodes, ∀ j < M.dp.nInodes i, 0 ≤ M.dp.iweight i j)
    (hw1 : ∀ i < M.dp.nNodes, ∑ j ∈ Finset.range (M.dp.nInodes i), M.dp.iweight i j = 1)
    (hLf : ArbitrageLipschitz M Lf) (hb : ∀ i n k, BoundsOK (lowerAt M c i n k) (upperAt M c i n k))
    (φ : (m s : ℕ → ℝ) → ℕ → ℝ) (hφ : TrueEquilibrium M c φ) (hφD : Inside M D (tabulated M φ))
    (hi : InterpolatesWithin M φ ε) (ys : Table ℝ) (hys : Inside M D ys) (hy : Equilibrium M c ys) :
    Within M (max 1 L / μ * (Lf * ε) / (1 - ℓ / μ)) (tabulated M φ) ys := by
  refine C157_euler_errors M c D μ L ℓ (Lf * ε) hε hO hF hℓ hq _ ys hφD hys ?_ hy
  intro i hi' n hn k hk
  have h0 := (naturalResidual_zero _ _ (hb i n k) _ _).2 (hφ i hi' n hn k hk)
  have same : ∀ a : Option ℝ, BoundWithin (Lf * ε) a a := by
    intro a
    cases a with
    | none => exact Or.inl ⟨rfl, rfl⟩
    | some l => exact Or.inr ⟨l, l, rfl, rfl, by rw [sub_self, abs_zero]; exact hε⟩
  have hres : |eulerResidual M i n (tabulated M φ i n) (tabulated M φ) k - trueResidual M φ i n k| ≤ Lf * ε := by
    simp only [eulerResidual, trueResidual, tabulated]
    rw [← Finset.sum_sub_distrib, ← one_mul (Lf * ε), ← hw1 i hi', Finset.sum_mul]
    refine (Finset.abs_sum_le_sum_abs _ _).trans (Finset.sum_le_sum fun j hj => ?_)
    rw [← mul_sub, abs_mul, abs_of_nonneg (hw i hi' j (Finset.mem_range.1 hj))]
    exact mul_le_mul_of_nonneg_left (hLf _ _ _ _ _ _ _ ε (fun k hk => hi i hi' n hn j (Finset.mem_range.1 hj) k hk) k hk)
      (hw i hi' j (Finset.mem_range.1 hj))
  have := natural_change _ _ _ _ (tabulated M φ i n k) _ _ (Lf * ε) (same (lowerAt M c i n k)) (same (upperAt M c i n k)) hres
  have h0' : naturalResidual (lowerAt M c i n k) (upperAt M c i n k) (tabulated M φ i n k) (trueResidual M φ i n k) = 0 := h0
  rwa [h0', sub_zero] at this

/-- **C158, time_iteration.**  The rule that `time_iteration` returns is, at the grid points, within
`(κ Lf ε + κ δ + q err) / (1 - q)` of the true rule, where `err` is the error it reports and `δ` the accuracy of the inner
solver. -/
theorem C158_time_iteration (M : TIModel ℝ) (S : TISolvers ℝ) (o : TIOpts ℝ) (hub : M.lb.isSome → M.ub.isSome)
    (D : ℕ → ℕ → (ℕ → ℝ) → Prop) (μ L ℓ δ Lf ε : ℝ) (hε : 0 ≤ Lf * ε)
    (hO : OwnControls M D μ L) (hF : FutureLipschitz M D ℓ) (hℓ : 0 ≤ ℓ) (hq : ℓ < μ) (hδ : 0 ≤ δ)
    (hS : SolverOK M S (imposed M o) D δ)
    (hw : ∀ i < M.dp.nNodes, ∀ j < M.dp.nInodes i, 0 ≤ M.dp.iweight i j)
    (hw1 : ∀ i < M.dp.nNodes, ∑ j ∈ Finset.range (M.dp.nInodes i), M.dp.iweight i j = 1)
    (hLf : ArbitrageLipschitz M Lf)
    (hb : ∀ i n k, BoundsOK (lowerAt M (imposed M o) i n k) (upperAt M (imposed M o) i n k))
    (φ : (m s : ℕ → ℝ) → ℕ → ℝ) (hφ : TrueEquilibrium M (imposed M o) φ) (hφD : Inside M D (tabulated M φ))
    (hi : InterpolatesWithin M φ ε) (ys : Table ℝ) (hys : Inside M D ys) (hy : Equilibrium M (imposed M o) ys)
    (t0 : Table ℝ) (h0 : tiInit M o = .ok t0) (hD : Inside M D t0)
    (r : TIFullResult ℝ) (hr : timeIterationFull M S o = .ok r) :
    let q := ℓ / μ
    let κ := max 1 L / μ
    Within M ((κ * (Lf * ε) + (κ * δ + q * r.err)) / (1 - q)) r.dr (tabulated M φ) := by
  intro q κ
  obtain ⟨d, hd0, hd⟩ : ∃ d, 0 ≤ d ∧ Within M d t0 ys := by
    refine ⟨_, maxAbs_nonneg (M.dp.nNodes * M.N) M.nx fun r k => toRows M.N t0 r k - toRows M.N ys r k, ?_⟩
    have hW0 := (rows_dist M (toRows M.N t0) (toRows M.N ys) _ (maxAbs_nonneg _ _ _)).1 (le_refl _)
    intro i hi n hn k hk
    have := hW0 i hi n hn k hk
    rwa [ofRows_toRows _ _ _ _ hn, ofRows_toRows _ _ _ _ hn] at this
  have h1 := (C110_convergence M S o hub D μ L ℓ δ hO hF hℓ hq hδ hS ys hys hy t0 h0 hD d hd0 hd r hr).1
  have h2 := C158_equilibrium M _ D μ L ℓ Lf ε hε hO hF hℓ hq hw hw1 hLf hb φ hφ hφD hi ys hys hy
  intro i hi n hn k hk
  have a1 : |r.dr i n k - ys i n k| ≤ (κ * δ + q * r.err) / (1 - q) := h1 i hi n hn k hk
  have a2 : |tabulated M φ i n k - ys i n k| ≤ κ * (Lf * ε) / (1 - q) := h2 i hi n hn k hk
  rw [abs_sub_comm] at a2
  have a3 := abs_sub_le (r.dr i n k) (ys i n k) (tabulated M φ i n k)
  rw [add_div]
  linarith

/-- The model interpolates linearly on the grid `endo`, and each exogenous state reached is the node whose values are
used. -/
structure LinearGrid (M : TIModel ℝ) (B : Splines ℝ) (exo : ExoGrid ℝ) (endo : CGrid ℝ) (inode : ℕ → ℕ → List ℝ) : Prop where
  multilinear : B.Multilinear
  good : endo.Good
  rule : LinearCase exo endo M.dp.nNodes
  points : M.N = endo.nodes.length
  grid : ∀ n < M.N, ∀ d < endo.n.length, M.s n d = endo.coord n d
  interp : M.interp = ruleInterp B exo endo inode M.dp.nNodes M.nx
  source : ∀ i < M.dp.nNodes, ∀ j < M.dp.nInodes i, exo.source j < M.dp.nNodes

/-- **C158, the order of the error.**  With linear interpolation, when the true rule has first-order expansions with
remainders of at most `∑ Mc_d Δ_d ^ 2` at the states it leads to, and these lie in the box, the error `ε` of the theorems
above is `∑ Mc_d η_d ^ 2 / 4`. -/
theorem C158_second_order (M : TIModel ℝ) (B : Splines ℝ) (exo : ExoGrid ℝ) (endo : CGrid ℝ) (inode : ℕ → ℕ → List ℝ)
    (hU : LinearGrid M B exo endo inode) (φ : (m s : ℕ → ℝ) → ℕ → ℝ) (η Mc : ℕ → ℝ)
    (hη : ∀ d < endo.n.length, endo.Mesh d (η d)) (hM : ∀ d < endo.n.length, 0 ≤ Mc d)
    (hbox : ∀ i < M.dp.nNodes, ∀ n < M.N, ∀ j < M.dp.nInodes i,
      endo.InBox (M.g (M.dp.node i) (M.s n) (φ (M.dp.node i) (M.s n)) (M.dp.inode i j)))
    (grad : (m s : ℕ → ℝ) → ℕ → ℕ → ℝ)
    (hsm : ∀ i < M.dp.nNodes, ∀ j < M.dp.nInodes i, ∀ S, endo.InBox S → ∀ n < M.N, ∀ k < M.nx,
      |φ (M.dp.node (exo.source j)) (M.s n) k - (φ (M.dp.inode i j) S k
          + ∑ d ∈ Finset.range endo.n.length, grad (M.dp.inode i j) S k d * (M.s n d - S d))|
        ≤ ∑ d ∈ Finset.range endo.n.length, Mc d * (M.s n d - S d) ^ 2) :
    InterpolatesWithin M φ (∑ d ∈ Finset.range endo.n.length, Mc d * (η d ^ 2 / 4)) := by
  intro i hi n hn j hj k hk
  rw [hU.interp]
  have hbx := hbox i hi n hn j hj
  generalize M.g (M.dp.node i) (M.s n) (φ (M.dp.node i) (M.s n)) (M.dp.inode i j) = S at hbx ⊢
  refine C158_smooth hU.multilinear hU.good hU.rule inode M.nx (tabulated M φ) i j k (hU.source i hi j hj) hk S hbx η hη
    Mc hM _ (grad (M.dp.inode i j) S k) ?_
  intro n' hn'
  have hn'' : n' < M.N := by rw [hU.points]; exact hn'
  have := hsm i hi j hj S hbx n' hn'' k hk
  simp only [tabulated]
  have e1 : ∀ S : ℕ → ℝ, ∑ d ∈ Finset.range endo.n.length, grad (M.dp.inode i j) S k d * (M.s n' d - S d)
      = ∑ d ∈ Finset.range endo.n.length, grad (M.dp.inode i j) S k d * (endo.coord n' d - S d) := fun S =>
    Finset.sum_congr rfl fun d hd => by rw [hU.grid n' hn'' d (Finset.mem_range.1 hd)]
  have e2 : ∀ S : ℕ → ℝ, ∑ d ∈ Finset.range endo.n.length, Mc d * (M.s n' d - S d) ^ 2
      = ∑ d ∈ Finset.range endo.n.length, Mc d * (endo.coord n' d - S d) ^ 2 := fun S =>
    Finset.sum_congr rfl fun d hd => by rw [hU.grid n' hn'' d (Finset.mem_range.1 hd)]
  rw [e1, e2] at this
  exact this

end rules

/-! ### value_iteration -/

section values
variable {K : Type} [Field K] [LinearOrder K] [IsStrictOrderedRing K]

/-- The value of the choice `y` at node `i` and grid point `n` when continuation values are given by the function `V` of
exogenous and endogenous states, not interpolated. -/
def trueLookahead (transition : (m s x M : ℕ → K) → ℕ → K) (felicity : (m s x : ℕ → K) → K) (dp : DProc K) (beta : K)
    (s : ℕ → ℕ → K) (V : (m s : ℕ → K) → K) (i n : ℕ) (y : ℕ → K) : K :=
  felicity (dp.node i) (s n) y
    + beta * ∑ j ∈ Finset.range (dp.nInodes i), dp.iweight i j * V (dp.inode i j) (transition (dp.node i) (s n) y (dp.inode i j))

variable {nm N : ℕ} {adm : ℕ → ℕ → (ℕ → K) → Prop} {minimize : ℕ → ℕ → ((ℕ → K) → K) → (ℕ → K) → (ℕ → K)}
  {transition : (m s x M : ℕ → K) → ℕ → K} {felicity : (m s x : ℕ → K) → K}
  {val : (m s x v M S X V : ℕ → K) → ℕ → K} {evalIJS : Table K → ℕ → ℕ → (ℕ → K) → ℕ → K}
  {evalX : Table K → ℕ → ℕ → (ℕ → K) → ℕ → K} {evalI : Table K → ℕ → (ℕ → K) → ℕ → K} {dp : DProc K}
  {beta : K} {s : ℕ → ℕ → K} {ε : K}

/-- **C158, optimal values.**  If the true value function `V` solves the Bellman equation at the grid points, and
interpolation of its values there is within `ε` of `V` at the states that admissible choices lead to, then the values that
solve the problem on the grid are within `beta ε / (1 - beta)` of `V`. -/
theorem C158_optimum (D : DynamicProgram nm N adm minimize transition felicity val evalIJS evalI dp beta s)
    (V : (m s : ℕ → K) → K)
    (hV : ∀ i < nm, ∀ n < N, IsGreatest {u | ∃ y, adm i n y ∧ u = trueLookahead transition felicity dp beta s V i n y}
      (V (dp.node i) (s n)))
    (hε : 0 ≤ ε)
    (hi : ∀ i < nm, ∀ n < N, ∀ y, adm i n y → ∀ j < dp.nInodes i,
      |evalI (fun i n _ => V (dp.node i) (s n)) j (transition (dp.node i) (s n) y (dp.inode i j)) 0
        - V (dp.inode i j) (transition (dp.node i) (s n) y (dp.inode i j))| ≤ ε)
    (vstar : Table K) (hv : BellmanSolution nm N adm (lookahead transition felicity evalI dp beta s) vstar) :
    ∀ i < nm, ∀ n < N, |vstar i n 0 - V (dp.node i) (s n)| ≤ beta * ε / (1 - beta) := by
  have hl : ∀ i < nm, ∀ n < N, ∀ y, adm i n y →
      |lookahead transition felicity evalI dp beta s i n y (fun i n _ => V (dp.node i) (s n))
        - trueLookahead transition felicity dp beta s V i n y| ≤ beta * ε := by
    intro i hi' n hn y hy
    unfold lookahead trueLookahead
    rw [add_sub_add_left_eq_sub, ← mul_sub, ← Finset.sum_sub_distrib, abs_mul, abs_of_nonneg D.beta_nonneg]
    refine mul_le_mul_of_nonneg_left ?_ D.beta_nonneg
    rw [← mul_one ε, ← D.weights_sum i hi', Finset.mul_sum]
    refine (Finset.abs_sum_le_sum_abs _ _).trans (Finset.sum_le_sum fun j hj => ?_)
    have hw := D.weights i hi' j (Finset.mem_range.1 hj)
    rw [← mul_sub, abs_mul, abs_of_nonneg hw, mul_comm ε]
    exact mul_le_mul_of_nonneg_left (hi i hi' n hn y hy j (Finset.mem_range.1 hj)) hw
  have hΔ : 0 ≤ beta * ε := mul_nonneg D.beta_nonneg hε
  intro i hi' n hn
  classical
  have hpol : ∀ i n, ∃ y, i < nm → n < N →
      adm i n y ∧ V (dp.node i) (s n) = trueLookahead transition felicity dp beta s V i n y := by
    intro i n
    by_cases h : i < nm ∧ n < N
    · obtain ⟨⟨y, hy, he⟩, -⟩ := hV i h.1 n h.2
      exact ⟨y, fun _ _ => ⟨hy, he⟩⟩
    · exact ⟨fun _ => 0, fun h1 h2 => absurd ⟨h1, h2⟩ h⟩
  choose x hx using hpol
  have h1 := sub_le_of_greedy D.beta_lt_one (lookahead_disc D) vstar hv (fun i n _ => V (dp.node i) (s n)) _ hΔ
    (fun i hi n hn y hy => by
      have a1 := (hV i hi n hn).2 ⟨y, hy, rfl⟩
      have a2 := (abs_le.1 (hl i hi n hn y hy)).2
      linarith) i hi' n hn
  have h2 := sub_le_of_policy D.beta_lt_one (lookahead_disc D) x (fun i hi n hn => (hx i n hi hn).1)
    (fun i n _ => V (dp.node i) (s n)) vstar _ hΔ
    (fun i hi n hn => by
      have a1 := (hx i n hi hn).2
      have a2 := (abs_le.1 (hl i hi n hn _ (hx i n hi hn).1)).1
      linarith)
    (fun i hi n hn => (hv i hi n hn).2 ⟨_, (hx i n hi hn).1, rfl⟩) i hi' n hn
  exact abs_le.2 ⟨by linarith, h1⟩

/-- **C158, value_iteration.**  The values that `value_iteration` returns are within `beta (ε + v_err) / (1 - beta)` of the
true value function at the grid points, `v_err` being the error it reports. -/
theorem C158_value_iteration (D : DynamicProgram nm N adm minimize transition felicity val evalIJS evalI dp beta s)
    (V : (m s : ℕ → K) → K)
    (hV : ∀ i < nm, ∀ n < N, IsGreatest {u | ∃ y, adm i n y ∧ u = trueLookahead transition felicity dp beta s V i n y}
      (V (dp.node i) (s n)))
    (hε : 0 ≤ ε)
    (hi : ∀ i < nm, ∀ n < N, ∀ y, adm i n y → ∀ j < dp.nInodes i,
      |evalI (fun i n _ => V (dp.node i) (s n)) j (transition (dp.node i) (s n) y (dp.inode i j)) 0
        - V (dp.inode i j) (transition (dp.node i) (s n) y (dp.inode i j))| ≤ ε)
    (vstar : Table K) (hv : BellmanSolution nm N adm (lookahead transition felicity evalI dp beta s) vstar)
    (nx : ℕ) (vcal : Table K) (tol : K) (maxit : ℕ) (x0 : Table K) (hx0 : ∀ i < nm, ∀ n < N, adm i n (x0 i n))
    (r : VIResult (Table K) (Table K × Table K) K)
    (h : valueIterationFull nm N nx minimize transition felicity val evalX evalIJS evalI dp beta s vcal tol maxit
      x0 = .ok r) :
    ∀ i < nm, ∀ n < N, |r.values.1 i n 0 - V (dp.node i) (s n)| ≤ beta / (1 - beta) * (ε + r.v_err) := by
  intro i hi' n hn
  have h1 := abs_le.1 ((C108_a_posteriori D nx vcal tol maxit x0 hx0 r h vstar hv).2.1 i hi' n hn)
  have h2 := abs_le.1 (C158_optimum D V hV hε hi vstar hv i hi' n hn)
  have e : beta / (1 - beta) * (ε + r.v_err) = beta * ε / (1 - beta) + beta / (1 - beta) * r.v_err := by ring
  rw [e]
  exact abs_le.2 ⟨by linarith [h1.1, h1.2, h2.1, h2.2], by linarith [h1.1, h1.2, h2.1, h2.2]⟩

end values

/-! ### Example -/

/-- The grid with `N + 2` uniform nodes on `[0, 1]`. -/
private noncomputable def gexGrid (N : ℕ) : UniformGrid ℝ :=
  ⟨[0], [1], [N + 2], (linspace 0 1 (N + 2)).map fun x => [x]⟩

private theorem gex_good (N : ℕ) : (CGrid.uniform (gexGrid N)).Good := by
  refine ⟨[0], [1], [N + 2], ?_, rfl, .cons one_pos .nil, by simp⟩
  have e : linspaces [(0 : ℝ)] [1] [N + 2] = .ok [linspace 0 1 (N + 2)] := rfl
  have e2 : prodRows [linspace (0 : ℝ) 1 (N + 2)] = (linspace (0 : ℝ) 1 (N + 2)).map fun x => [x] := by
    simp [prodRows]
    exact (List.map_eq_flatMap).symm
  simp only [UniformGrid.mk', mlinspace, e, bind, Except.bind, cartesian_cons, e2]
  rfl

private theorem gex_coord (N n : ℕ) (hn : n < N + 2) : (CGrid.uniform (gexGrid N)).coord n 0 = n / (N + 1) := by
  have e : (CGrid.uniform (gexGrid N)).nodes = (linspace (0 : ℝ) 1 (N + 2)).map fun x => [x] := rfl
  have h1 : ¬ N + 2 ≤ 1 := by omega
  simp only [CGrid.coord, e, linspace, List.map_map]
  rw [List.getD_eq_getElem?_getD (i := n) (a := []), List.getElem?_map, List.getElem?_range hn]
  simp only [Option.map_some, Option.getD_some, Function.comp, h1, if_false, List.getD_cons_zero]
  push_cast
  rw [zero_add, sub_zero, show (N : ℝ) + 2 - 1 = N + 1 by ring, mul_one_div]

/-- The state halves each period, and the true rule is `x = s ^ 2`; the controls are found on the grid. -/
noncomputable def tiSquare (N : ℕ) : TIModel ℝ :=
  { tiExample with
    N := N + 2
    s := fun n _ => n / (N + 1)
    f := fun _ s x _ _ X k => x k - X k / 2 - 7 / 8 * s 0 ^ 2
    g := fun _ s _ _ _ => s 0 / 2
    lb := none
    ub := none
    interp := ruleInterp exactSplines .empty (.uniform (gexGrid N)) (fun _ _ => []) 1 1 }

private theorem gex_box (N n : ℕ) (hn : n < N + 2) : (CGrid.uniform (gexGrid N)).InBox fun _ => ((n : ℝ) / (N + 1)) / 2 := by
  intro d hd
  obtain rfl : d = 0 := by
    have : d < 1 := hd
    omega
  have hlen : (CGrid.uniform (gexGrid N)).nodes.length = N + 2 := by
    change ((linspace (0 : ℝ) 1 (N + 2)).map fun x => [x]).length = _
    rw [List.length_map, length_linspace']
  have h0 : (0 : ℝ) ≤ (n : ℝ) / (N + 1) := by positivity
  refine ⟨⟨0, by omega, ?_⟩, ⟨n, by omega, ?_⟩⟩
  · rw [gex_coord N 0 (by omega)]; simp only [Nat.cast_zero, zero_div]; linarith
  · rw [gex_coord N n hn]; linarith

/-- Whatever the number of nodes, the rule found on the grid is within `1 / 4` of the square of the distance between nodes
of the true one. -/
example (N : ℕ) (ys : Table ℝ) (hy : Equilibrium (tiSquare N) false ys) :
    ∀ n < N + 2, |((n : ℝ) / (N + 1)) ^ 2 - ys 0 n 0| ≤ (1 / (N + 1 : ℝ)) ^ 2 / 4 := by
  have hres : ∀ i n y v k, eulerResidual (tiSquare N) i n y v k
      = y k - (tiSquare N).interp v i 0 (fun _ => ((n : ℝ) / (N + 1)) / 2) k / 2 - 7 / 8 * ((n : ℝ) / (N + 1)) ^ 2 := by
    intro i n y v k
    simp [eulerResidual, tiSquare, tiExample]
  have hmesh : ∀ d < (CGrid.uniform (gexGrid N)).n.length, (CGrid.uniform (gexGrid N)).Mesh d (1 / (N + 1 : ℝ)) := by
    intro d hd
    obtain rfl : d = 0 := by
      have : d < 1 := hd
      omega
    have := C158_uniform (gexGrid N) (gex_good N) 0 hd
    have e : (((gexGrid N).max.getD 0 0 - (gexGrid N).min.getD 0 0) / (((gexGrid N).n.getD 0 0 : ℝ) - 1)) = 1 / (N + 1 : ℝ) := by
      simp [gexGrid]
      ring
    rwa [e] at this
  have hlen : (CGrid.uniform (gexGrid N)).nodes.length = N + 2 := by
    change ((linspace (0 : ℝ) 1 (N + 2)).map fun x => [x]).length = _
    rw [List.length_map, length_linspace']
  have hU : LinearGrid (tiSquare N) exactSplines .empty (.uniform (gexGrid N)) (fun _ _ => []) := by
    refine ⟨exactSplines_multilinear, gex_good N, rfl, hlen.symm, ?_, rfl, fun i hi j hj => Nat.one_pos⟩
    intro n hn d hd
    obtain rfl : d = 0 := by
      have : d < 1 := hd
      omega
    exact (gex_coord N n hn).symm
  have hint := C158_second_order (tiSquare N) exactSplines .empty (.uniform (gexGrid N)) (fun _ _ => []) hU
    (fun _ s _ => s 0 ^ 2) (fun _ => 1 / (N + 1 : ℝ)) (fun _ => 1) hmesh (fun _ _ => zero_le_one)
    (fun i _ n hn j _ => gex_box N n hn) (fun _ S _ _ => 2 * S 0) (by
      intro i _ j _ S _ n _ k _
      have e : (CGrid.uniform (gexGrid N)).n.length = 1 := rfl
      rw [e, Finset.sum_range_one, Finset.sum_range_one]
      have e2 : ((tiSquare N).s n 0) ^ 2 - (S 0 ^ 2 + 2 * S 0 * ((tiSquare N).s n 0 - S 0)) = ((tiSquare N).s n 0 - S 0) ^ 2 := by
        ring
      rw [e2, abs_of_nonneg (sq_nonneg _), one_mul])
  have e1 : ∑ d ∈ Finset.range (CGrid.uniform (gexGrid N)).n.length, (1 : ℝ) * ((1 / (N + 1 : ℝ)) ^ 2 / 4)
      = (1 / (N + 1 : ℝ)) ^ 2 / 4 := by
    have e : (CGrid.uniform (gexGrid N)).n.length = 1 := rfl
    rw [e, Finset.sum_range_one, one_mul]
  rw [e1] at hint
  have hfin := C158_equilibrium (tiSquare N) false (fun _ _ _ => True) 1 1 (1 / 2) (1 / 2) _ (by positivity)
    ⟨one_pos, by
      intro v _ i _ n _ y z _ _ l hl
      refine ⟨l, hl, ?_⟩
      rw [hres, hres]
      apply le_of_eq; ring, by
      intro v _ i _ n _ y z _ _ c _ hc k hk
      rw [hres, hres]
      have := hc k hk
      have e : ∀ a b : ℝ, y k - a - b - (z k - a - b) = y k - z k := fun a b => by ring
      rw [e]; linarith⟩
    (by
      intro v v' c hc0 _ _ hw i hi n hn y _ k hk
      rw [hres, hres]
      have h := C152_nonexpansive_partial exactSplines_multilinear (gex_good N) (exo := .empty) (nm := 1) rfl (fun _ _ => []) 1
        v v' i 0 k (by decide) hk c (fun n hn => hw 0 Nat.one_pos n (by rw [hlen] at hn; exact hn) k hk) _ (gex_box N n hn)
      have h' : |(tiSquare N).interp v i 0 (fun _ => ((n : ℝ) / (N + 1)) / 2) k
        - (tiSquare N).interp v' i 0 (fun _ => ((n : ℝ) / (N + 1)) / 2) k| ≤ c := h
      have e : ∀ a b t : ℝ, y k - a / 2 - t - (y k - b / 2 - t) = -(1 / 2 * (a - b)) := fun a b t => by ring
      rw [e, abs_neg, abs_mul, abs_of_pos (by norm_num : (0 : ℝ) < 1 / 2)]
      linarith)
    (by norm_num) (by norm_num) (fun i _ j _ => zero_le_one) (fun i _ => by simp [tiSquare, tiExample])
    (by
      intro m s x m' s' X X' e h k hk
      have e2 : x k - X k / 2 - 7 / 8 * s 0 ^ 2 - (x k - X' k / 2 - 7 / 8 * s 0 ^ 2) = -(1 / 2 * (X k - X' k)) := by ring
      change |x k - X k / 2 - 7 / 8 * s 0 ^ 2 - (x k - X' k / 2 - 7 / 8 * s 0 ^ 2)| ≤ _
      rw [e2, abs_neg, abs_mul, abs_of_pos (by norm_num : (0 : ℝ) < 1 / 2)]
      linarith [h k hk])
    (by intro i n k; simp [BoundsOK, lowerAt, upperAt]) (fun _ s _ => s 0 ^ 2)
    (by
      intro i hi n hn k hk
      have e : trueResidual (tiSquare N) (fun _ s _ => s 0 ^ 2) i n k = 0 := by
        simp [trueResidual, tiSquare, tiExample]
        ring
      rw [e]
      exact ⟨by simp [lowerAt], by simp [upperAt], fun h => absurd h (lt_irrefl _), fun h => absurd h (lt_irrefl _)⟩)
    (fun _ _ _ _ => trivial) hint ys (fun _ _ _ _ => trivial) hy
  intro n hn
  have h := hfin 0 Nat.one_pos n hn 0 Nat.one_pos
  have e : max (1 : ℝ) 1 / 1 * (1 / 2 * ((1 / (N + 1 : ℝ)) ^ 2 / 4)) / (1 - 1 / 2 / 1) = (1 / (N + 1 : ℝ)) ^ 2 / 4 := by
    rw [max_self]; ring
  rw [e] at h
  exact h

end Dolo
