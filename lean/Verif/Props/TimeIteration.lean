import Mathlib.Data.Real.Basic
import Mathlib.Data.Finset.Max
import Mathlib.Tactic.Linarith
import Mathlib.Tactic.FieldSimp
import Mathlib.Tactic.Positivity
import Mathlib.Tactic.NormNum
import Verif.Model.TimeIteration
import Verif.Props.Loops
import Verif.Props.Newton

/-!
# C110: time_iteration finds the equilibrium
-/

set_option linter.unusedSectionVars false

namespace Dolo

/-! ### Specification -/

/-- The expected arbitrage residual `k` at node `i` and grid point `n` of the controls `y`, when the future controls
are given by the rule with values `v`. -/
def eulerResidual (M : TIModel ℝ) (i n : ℕ) (y : ℕ → ℝ) (v : Table ℝ) (k : ℕ) : ℝ :=
  ∑ j ∈ Finset.range (M.dp.nInodes i), M.dp.iweight i j *
    M.f (M.dp.node i) (M.s n) y (M.dp.inode i j) (M.g (M.dp.node i) (M.s n) y (M.dp.inode i j))
      (M.interp v i j (M.g (M.dp.node i) (M.s n) y (M.dp.inode i j))) k

/-- The lower bound of control `k` at node `i` and grid point `n`, when constraints are imposed (`c`). -/
def lowerAt (M : TIModel ℝ) (c : Bool) (i n k : ℕ) : Option ℝ :=
  if c then M.lb.bind fun f => f (M.dp.node i) (M.s n) k else none

/-- The upper bound. -/
def upperAt (M : TIModel ℝ) (c : Bool) (i n k : ℕ) : Option ℝ :=
  if c then M.ub.bind fun f => f (M.dp.node i) (M.s n) k else none

/-- The rule with values `x` is a (recursive) equilibrium on the grid: at every node and grid point, the controls solve
the complementarity problem of the arbitrage equations against the rule itself. -/
def Equilibrium (M : TIModel ℝ) (c : Bool) (x : Table ℝ) : Prop :=
  ∀ i < M.dp.nNodes, ∀ n < M.N, ∀ k < M.nx,
    SolvesMCP (lowerAt M c i n k) (upperAt M c i n k) (x i n k) (eulerResidual M i n (x i n) x k)

/-- Two rules are within `c` of each other on the grid. -/
def Within (M : TIModel ℝ) (c : ℝ) (a b : Table ℝ) : Prop :=
  ∀ i < M.dp.nNodes, ∀ n < M.N, ∀ k < M.nx, |a i n k - b i n k| ≤ c

/-- The controls of the rule are in `D` at every point of the grid. -/
def Inside (M : TIModel ℝ) (D : ℕ → ℕ → (ℕ → ℝ) → Prop) (v : Table ℝ) : Prop :=
  ∀ i < M.dp.nNodes, ∀ n < M.N, D i n (v i n)

/-- On the set `D` of controls, the residuals are Lipschitz in the future rule (constant `ℓ`). -/
def FutureLipschitz (M : TIModel ℝ) (D : ℕ → ℕ → (ℕ → ℝ) → Prop) (ℓ : ℝ) : Prop :=
  ∀ v v' c, 0 ≤ c → Inside M D v → Inside M D v' → Within M c v v' →
    ∀ i < M.dp.nNodes, ∀ n < M.N, ∀ y, D i n y → ∀ k < M.nx,
      |eulerResidual M i n y v k - eulerResidual M i n y v' k| ≤ ℓ * c

/-- On the set `D`, the residuals are Lipschitz in today's controls (constant `L`) and form a uniform P-function of them
(constant `μ`); with one control this says that the residual has a slope between `μ` and `L`. -/
structure OwnControls (M : TIModel ℝ) (D : ℕ → ℕ → (ℕ → ℝ) → Prop) (μ L : ℝ) : Prop where
  pos : 0 < μ
  pfun : ∀ v, Inside M D v → ∀ i < M.dp.nNodes, ∀ n < M.N, ∀ y z, D i n y → D i n z →
    ∀ l < M.nx, ∃ k < M.nx, μ * (y l - z l) ^ 2
      ≤ (y k - z k) * (eulerResidual M i n y v k - eulerResidual M i n z v k)
  lip : ∀ v, Inside M D v → ∀ i < M.dp.nNodes, ∀ n < M.N, ∀ y z, D i n y → D i n z → ∀ c, 0 ≤ c →
    (∀ l < M.nx, |y l - z l| ≤ c) →
    ∀ k < M.nx, |eulerResidual M i n y v k - eulerResidual M i n z v k| ≤ L * c

/-- The problem given to an inner solver is the one of the model against the rule `v`, one row for each node and grid
point, in row-major order. -/
def IsProblem (M : TIModel ℝ) (v : Table ℝ) (fn : (ℕ → ℕ → ℝ) → ℕ → ℕ → ℝ) : Prop :=
  ∀ x, ∀ i < M.dp.nNodes, ∀ n < M.N, ∀ k < M.nx, fn x (i * M.N + n) k = eulerResidual M i n (x (i * M.N + n)) v k

/-- The rows `b` are the bounds `at_`. -/
def IsBounds (M : TIModel ℝ) (at_ : ℕ → ℕ → ℕ → Option ℝ) (b : ℕ → ℕ → Option ℝ) : Prop :=
  ∀ i < M.dp.nNodes, ∀ n < M.N, ∀ k < M.nx, b (i * M.N + n) k = at_ i n k

/-- The controls `z` returned by an inner solver are in `D` and solve the problem against `v` up to `δ`. -/
def Accurate (M : TIModel ℝ) (c : Bool) (D : ℕ → ℕ → (ℕ → ℝ) → Prop) (δ : ℝ) (v : Table ℝ) (z : ℕ → ℕ → ℝ) : Prop :=
  ∀ i < M.dp.nNodes, ∀ n < M.N, D i n (z (i * M.N + n)) ∧ ∀ k < M.nx,
    |naturalResidual (lowerAt M c i n k) (upperAt M c i n k) (z (i * M.N + n) k)
      (eulerResidual M i n (z (i * M.N + n)) v k)| ≤ δ

/-- The inner solver in use finds solutions up to `δ` of all the problems met on `D`: `ncpsolve` when constraints are
imposed, otherwise `newton`. -/
def SolverOK (M : TIModel ℝ) (S : TISolvers ℝ) (c : Bool) (D : ℕ → ℕ → (ℕ → ℝ) → Prop) (δ : ℝ) : Prop :=
  if c then ∀ v, Inside M D v → ∀ fn lb ub x, IsProblem M v fn → IsBounds M (lowerAt M c) lb →
    IsBounds M (upperAt M c) ub → Accurate M c D δ v (S.ncpsolve fn lb ub x)
  else ∀ v, Inside M D v → ∀ fn x, IsProblem M v fn → Accurate M c D δ v (S.newton fn x)

/-- Whether constraints are to be imposed: the model has some, and the options do not say otherwise (the obsolete option
`with_complementarities` wins over `ignore_constraints`). -/
def imposed (M : TIModel ℝ) (o : TIOpts ℝ) : Bool :=
  M.lb.isSome && (o.with_complementarities.getD !o.ignore_constraints)

/-! ### Lemmas -/

section scalar

private theorem nat_above (lb ub : Option ℝ) (x y fx fy δ : ℝ) (hy : SolvesMCP lb ub y fy)
    (hx : naturalResidual lb ub x fx ≤ δ) : x - y ≤ δ ∨ fx - fy ≤ δ := by
  obtain ⟨h1, h2, h3, h4⟩ := hy
  rcases lt_or_ge fy 0 with h | h
  · have e := h4 h
    subst e
    left
    refine le_trans ?_ hx
    unfold naturalResidual
    exact le_max_right _ _
  · have hin : naturalResidual lb none x fx ≤ δ := by
      refine le_trans ?_ hx
      cases ub with
      | none => exact le_refl _
      | some u => exact le_max_left (naturalResidual lb none x fx) (x - u)
    cases lb with
    | none =>
      have hin : fx ≤ δ := hin
      right; linarith
    | some l =>
      have hl := h1 l (by simp)
      have hin : min fx (x - l) ≤ δ := hin
      rcases min_le_iff.1 hin with h' | h'
      · right; linarith
      · left; linarith

private theorem nat_below (lb ub : Option ℝ) (x y fx fy δ : ℝ) (hy : SolvesMCP lb ub y fy)
    (hx : -δ ≤ naturalResidual lb ub x fx) : y - x ≤ δ ∨ fy - fx ≤ δ := by
  obtain ⟨h1, h2, h3, h4⟩ := hy
  have key : (∀ u ∈ ub, x - u < -δ) → -δ ≤ naturalResidual lb none x fx := by
    intro hu
    cases ub with
    | none => exact hx
    | some u =>
      have hu := hu u (by simp)
      have hx : -δ ≤ max (naturalResidual lb none x fx) (x - u) := hx
      rcases le_max_iff.1 hx with h' | h'
      · exact h'
      · linarith
  by_cases hu : ∀ u ∈ ub, x - u < -δ
  · have hin := key hu
    rcases lt_or_ge 0 fy with h | h
    · have e := h3 h
      subst e
      left
      have := le_trans hin (min_le_right _ _)
      linarith
    · right
      have : -δ ≤ fx := by
        cases lb with
        | none => exact hin
        | some l => exact le_trans hin (min_le_left _ _)
      linarith
  · push Not at hu
    obtain ⟨u, hu1, hu2⟩ := hu
    have := h2 u hu1
    left; linarith

private theorem natural_lipschitz (lb ub : Option ℝ) (x f f' : ℝ) :
    |naturalResidual lb ub x f - naturalResidual lb ub x f'| ≤ |f - f'| := by
  have h1 : ∀ a b c : ℝ, |min a c - min b c| ≤ |a - b| := by
    intro a b c
    have := abs_min_sub_min_le_max a c b c
    simpa using this
  have h2 : ∀ a b c : ℝ, |max a c - max b c| ≤ |a - b| := by
    intro a b c
    have := abs_max_sub_max_le_max a c b c
    simpa using this
  cases lb with
  | none =>
    cases ub with
    | none => exact le_refl _
    | some u => exact h2 _ _ _
  | some l =>
    cases ub with
    | none => exact h1 _ _ _
    | some u => exact le_trans (h2 _ _ _) (h1 _ _ _)

end scalar

private theorem row_div (N i n : ℕ) (hn : n < N) : (i * N + n) / N = i := by
  rw [mul_comm, Nat.mul_add_div (by omega), Nat.div_eq_of_lt hn, add_zero]

private theorem row_mod (N i n : ℕ) (hn : n < N) : (i * N + n) % N = n := by
  rw [mul_comm, Nat.mul_add_mod, Nat.mod_eq_of_lt hn]

private theorem row_lt (nm N i n : ℕ) (hi : i < nm) (hn : n < N) : i * N + n < nm * N := by
  calc i * N + n < i * N + N := by omega
    _ = (i + 1) * N := by ring
    _ ≤ nm * N := Nat.mul_le_mul_right _ hi

theorem ofRows_toRows {α : Type} (N : ℕ) (t : ℕ → ℕ → ℕ → α) (i n : ℕ) (hn : n < N) :
    ofRows N (toRows N t) i n = t i n := by
  funext k
  simp [ofRows, toRows, row_div N i n hn, row_mod N i n hn]

private theorem inside_congr {M : TIModel ℝ} {D : ℕ → ℕ → (ℕ → ℝ) → Prop} {a b : Table ℝ}
    (h : ∀ i < M.dp.nNodes, ∀ n < M.N, a i n = b i n) (ha : Inside M D a) : Inside M D b := by
  intro i hi n hn
  rw [← h i hi n hn]
  exact ha i hi n hn

/-- The distance computed by the code is the distance between the tables. -/
theorem rows_dist (M : TIModel ℝ) (a b : ℕ → ℕ → ℝ) (c : ℝ) (hc : 0 ≤ c) :
    (maxAbs (M.dp.nNodes * M.N) M.nx fun r k => a r k - b r k) ≤ c ↔ Within M c (ofRows M.N a) (ofRows M.N b) := by
  rw [maxAbs_le_iff _ _ _ _ hc]
  constructor
  · intro h i hi n hn k hk
    exact h _ (row_lt _ _ _ _ hi hn) k hk
  · intro h r hr k hk
    have hN : 0 < M.N := by
      rcases Nat.eq_zero_or_pos M.N with h0 | h0
      · rw [h0] at hr; simp at hr
      · exact h0
    have h1 : r / M.N < M.dp.nNodes := Nat.div_lt_of_lt_mul (by rw [mul_comm]; exact hr)
    have h2 := h _ h1 _ (Nat.mod_lt r hN) k hk
    have e : r / M.N * M.N + r % M.N = r := by rw [mul_comm]; exact Nat.div_add_mod _ _
    simp only [ofRows, e] at h2
    exact h2

/-- One step towards an exact solution. -/
theorem one_step (M : TIModel ℝ) (c : Bool) (D : ℕ → ℕ → (ℕ → ℝ) → Prop) (μ L ℓ δ : ℝ)
    (hO : OwnControls M D μ L) (hF : FutureLipschitz M D ℓ) (hδ : 0 ≤ δ) (v v' : Table ℝ) (d : ℝ) (hd : 0 ≤ d)
    (hv : Inside M D v) (hv' : Inside M D v') (hw : Within M d v v')
    (i : ℕ) (hi : i < M.dp.nNodes) (n : ℕ) (hn : n < M.N) (x y : ℕ → ℝ) (hx : D i n x) (hy : D i n y)
    (hx' : ∀ k < M.nx, |naturalResidual (lowerAt M c i n k) (upperAt M c i n k) (x k) (eulerResidual M i n x v k)| ≤ δ)
    (hy' : ∀ k < M.nx, SolvesMCP (lowerAt M c i n k) (upperAt M c i n k) (y k) (eulerResidual M i n y v' k)) :
    ∀ l < M.nx, |x l - y l| ≤ max 1 L / μ * δ + ℓ / μ * d := by
  intro l0 hl0
  have hμ := hO.pos
  obtain ⟨l, hl, hmax⟩ := Finset.exists_max_image (Finset.range M.nx) (fun l => |x l - y l|)
    ⟨l0, Finset.mem_range.2 hl0⟩
  have hl := Finset.mem_range.1 hl
  refine le_trans (hmax l0 (Finset.mem_range.2 hl0)) ?_
  set e := |x l - y l| with he
  have he0 : 0 ≤ e := abs_nonneg _
  obtain ⟨k, hk, hP⟩ := hO.pfun v' hv' i hi n hn x y hx hy l hl
  have hLip := hO.lip v' hv' i hi n hn x y hx hy e he0 (fun l' hl' => hmax l' (Finset.mem_range.2 hl')) k hk
  have hFut := hF v v' d hd hv hv' hw i hi n hn x hx k hk
  have hke : |x k - y k| ≤ e := hmax k (Finset.mem_range.2 hk)
  have hsq : (x l - y l) ^ 2 = e ^ 2 := (sq_abs _).symm
  rw [hsq] at hP
  have hxk := hx' k hk
  have hyk := hy' k hk
  set F := eulerResidual M i n x v k
  set F' := eulerResidual M i n x v' k
  set G := eulerResidual M i n y v' k
  have hℓd : 0 ≤ ℓ * d := le_trans (abs_nonneg _) hFut
  have hrhs : 0 ≤ max 1 L / μ * δ :=
    mul_nonneg (div_nonneg (le_trans zero_le_one (le_max_left _ _)) hμ.le) hδ
  rcases eq_or_lt_of_le he0 with h0 | h0
  · rw [← h0]
    have : ℓ / μ * d = ℓ * d / μ := by ring
    rw [this]
    exact add_nonneg hrhs (div_nonneg hℓd hμ.le)
  have goal : (μ * e ≤ L * δ ∨ μ * e ≤ δ + ℓ * d) → e ≤ max 1 L / μ * δ + ℓ / μ * d := by
    intro h
    have : max 1 L / μ * δ + ℓ / μ * d = (max 1 L * δ + ℓ * d) / μ := by ring
    rw [this, le_div_iff₀ hμ]
    have h1 : L * δ ≤ max 1 L * δ := mul_le_mul_of_nonneg_right (le_max_right _ _) hδ
    have h2 : 1 * δ ≤ max 1 L * δ := mul_le_mul_of_nonneg_right (le_max_left _ _) hδ
    rcases h with h | h <;> linarith
  apply goal
  have hpos : 0 < μ * e ^ 2 := by positivity
  have hL0 : 0 ≤ L * e := le_trans (abs_nonneg _) hLip
  have hL : 0 ≤ L := by
    by_contra hc
    have := mul_neg_of_neg_of_pos (not_le.1 hc) h0
    linarith
  rcases lt_trichotomy (x k) (y k) with h | h | h
  · -- below
    have hz : 0 < y k - x k := by linarith
    have hze : y k - x k ≤ e := by rw [abs_of_neg (by linarith : x k - y k < 0)] at hke; linarith
    have hP' : μ * e ^ 2 ≤ (y k - x k) * (G - F') := by nlinarith
    have hg : 0 < G - F' := by
      by_contra hc
      have := mul_nonpos_of_nonneg_of_nonpos hz.le (not_lt.1 hc)
      linarith
    have h1 : μ * e ≤ G - F' := by
      have : (y k - x k) * (G - F') ≤ e * (G - F') := mul_le_mul_of_nonneg_right hze hg.le
      have : e * (μ * e) ≤ e * (G - F') := by nlinarith
      exact le_of_mul_le_mul_left this h0
    have h2 : μ * e ≤ L * (y k - x k) := by
      have hGL : G - F' ≤ L * e := by
        have := neg_abs_le (F' - G); linarith
      have : (y k - x k) * (G - F') ≤ (y k - x k) * (L * e) := mul_le_mul_of_nonneg_left hGL hz.le
      have : e * (μ * e) ≤ e * (L * (y k - x k)) := by nlinarith
      exact le_of_mul_le_mul_left this h0
    rcases nat_below _ _ _ _ _ _ δ hyk (abs_le.1 hxk).1 with h' | h'
    · left
      exact le_trans h2 (mul_le_mul_of_nonneg_left h' hL)
    · right
      have := le_abs_self (F - F')
      linarith
  · rw [h, sub_self, zero_mul] at hP
    linarith
  · have hz : 0 < x k - y k := by linarith
    have hze : x k - y k ≤ e := le_trans (le_abs_self _) hke
    have hg : 0 < F' - G := by
      by_contra hc
      have := mul_nonpos_of_nonneg_of_nonpos hz.le (not_lt.1 hc)
      linarith
    have h1 : μ * e ≤ F' - G := by
      have : (x k - y k) * (F' - G) ≤ e * (F' - G) := mul_le_mul_of_nonneg_right hze hg.le
      have : e * (μ * e) ≤ e * (F' - G) := by nlinarith
      exact le_of_mul_le_mul_left this h0
    have h2 : μ * e ≤ L * (x k - y k) := by
      have hGL : F' - G ≤ L * e := le_trans (le_abs_self _) hLip
      have : (x k - y k) * (F' - G) ≤ (x k - y k) * (L * e) := mul_le_mul_of_nonneg_left hGL hz.le
      have : e * (μ * e) ≤ e * (L * (x k - y k)) := by nlinarith
      exact le_of_mul_le_mul_left this h0
    rcases nat_above _ _ _ _ _ _ δ hyk (abs_le.1 hxk).2 with h' | h'
    · left
      exact le_trans h2 (mul_le_mul_of_nonneg_left h' hL)
    · right
      have := neg_abs_le (F - F')
      linarith

private theorem tiFn_isProblem (M : TIModel ℝ) (v : ℕ → ℕ → ℝ) : IsProblem M (ofRows M.N v) (tiFn M v) := by
  intro x i hi n hn k hk
  unfold tiFn toRows
  rw [row_div _ _ _ hn, row_mod _ _ _ hn, C75_residuals_simple]
  rfl

private theorem wanted_eq (o : TIOpts ℝ) : o.wanted = o.with_complementarities.getD !o.ignore_constraints := by
  unfold TIOpts.wanted
  cases o.with_complementarities <;> rfl

private theorem tiBounds_spec (M : TIModel ℝ) (o : TIOpts ℝ) (hub : M.lb.isSome → M.ub.isSome) :
    ∃ b, tiBounds M o = .ok b ∧ b.isSome = imposed M o ∧
      ∀ lb ub, b = some (lb, ub) → IsBounds M (lowerAt M true) lb ∧ IsBounds M (upperAt M true) ub := by
  unfold tiBounds imposed
  rw [← wanted_eq]
  cases hl : M.lb with
  | none => exact ⟨none, rfl, rfl, by simp⟩
  | some f =>
    obtain ⟨g, hg⟩ := Option.isSome_iff_exists.1 (hub (by rw [hl]; rfl))
    by_cases hw : o.wanted = true
    · simp only [hw, hg, if_true]
      refine ⟨_, rfl, rfl, ?_⟩
      intro lb ub h
      simp only [Option.some.injEq, Prod.mk.injEq] at h
      obtain ⟨rfl, rfl⟩ := h
      constructor
      · intro i hi n hn k hk
        simp [toRows, row_div _ _ _ hn, row_mod _ _ _ hn, lowerAt, hl]
      · intro i hi n hn k hk
        simp [toRows, row_div _ _ _ hn, row_mod _ _ _ hn, upperAt, hg]
    · simp only [Bool.not_eq_true] at hw
      simp only [hw]
      exact ⟨none, rfl, rfl, by simp⟩

private theorem update_accurate (M : TIModel ℝ) (S : TISolvers ℝ) (c : Bool) (D : ℕ → ℕ → (ℕ → ℝ) → Prop) (δ : ℝ)
    (hS : SolverOK M S c D δ) (b : Option ((ℕ → ℕ → Option ℝ) × (ℕ → ℕ → Option ℝ))) (hc : b.isSome = c)
    (hb : ∀ lb ub, b = some (lb, ub) → IsBounds M (lowerAt M true) lb ∧ IsBounds M (upperAt M true) ub)
    (v : ℕ → ℕ → ℝ) (hv : Inside M D (ofRows M.N v)) :
    Accurate M c D δ (ofRows M.N v) (tiUpdate M S b v) := by
  unfold SolverOK at hS
  cases b with
  | none =>
    simp only [Option.isSome_none] at hc
    subst hc
    simp only [Bool.false_eq_true, if_false] at hS
    exact hS _ hv _ _ (tiFn_isProblem M v)
  | some p =>
    obtain ⟨lb, ub⟩ := p
    simp only [Option.isSome_some] at hc
    subst hc
    simp only [if_true] at hS
    obtain ⟨h1, h2⟩ := hb lb ub rfl
    exact hS _ hv _ _ _ _ (tiFn_isProblem M v) h1 h2

/-- What a successful run is made of. -/
private theorem full_ok (M : TIModel ℝ) (S : TISolvers ℝ) (o : TIOpts ℝ) (hub : M.lb.isSome → M.ub.isSome)
    (t0 : Table ℝ) (h0 : tiInit M o = .ok t0) (r : TIFullResult ℝ) (hr : timeIterationFull M S o = .ok r) :
    ∃ (b : Option ((ℕ → ℕ → Option ℝ) × (ℕ → ℕ → Option ℝ))) (r' : TIResult (ℕ → ℕ → ℝ) ℝ),
      b.isSome = imposed M o ∧
      (∀ lb ub, b = some (lb, ub) → IsBounds M (lowerAt M true) lb ∧ IsBounds M (upperAt M true) ub) ∧
      timeIteration (tiUpdate M S b) (fun a b => maxAbs (M.dp.nNodes * M.N) M.nx fun r k => a r k - b r k)
        o.tol o.maxit (toRows M.N t0) = .ok r' ∧
      r = ⟨ofRows M.N r'.controls, r'.iterations, b.isSome, r'.converged, r'.err,
        if o.trace then some (tiTrace M (tiUpdate M S b) r'.iterations (toRows M.N t0) ++ [ofRows M.N r'.controls])
        else none⟩ := by
  obtain ⟨b, hb, hb1, hb2⟩ := tiBounds_spec M o hub
  unfold timeIterationFull at hr
  rw [h0, hb] at hr
  simp only [bind, Except.bind] at hr
  cases ht : timeIteration (tiUpdate M S b)
      (fun a b => maxAbs (M.dp.nNodes * M.N) M.nx fun r k => a r k - b r k) o.tol o.maxit (toRows M.N t0) with
  | error e => rw [ht] at hr; simp at hr
  | ok r' =>
    rw [ht] at hr
    simp only [Except.ok.injEq] at hr
    exact ⟨b, r', hb1, hb2, ht, hr.symm⟩

/-! ### C110 -/

/-- **C110, the options.**  `time_iteration` returns whenever an initial guess can be made, at least one iteration is
allowed and the tolerance is below 10; the field `complementarities` then says whether constraints were imposed. -/
theorem C110_returns (M : TIModel ℝ) (S : TISolvers ℝ) (o : TIOpts ℝ) (hub : M.lb.isSome → M.ub.isSome)
    (t0 : Table ℝ) (h0 : tiInit M o = .ok t0) (hmax : 1 ≤ o.maxit) (htol : o.tol < 10) :
    ∃ r, timeIterationFull M S o = .ok r ∧ r.complementarities = imposed M o ∧ 1 ≤ r.iterations ∧
      r.iterations ≤ o.maxit ∧ (r.x_converged = true ↔ r.err < o.tol) := by
  obtain ⟨b, hb, hb1, hb2⟩ := tiBounds_spec M o hub
  obtain ⟨r', hr'⟩ := (C28_returns (tiUpdate M S b)
    (fun a b => maxAbs (M.dp.nNodes * M.N) M.nx fun r k => a r k - b r k) o.tol o.maxit (toRows M.N t0)).2
    ⟨hmax, htol⟩
  obtain ⟨h1, h2, -, -, h5, -, -⟩ := C28_time_iteration _ _ _ _ _ _ hr'
  refine ⟨⟨ofRows M.N r'.controls, r'.iterations, b.isSome, r'.converged, r'.err,
    if o.trace then some (tiTrace M (tiUpdate M S b) r'.iterations (toRows M.N t0) ++ [ofRows M.N r'.controls])
    else none⟩, ?_, hb1, h1, h2, h5⟩
  unfold timeIterationFull
  rw [h0, hb]
  simp only [bind, Except.bind]
  rw [hr']

private theorem mapM_range (nm : ℕ) (g : ℕ → Except Err (ℕ → ℕ → ℝ)) (val : ℕ → ℕ → ℕ → ℝ)
    (h : ∀ i < nm, g i = .ok (val i)) : (List.range nm).mapM g = .ok ((List.range nm).map val) := by
  have gen : ∀ l : List ℕ, (∀ i ∈ l, g i = .ok (val i)) → l.mapM g = .ok (l.map val) := by
    intro l
    induction l with
    | nil => intro _; rfl
    | cons a l ih =>
      intro hl
      rw [List.mapM_cons, hl a (by simp), ih (fun i hi => hl i (by simp [hi]))]
      rfl
  exact gen _ (fun i hi => h i (List.mem_range.1 hi))

private theorem mapM_err (nm : ℕ) (g : ℕ → Except Err (ℕ → ℕ → ℝ)) (i : ℕ) (hi : i < nm) (e : Err)
    (h : g i = .error e) : ∃ e', (List.range nm).mapM g = .error e' := by
  have gen : ∀ l : List ℕ, i ∈ l → ∃ e', l.mapM g = .error e' := by
    intro l
    induction l with
    | nil => intro h; simp at h
    | cons a l ih =>
      intro hl
      rw [List.mapM_cons]
      cases hg : g a with
      | error e' => exact ⟨e', rfl⟩
      | ok v =>
        rcases List.mem_cons.1 hl with rfl | hl
        · rw [h] at hg; simp at hg
        · obtain ⟨e', he'⟩ := ih hl
          exact ⟨e', by rw [he']; rfl⟩
  exact gen _ (List.mem_range.2 hi)

private theorem fill_ok (nm : ℕ) (g : ℕ → Except Err (ℕ → ℕ → ℝ)) (val : ℕ → ℕ → ℕ → ℝ)
    (h : ∀ i < nm, g i = .ok (val i)) : ∃ t, fillTable nm g = .ok t ∧ ∀ i < nm, t i = val i := by
  unfold fillTable
  rw [mapM_range nm g val h]
  refine ⟨_, rfl, ?_⟩
  intro i hi
  simp [hi]

/-- **C110, the initial guess.**  Without `dr0` the controls of the calibration; with a rule, its values at the indices
of the exogenous nodes, and if it cannot be evaluated at all of the indices, its values at all of the nodes. -/
theorem C110_initial (M : TIModel ℝ) (o : TIOpts ℝ) :
    (o.dr0 = none → ∃ t, tiInit M o = .ok t ∧ ∀ i n k, t i n k = M.x0 k) ∧
    (∀ d, o.dr0 = some d → ∀ val : Table ℝ, (∀ i < M.dp.nNodes, d.byIndex i = .ok (val i)) →
      ∃ t, tiInit M o = .ok t ∧ ∀ i < M.dp.nNodes, t i = val i) ∧
    (∀ d, o.dr0 = some d → ∀ i e, i < M.dp.nNodes → d.byIndex i = .error e →
      ∀ val : Table ℝ, (∀ i < M.dp.nNodes, d.byValue (M.dp.node i) = .ok (val i)) →
      ∃ t, tiInit M o = .ok t ∧ ∀ i < M.dp.nNodes, t i = val i) := by
  refine ⟨?_, ?_, ?_⟩
  · intro h
    refine ⟨fun _ _ k => M.x0 k, ?_, fun _ _ _ => rfl⟩
    simp [tiInit, h]
  · intro d h val hv
    obtain ⟨t, ht, ht'⟩ := fill_ok M.dp.nNodes d.byIndex val hv
    exact ⟨t, by simp [tiInit, h, ht], ht'⟩
  · intro d h i e hi he val hv
    obtain ⟨t, ht, ht'⟩ := fill_ok M.dp.nNodes (fun i => d.byValue (M.dp.node i)) val hv
    obtain ⟨e', he'⟩ := mapM_err M.dp.nNodes d.byIndex i hi e he
    have : fillTable M.dp.nNodes d.byIndex = .error e' := by
      unfold fillTable
      rw [he']
      rfl
    exact ⟨t, by simp [tiInit, h, this, ht], ht'⟩

private theorem iterate_inside (M : TIModel ℝ) (c : Bool) (D : ℕ → ℕ → (ℕ → ℝ) → Prop) (δ : ℝ)
    (u : (ℕ → ℕ → ℝ) → ℕ → ℕ → ℝ)
    (hu : ∀ v, Inside M D (ofRows M.N v) → Accurate M c D δ (ofRows M.N v) (u v))
    (x0 : ℕ → ℕ → ℝ) (h0 : Inside M D (ofRows M.N x0)) (t : ℕ) : Inside M D (ofRows M.N (u^[t] x0)) := by
  induction t with
  | zero => exact h0
  | succ t ih =>
    rw [Function.iterate_succ_apply']
    exact fun i hi n hn => (hu _ ih i hi n hn).1

/-- **C110, Euler errors.**  The rule returned by `time_iteration` satisfies the equilibrium conditions, with their
complementarities when these are imposed, up to the accuracy of the inner solver plus `ℓ` times the error reported. -/
theorem C110_euler_error (M : TIModel ℝ) (S : TISolvers ℝ) (o : TIOpts ℝ) (hub : M.lb.isSome → M.ub.isSome)
    (D : ℕ → ℕ → (ℕ → ℝ) → Prop) (ℓ δ : ℝ) (hF : FutureLipschitz M D ℓ) (hS : SolverOK M S (imposed M o) D δ)
    (t0 : Table ℝ) (h0 : tiInit M o = .ok t0) (hD : Inside M D t0)
    (r : TIFullResult ℝ) (hr : timeIterationFull M S o = .ok r) :
    Inside M D r.dr ∧ (∀ i < M.dp.nNodes, ∀ n < M.N, ∀ k < M.nx,
      |naturalResidual (lowerAt M (imposed M o) i n k) (upperAt M (imposed M o) i n k) (r.dr i n k)
        (eulerResidual M i n (r.dr i n) r.dr k)| ≤ δ + ℓ * r.err) ∧
    (r.iterations < o.maxit → r.err ≤ o.tol) := by
  obtain ⟨b, r', hb1, hb2, hr', rfl⟩ := full_ok M S o hub t0 h0 r hr
  have hu := update_accurate M S _ D δ hS b hb1 hb2
  have hD0 : Inside M D (ofRows M.N (toRows M.N t0)) :=
    inside_congr (fun i hi n hn => (ofRows_toRows M.N t0 i n hn).symm) hD
  have hin := iterate_inside M _ D δ (tiUpdate M S b) hu _ hD0
  obtain ⟨h1, -, h3, h4, -, -, h7⟩ := C28_time_iteration _ _ _ _ _ _ hr'
  obtain ⟨it, hit⟩ : ∃ it, r'.iterations = it + 1 := ⟨r'.iterations - 1, by omega⟩
  rw [hit] at h3 h4
  simp only [Nat.add_sub_cancel] at h4
  set old := (tiUpdate M S b)^[it] (toRows M.N t0) with hold
  rw [Function.iterate_succ_apply'] at h3 h4
  have hacc := hu old (hin it)
  have e1 : r'.controls = tiUpdate M S b old := h3
  simp only [] at *
  rw [← e1] at h4 hacc
  have herr0 : 0 ≤ r'.err := by rw [h4]; exact maxAbs_nonneg _ _ _
  have hIn : Inside M D (ofRows M.N r'.controls) := fun i hi n hn => (hacc i hi n hn).1
  have hW := (rows_dist M r'.controls old r'.err herr0).1 (le_of_eq h4.symm)
  refine ⟨hIn, ?_, h7⟩
  intro i hi n hn k hk
  have ha := (hacc i hi n hn).2 k hk
  have hf := hF _ _ r'.err herr0 hIn (hin it) hW i hi n hn (ofRows M.N r'.controls i n) (hIn i hi n hn) k hk
  have hl := natural_lipschitz (lowerAt M (imposed M o) i n k) (upperAt M (imposed M o) i n k)
    (ofRows M.N r'.controls i n k)
    (eulerResidual M i n (ofRows M.N r'.controls i n) (ofRows M.N r'.controls) k)
    (eulerResidual M i n (ofRows M.N r'.controls i n) (ofRows M.N old) k)
  have ha' : |naturalResidual (lowerAt M (imposed M o) i n k) (upperAt M (imposed M o) i n k)
      (ofRows M.N r'.controls i n k) (eulerResidual M i n (ofRows M.N r'.controls i n) (ofRows M.N old) k)| ≤ δ := ha
  have := abs_sub_abs_le_abs_sub
    (naturalResidual (lowerAt M (imposed M o) i n k) (upperAt M (imposed M o) i n k) (ofRows M.N r'.controls i n k)
      (eulerResidual M i n (ofRows M.N r'.controls i n) (ofRows M.N r'.controls) k))
    (naturalResidual (lowerAt M (imposed M o) i n k) (upperAt M (imposed M o) i n k) (ofRows M.N r'.controls i n k)
      (eulerResidual M i n (ofRows M.N r'.controls i n) (ofRows M.N old) k))
  linarith

private theorem step_within (M : TIModel ℝ) (c : Bool) (D : ℕ → ℕ → (ℕ → ℝ) → Prop) (μ L ℓ δ : ℝ)
    (hO : OwnControls M D μ L) (hF : FutureLipschitz M D ℓ) (hδ : 0 ≤ δ) (xs : Table ℝ) (hxs : Inside M D xs)
    (he : Equilibrium M c xs) (v z : ℕ → ℕ → ℝ) (d : ℝ) (hd : 0 ≤ d) (hv : Inside M D (ofRows M.N v))
    (hw : Within M d (ofRows M.N v) xs) (hz : Accurate M c D δ (ofRows M.N v) z) :
    Within M (max 1 L / μ * δ + ℓ / μ * d) (ofRows M.N z) xs := by
  intro i hi n hn k hk
  exact one_step M c D μ L ℓ δ hO hF hδ _ xs d hd hv hxs hw i hi n hn _ (xs i n) (hz i hi n hn).1 (hxs i hi n hn)
    (hz i hi n hn).2 (he i hi n hn) k hk

/-- **C110, uniqueness.**  When the arbitrage equations react more to today's controls than to the future rule
(`ℓ < μ`), there is at most one equilibrium rule in `D` on the grid. -/
theorem C110_unique (M : TIModel ℝ) (c : Bool) (D : ℕ → ℕ → (ℕ → ℝ) → Prop) (μ L ℓ : ℝ)
    (hO : OwnControls M D μ L) (hF : FutureLipschitz M D ℓ) (hℓ : 0 ≤ ℓ) (hq : ℓ < μ)
    (xs ys : Table ℝ) (hxs : Inside M D xs) (hys : Inside M D ys)
    (hx : Equilibrium M c xs) (hy : Equilibrium M c ys) (hb : ∀ i n k, BoundsOK (lowerAt M c i n k) (upperAt M c i n k)) :
    ∀ i < M.dp.nNodes, ∀ n < M.N, ∀ k < M.nx, xs i n k = ys i n k := by
  have hμ := hO.pos
  set E := maxAbs (M.dp.nNodes * M.N) M.nx fun r k => toRows M.N xs r k - toRows M.N ys r k with hE
  have hE0 : 0 ≤ E := maxAbs_nonneg _ _ _
  have hW0 := (rows_dist M (toRows M.N xs) (toRows M.N ys) E hE0).1 (le_refl _)
  have hW : Within M E xs ys := by
    intro i hi n hn k hk
    have := hW0 i hi n hn k hk
    rwa [ofRows_toRows _ _ _ _ hn, ofRows_toRows _ _ _ _ hn] at this
  have hstep : Within M (max 1 L / μ * 0 + ℓ / μ * E) xs ys := by
    intro i hi n hn k hk
    refine one_step M c D μ L ℓ 0 hO hF (le_refl _) xs ys E hE0 hxs hys hW i hi n hn (xs i n) (ys i n)
      (hxs i hi n hn) (hys i hi n hn) ?_ (hy i hi n hn) k hk
    intro k hk
    rw [(naturalResidual_zero _ _ (hb i n k) _ _).2 (hx i hi n hn k hk), abs_zero]
  have hq0 : 0 ≤ ℓ / μ * E := mul_nonneg (div_nonneg hℓ hμ.le) hE0
  have hle : E ≤ ℓ / μ * E := by
    refine (rows_dist M (toRows M.N xs) (toRows M.N ys) _ hq0).2 ?_
    intro i hi n hn k hk
    rw [ofRows_toRows _ _ _ _ hn, ofRows_toRows _ _ _ _ hn]
    have := hstep i hi n hn k hk
    simpa using this
  have hq1 : ℓ / μ < 1 := (div_lt_one hμ).2 hq
  have hEz : E = 0 := by
    by_contra hne
    have hpos : 0 < E := lt_of_le_of_ne hE0 (Ne.symm hne)
    have : ℓ / μ * E < 1 * E := mul_lt_mul_of_pos_right hq1 hpos
    linarith
  intro i hi n hn k hk
  have := hW i hi n hn k hk
  rw [hEz] at this
  have := abs_eq_zero.1 (le_antisymm this (abs_nonneg _))
  linarith

/-- **C110.**  Suppose that, on a set `D` of controls, the arbitrage equations react more to today's controls than to
the future rule (`ℓ < μ`), that the inner solver solves the problems it is given up to `δ`, and that the initial guess
is at most `d0` away from the equilibrium rule `xs`.  Then the rule returned by `time_iteration` is within
`(κ δ + q err) / (1 - q)` of the equilibrium, where `err` is the error reported, `q = ℓ / μ` and `κ = max 1 L / μ`; it is
within `q ^ it d0 + κ δ / (1 - q)`; and the loop stops with an error of at most `tol` after `k + 1` iterations as soon as
`(1 + q) q ^ k d0 + 2 κ δ / (1 - q) ≤ tol`. -/
theorem C110_convergence (M : TIModel ℝ) (S : TISolvers ℝ) (o : TIOpts ℝ) (hub : M.lb.isSome → M.ub.isSome)
    (D : ℕ → ℕ → (ℕ → ℝ) → Prop) (μ L ℓ δ : ℝ) (hO : OwnControls M D μ L) (hF : FutureLipschitz M D ℓ)
    (hℓ : 0 ≤ ℓ) (hq : ℓ < μ) (hδ : 0 ≤ δ) (hS : SolverOK M S (imposed M o) D δ)
    (xs : Table ℝ) (hxs : Inside M D xs) (he : Equilibrium M (imposed M o) xs)
    (t0 : Table ℝ) (h0 : tiInit M o = .ok t0) (hD : Inside M D t0) (d0 : ℝ) (hd0 : 0 ≤ d0) (hw : Within M d0 t0 xs)
    (r : TIFullResult ℝ) (hr : timeIterationFull M S o = .ok r) :
    let q := ℓ / μ
    let κ := max 1 L / μ
    Within M ((κ * δ + q * r.err) / (1 - q)) r.dr xs ∧
    Within M (q ^ r.iterations * d0 + κ * δ / (1 - q)) r.dr xs ∧
    ∀ k, k + 1 ≤ o.maxit → (1 + q) * q ^ k * d0 + 2 * (κ * δ / (1 - q)) ≤ o.tol →
      r.iterations ≤ k + 1 ∧ r.err ≤ o.tol := by
  intro q κ
  have hμ := hO.pos
  have hq0 : 0 ≤ q := div_nonneg hℓ hμ.le
  have hq1 : q < 1 := (div_lt_one hμ).2 hq
  have hκ : 0 ≤ κ := div_nonneg (le_trans zero_le_one (le_max_left _ _)) hμ.le
  have hκδ : 0 ≤ κ * δ := mul_nonneg hκ hδ
  have h1q : 0 < 1 - q := by linarith
  set B := κ * δ / (1 - q) with hB
  have hB0 : 0 ≤ B := div_nonneg hκδ h1q.le
  have hBeq : κ * δ + q * B = B := by
    rw [hB]; field_simp; ring
  obtain ⟨b, r', hb1, hb2, hr', rfl⟩ := full_ok M S o hub t0 h0 r hr
  have hu := update_accurate M S _ D δ hS b hb1 hb2
  have hD0 : Inside M D (ofRows M.N (toRows M.N t0)) :=
    inside_congr (fun i hi n hn => (ofRows_toRows M.N t0 i n hn).symm) hD
  have hin := iterate_inside M _ D δ (tiUpdate M S b) hu _ hD0
  set X : ℕ → ℕ → ℕ → ℝ := fun t => (tiUpdate M S b)^[t] (toRows M.N t0) with hX
  have hXs : ∀ t, X (t + 1) = tiUpdate M S b (X t) := fun t => Function.iterate_succ_apply' _ _ _
  have hbound : ∀ t, Within M (q ^ t * d0 + B) (ofRows M.N (X t)) xs := by
    intro t
    induction t with
    | zero =>
      intro i hi n hn k hk
      have h1 : ofRows M.N (X 0) i n = t0 i n := ofRows_toRows M.N t0 i n hn
      rw [h1]
      have := hw i hi n hn k hk
      simp only [pow_zero, one_mul]
      linarith
    | succ t ih =>
      have hd : 0 ≤ q ^ t * d0 + B := add_nonneg (mul_nonneg (pow_nonneg hq0 t) hd0) hB0
      have := step_within M _ D μ L ℓ δ hO hF hδ xs hxs he (X t) (X (t + 1)) _ hd (hin t) ih
        (by rw [hXs]; exact hu _ (hin t))
      intro i hi n hn k hk
      refine le_trans (this i hi n hn k hk) (le_of_eq ?_)
      have e : κ * δ + q * (q ^ t * d0 + B) = q ^ (t + 1) * d0 + (κ * δ + q * B) := by ring
      rw [← hBeq]
      show κ * δ + q * (q ^ t * d0 + (κ * δ + q * B)) = q ^ (t + 1) * d0 + (κ * δ + q * B)
      rw [hBeq, e, hBeq]
  obtain ⟨h1, h2, h3, h4, -, h6, h7⟩ := C28_time_iteration _ _ _ _ _ _ hr'
  have hdist : ∀ t, (maxAbs (M.dp.nNodes * M.N) M.nx fun r k => X (t + 1) r k - X t r k)
      ≤ (1 + q) * q ^ t * d0 + 2 * B := by
    intro t
    have hn0 : 0 ≤ (1 + q) * q ^ t * d0 + 2 * B :=
      add_nonneg (mul_nonneg (mul_nonneg (by linarith) (pow_nonneg hq0 t)) hd0) (by linarith)
    refine (rows_dist M _ _ _ hn0).2 ?_
    intro i hi n hn k hk
    have a1 := hbound (t + 1) i hi n hn k hk
    have a2 := hbound t i hi n hn k hk
    have a3 := abs_sub_le (ofRows M.N (X (t + 1)) i n k) (xs i n k) (ofRows M.N (X t) i n k)
    rw [abs_sub_comm (xs i n k)] at a3
    have : (1 + q) * q ^ t * d0 + 2 * B = (q ^ (t + 1) * d0 + B) + (q ^ t * d0 + B) := by ring
    linarith
  refine ⟨?_, ?_, ?_⟩
  · -- a posteriori
    obtain ⟨it, hit⟩ : ∃ it, r'.iterations = it + 1 := ⟨r'.iterations - 1, by omega⟩
    have hc : r'.controls = X (it + 1) := by rw [h3, hit]
    have herr : r'.err = maxAbs (M.dp.nNodes * M.N) M.nx fun r k => X (it + 1) r k - X it r k := by
      rw [h4, hit]; rfl
    have herr0 : 0 ≤ r'.err := by rw [herr]; exact maxAbs_nonneg _ _ _
    have hWe := (rows_dist M (X (it + 1)) (X it) r'.err herr0).1 (le_of_eq herr.symm)
    set E := maxAbs (M.dp.nNodes * M.N) M.nx fun r k => X (it + 1) r k - toRows M.N xs r k with hE
    have hE0 : 0 ≤ E := maxAbs_nonneg _ _ _
    have hWE : Within M E (ofRows M.N (X (it + 1))) xs := by
      have := (rows_dist M (X (it + 1)) (toRows M.N xs) E hE0).1 (le_refl _)
      intro i hi n hn k hk
      have h' := this i hi n hn k hk
      rwa [ofRows_toRows _ _ _ _ hn] at h'
    have hWo : Within M (E + r'.err) (ofRows M.N (X it)) xs := by
      intro i hi n hn k hk
      have a1 := hWE i hi n hn k hk
      have a2 := hWe i hi n hn k hk
      rw [abs_sub_comm] at a2
      have a3 := abs_sub_le (ofRows M.N (X it) i n k) (ofRows M.N (X (it + 1)) i n k) (xs i n k)
      linarith
    have hs := step_within M _ D μ L ℓ δ hO hF hδ xs hxs he (X it) (X (it + 1)) _ (add_nonneg hE0 herr0) (hin it) hWo
      (by rw [hXs]; exact hu _ (hin it))
    have hpos : 0 ≤ κ * δ + q * (E + r'.err) := add_nonneg hκδ (mul_nonneg hq0 (add_nonneg hE0 herr0))
    have hEle : E ≤ κ * δ + q * (E + r'.err) := by
      refine (rows_dist M (X (it + 1)) (toRows M.N xs) _ hpos).2 ?_
      intro i hi n hn k hk
      rw [ofRows_toRows _ _ _ _ hn]
      exact hs i hi n hn k hk
    have hfin : E ≤ (κ * δ + q * r'.err) / (1 - q) := by
      rw [le_div_iff₀ h1q]; linarith
    intro i hi n hn k hk
    show |ofRows M.N r'.controls i n k - xs i n k| ≤ _
    rw [hc]
    exact le_trans (hWE i hi n hn k hk) hfin
  · intro i hi n hn k hk
    show |ofRows M.N r'.controls i n k - xs i n k| ≤ _
    rw [h3]
    exact hbound r'.iterations i hi n hn k hk
  · intro k hk htol
    have hit : r'.iterations ≤ k + 1 := by
      by_contra hc
      have := h6 (k + 1) (by omega) (by omega)
      simp only [Nat.add_sub_cancel] at this
      exact absurd (le_trans (hdist k) htol) (not_le.2 this)
    refine ⟨hit, ?_⟩
    rcases Nat.lt_or_ge r'.iterations (k + 1) with h | h
    · exact h7 (by omega)
    · have e : r'.iterations = k + 1 := le_antisymm hit h
      show r'.err ≤ o.tol
      rw [h4, e]
      exact le_trans (hdist k) htol

private theorem trace_get (M : TIModel ℝ) (u : (ℕ → ℕ → ℝ) → ℕ → ℕ → ℝ) (n : ℕ) (x : ℕ → ℕ → ℝ) :
    (tiTrace M u n x).length = n ∧ ∀ t < n, (tiTrace M u n x)[t]? = some (ofRows M.N (u^[t] x)) := by
  induction n generalizing x with
  | zero => exact ⟨rfl, fun t ht => by omega⟩
  | succ n ih =>
    obtain ⟨h1, h2⟩ := ih (u x)
    refine ⟨by simp [tiTrace, h1], ?_⟩
    intro t ht
    cases t with
    | zero => rfl
    | succ t => simpa [tiTrace] using h2 t (by omega)

/-- **C110, the trace.**  With `trace=True` the trace starts with the initial guess, ends with the rule returned, has one
rule more than there were iterations, and each rule solves the problem against its predecessor. -/
theorem C110_trace (M : TIModel ℝ) (S : TISolvers ℝ) (o : TIOpts ℝ) (hub : M.lb.isSome → M.ub.isSome)
    (D : ℕ → ℕ → (ℕ → ℝ) → Prop) (δ : ℝ) (hS : SolverOK M S (imposed M o) D δ)
    (t0 : Table ℝ) (h0 : tiInit M o = .ok t0) (hD : Inside M D t0) (ht : o.trace = true)
    (r : TIFullResult ℝ) (hr : timeIterationFull M S o = .ok r) :
    ∃ l, r.trace = some l ∧ l.length = r.iterations + 1 ∧ l[r.iterations]? = some r.dr ∧
      (∃ a, l[0]? = some a ∧ ∀ i, ∀ n < M.N, a i n = t0 i n) ∧
      ∀ t < r.iterations, ∃ a z, l[t]? = some a ∧ l[t + 1]? = some (ofRows M.N z) ∧
        Accurate M (imposed M o) D δ a z := by
  obtain ⟨b, r', hb1, hb2, hr', rfl⟩ := full_ok M S o hub t0 h0 r hr
  have hu := update_accurate M S _ D δ hS b hb1 hb2
  have hD0 : Inside M D (ofRows M.N (toRows M.N t0)) :=
    inside_congr (fun i hi n hn => (ofRows_toRows M.N t0 i n hn).symm) hD
  have hin := iterate_inside M _ D δ (tiUpdate M S b) hu _ hD0
  obtain ⟨h1, -, h3, -, -, -, -⟩ := C28_time_iteration _ _ _ _ _ _ hr'
  obtain ⟨hl, hg⟩ := trace_get M (tiUpdate M S b) r'.iterations (toRows M.N t0)
  set l := tiTrace M (tiUpdate M S b) r'.iterations (toRows M.N t0) with hldef
  have hall : ∀ t ≤ r'.iterations,
      (l ++ [ofRows M.N r'.controls])[t]? = some (ofRows M.N ((tiUpdate M S b)^[t] (toRows M.N t0))) := by
    intro t ht'
    rcases Nat.lt_or_ge t r'.iterations with h | h
    · rw [List.getElem?_append_left (by omega), hg t h]
    · have e : t = r'.iterations := le_antisymm ht' h
      subst e
      rw [List.getElem?_append_right (by omega), hl, h3]
      simp
  refine ⟨l ++ [ofRows M.N r'.controls], by simp [ht], by simp [hl], ?_, ?_, ?_⟩
  · simp only []
    rw [hall _ (le_refl _), h3]
  · exact ⟨_, hall 0 (by omega), fun i n hn => ofRows_toRows M.N t0 i n hn⟩
  · intro t htt
    simp only [] at htt
    refine ⟨_, _, hall t (by omega), hall (t + 1) (by omega), ?_⟩
    rw [Function.iterate_succ_apply']
    exact hu _ (hin t)

/-- A model with one control, the equation `x - X / 2 - 1 ⟂ x ≤ 1`, where `X` is the future control. -/
noncomputable def tiExample : TIModel ℝ where
  N := 1
  s := fun _ _ => 0
  nx := 1
  x0 := fun _ => 0
  dp := ⟨1, fun _ => 1, fun _ _ => 0, fun _ _ _ => 0, fun _ _ => 1⟩
  f := fun _ _ x _ _ X k => x k - X k / 2 - 1
  g := fun _ _ _ _ => 0
  lb := some fun _ _ _ => none
  ub := some fun _ _ _ => some 1
  interp := fun v _ _ _ k => v 0 0 k

/-- Exact solvers for the example. -/
noncomputable def tiExampleSolvers : TISolvers ℝ where
  newton fn _ := fun r k => - fn 0 r k
  ncpsolve fn _ ub _ := fun r k => min ((ub r k).getD 0) (- fn 0 r k)

/-- The hypotheses of `C110_convergence` hold in the example, with the equilibrium `x = 1` on the bound. -/
example : OwnControls tiExample (fun _ _ _ => True) 1 1 ∧ FutureLipschitz tiExample (fun _ _ _ => True) (1 / 2) ∧
    imposed tiExample { tol := 1 / 100 } = true ∧ SolverOK tiExample tiExampleSolvers true (fun _ _ _ => True) 0 ∧
    Equilibrium tiExample true (fun _ _ _ => 1) := by
  have hres : ∀ i n y v k, eulerResidual tiExample i n y v k = y k - v 0 0 k / 2 - 1 := by
    intro i n y v k
    simp [eulerResidual, tiExample]
  refine ⟨⟨one_pos, ?_, ?_⟩, ?_, rfl, ?_, ?_⟩
  · intro v _ i _ n _ y z _ _ l hl
    refine ⟨l, hl, ?_⟩
    rw [hres, hres]
    apply le_of_eq; ring
  · intro v _ i _ n _ y z _ _ c _ hc k hk
    rw [hres, hres]
    have := hc k hk
    have e : y k - v 0 0 k / 2 - 1 - (z k - v 0 0 k / 2 - 1) = y k - z k := by ring
    rw [e]; linarith
  · intro v v' c _ _ _ hw i hi n hn y _ k hk
    have h := hw 0 (by simp [tiExample]) 0 (by simp [tiExample]) k hk
    rw [hres, hres]
    have e : y k - v 0 0 k / 2 - 1 - (y k - v' 0 0 k / 2 - 1) = -(1 / 2 * (v 0 0 k - v' 0 0 k)) := by ring
    rw [e, abs_neg, abs_mul, abs_of_pos (by norm_num : (0 : ℝ) < 1 / 2)]
    linarith
  · show ∀ v, Inside tiExample _ v → _
    intro v _ fn lb ub x hfn _ hu i hi n hn
    refine ⟨trivial, ?_⟩
    intro k hk
    have h1 := hu i hi n hn k hk
    have h2 := hfn 0 i hi n hn k hk
    have e1 : upperAt tiExample true i n k = some 1 := rfl
    have e2 : lowerAt tiExample true i n k = none := rfl
    rw [e1] at h1
    rw [hres] at h2
    rw [hres, e1, e2]
    simp only [tiExampleSolvers, naturalResidual, h1, h2, Option.getD_some]
    have h3 : ∀ a : ℝ, max (min 1 (-(0 - a / 2 - 1)) - a / 2 - 1) (min 1 (-(0 - a / 2 - 1)) - 1) = 0 := by
      intro a
      rcases le_total 1 (-(0 - a / 2 - 1)) with h | h
      · rw [min_eq_left h, max_eq_right (by linarith)]; ring
      · rw [min_eq_right h, max_eq_left (by linarith)]; ring
    rw [abs_nonpos_iff]
    exact h3 _
  · intro i _ n _ k _
    rw [hres]
    have e1 : upperAt tiExample true i n k = some 1 := rfl
    have e2 : lowerAt tiExample true i n k = none := rfl
    rw [e1, e2]
    refine ⟨by simp, by simp, fun h => ?_, fun _ => rfl⟩
    norm_num at h

/-- **C110, the process.**  Without the argument `dprocess`, the result is the one of the other theorems, and the nodes
of the exogenous grid of the rule are those of the process with which it was computed. -/
theorem C110_process_partial (M : TIModel ℝ) (S : TISolvers ℝ) (o : TIOpts ℝ) (c : TICall ℝ)
    (h : timeIterationCall M S o none = .ok c) :
    timeIterationFull M S o = .ok c.result ∧ c.exoNodes = c.dprocess.nNodes ∧
      ∀ i < c.dprocess.nNodes, c.exoGrid i = c.dprocess.node i := by
  unfold timeIterationCall at h
  cases hr : timeIterationFull M S o with
  | error e =>
    simp only [Option.getD_none, bind, Except.bind] at h
    rw [hr] at h
    simp at h
  | ok r =>
    simp only [Option.getD_none, bind, Except.bind] at h
    rw [hr] at h
    simp only [Except.ok.injEq] at h
    subst h
    exact ⟨rfl, rfl, fun _ _ => rfl⟩

/-- With a process given by the user this fails: the rule is computed at the two nodes of the process, its exogenous grid
has one node. -/
theorem C110_process_fails :
    ∃ (M : TIModel ℝ) (S : TISolvers ℝ) (o : TIOpts ℝ) (dp : DProc ℝ) (c : TICall ℝ),
      timeIterationCall M S o (some dp) = .ok c ∧ c.dprocess = dp ∧ c.exoNodes ≠ dp.nNodes := by
  let dp : DProc ℝ := ⟨2, fun _ => 1, fun i _ => i, fun i _ _ => i, fun _ _ => 1⟩
  obtain ⟨r, hr, -⟩ := C110_returns { tiExample with dp := dp } tiExampleSolvers { tol := 1 / 100 } (fun _ => rfl)
    (fun _ _ _ => 0) rfl (by norm_num) (by norm_num)
  refine ⟨tiExample, tiExampleSolvers, { tol := 1 / 100 }, dp, ⟨r, dp, 1, fun _ _ => 0⟩, ?_, rfl, ?_⟩
  · unfold timeIterationCall
    simp only [Option.getD_some, bind, Except.bind]
    rw [hr]
    rfl
  · show (1 : ℕ) ≠ 2
    norm_num

end Dolo
