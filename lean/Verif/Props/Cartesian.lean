import Mathlib.Algebra.Order.Field.Basic
import Mathlib.Tactic.FieldSimp
import Mathlib.Tactic.NormNum
import Mathlib.Tactic.Positivity
import Mathlib.Algebra.Order.Ring.Rat
import Verif.Lemmas.Cartesian

/-!
# C01, C02, C03, C04: Cartesian products and grids

Specification vocabulary used by the statements below:

* `ValidIdx sizes idx`: `idx` has one entry per axis, each below the axis' size;
* `flatIndex sizes idx`: the row-major position `((i₁ * n₂ + i₂) * n₃ + …) + i_d`;
* `IsProduct r₁ r₂ r`: `r` lists all concatenations of a row of `r₁` with a row of `r₂`, the row of
  `r₂` varying fastest.
-/

set_option linter.unusedSectionVars false

namespace Dolo

variable {α : Type _}

/-- One index per axis, each in range. -/
def ValidIdx (sizes idx : List ℕ) : Prop := List.Forall₂ (fun n i => i < n) sizes idx

/-- Row-major (C order) position of a multi-index, by Horner's rule. -/
def flatIndex (sizes idx : List ℕ) : ℕ :=
  (List.zip sizes idx).foldl (fun acc p => acc * p.1 + p.2) 0

/-- `rows` enumerates the Cartesian product of `axes` in row-major order: it has
`∏ len(axis)` rows, and the row at the flat position of a valid multi-index `(i₁, …, i_d)` is
`(axes₁[i₁], …, axes_d[i_d])`. -/
def EnumeratesProduct (axes rows : List (List α)) : Prop :=
  rows.length = (axes.map List.length).prod ∧
  ∀ idx : List ℕ, ValidIdx (axes.map List.length) idx →
    ∃ row : List α, rows[flatIndex (axes.map List.length) idx]? = some row ∧
      row.length = axes.length ∧
      ∀ (k : ℕ) (a : List α) (i : ℕ), axes[k]? = some a → idx[k]? = some i → row[k]? = a[i]?

/-! ### helper facts about the specification itself -/

private theorem foldl_horner (l : List (ℕ × ℕ)) (c : ℕ) :
    l.foldl (fun acc p => acc * p.1 + p.2) c
      = c * (l.map Prod.fst).prod + l.foldl (fun acc p => acc * p.1 + p.2) 0 := by
  induction l generalizing c with
  | nil => simp
  | cons p l ih =>
    simp only [List.foldl_cons, List.map_cons, List.prod_cons]
    rw [ih (c * p.1 + p.2), ih (0 * p.1 + p.2)]
    ring

private theorem map_fst_zip_of_valid {sizes idx : List ℕ} (h : ValidIdx sizes idx) :
    (List.zip sizes idx).map Prod.fst = sizes := by
  induction h with
  | nil => rfl
  | cons _ _ ih => simp [ih]

theorem flatIndex_cons {n i : ℕ} {sizes idx : List ℕ} (h : ValidIdx sizes idx) :
    flatIndex (n :: sizes) (i :: idx) = i * sizes.prod + flatIndex sizes idx := by
  unfold flatIndex
  rw [List.zip_cons_cons, List.foldl_cons, foldl_horner, map_fst_zip_of_valid h]
  simp

theorem flatIndex_lt {sizes idx : List ℕ} (h : ValidIdx sizes idx) :
    flatIndex sizes idx < sizes.prod := by
  induction h with
  | nil => simp [flatIndex]
  | @cons n i sizes idx hi h ih =>
    rw [flatIndex_cons h, List.prod_cons]
    calc i * sizes.prod + flatIndex sizes idx < i * sizes.prod + sizes.prod := by omega
      _ = (i + 1) * sizes.prod := by ring
      _ ≤ n * sizes.prod := Nat.mul_le_mul_right _ hi

/-- Every position of the enumeration is the flat index of exactly one valid multi-index: with
`EnumeratesProduct` this says that every combination is listed exactly once. -/
theorem flatIndex_bijective (sizes : List ℕ) (r : ℕ) (hr : r < sizes.prod) :
    ∃! idx, ValidIdx sizes idx ∧ flatIndex sizes idx = r := by
  induction sizes generalizing r with
  | nil =>
    refine ⟨[], ⟨List.Forall₂.nil, ?_⟩, ?_⟩
    · simp at hr; simp [flatIndex, hr]
    · rintro idx ⟨h, _⟩
      cases h; rfl
  | cons n sizes ih =>
    rw [List.prod_cons] at hr
    have hpos : 0 < sizes.prod := by
      rcases Nat.eq_zero_or_pos sizes.prod with h | h
      · rw [h] at hr; omega
      · exact h
    obtain ⟨idx, ⟨hv, hf⟩, huniq⟩ := ih (r % sizes.prod) (Nat.mod_lt _ hpos)
    refine ⟨(r / sizes.prod) :: idx, ⟨?_, ?_⟩, ?_⟩
    · exact List.Forall₂.cons ((Nat.div_lt_iff_lt_mul hpos).2 hr) hv
    · rw [flatIndex_cons hv, hf, Nat.mul_comm]
      exact Nat.div_add_mod _ _
    · rintro idx' ⟨hv', hf'⟩
      cases hv' with
      | @cons _ i _ t hi ht =>
        rw [flatIndex_cons ht] at hf'
        have hlt := flatIndex_lt ht
        have hdiv : r / sizes.prod = i := by
          rw [← hf', Nat.mul_comm, Nat.mul_add_div hpos, Nat.div_eq_of_lt hlt]; simp
        have hmod : r % sizes.prod = flatIndex sizes t := by
          rw [← hf', Nat.mul_comm, Nat.mul_add_mod, Nat.mod_eq_of_lt hlt]
        rw [hdiv, huniq t ⟨ht, hmod.symm⟩]

theorem prodRows_enumerates (axes : List (List α)) :
    EnumeratesProduct axes (prodRows axes) := by
  refine ⟨length_prodRows axes, ?_⟩
  induction axes with
  | nil =>
    intro idx h
    cases h
    exact ⟨[], by simp [flatIndex], rfl, by simp⟩
  | cons a r ih =>
    intro idx h
    simp only [List.map_cons] at h
    cases h with
    | @cons _ i _ t hi ht =>
      obtain ⟨row, hrow, hlen, hent⟩ := ih t ht
      have hmem : ∀ x ∈ a, ((prodRows r).map fun t => x :: t).length
          = (r.map List.length).prod := by
        intro x _; rw [List.length_map, length_prodRows]
      refine ⟨a[i] :: row, ?_, by simp [hlen], ?_⟩
      · rw [List.map_cons, flatIndex_cons ht, prodRows_cons,
          getElem?_flatMap_block a _ _ i _ hmem (flatIndex_lt ht)]
        simp [List.getElem?_eq_getElem hi, hrow]
      · intro k b j hk hj
        cases k with
        | zero =>
          simp only [List.getElem?_cons_zero, Option.some.injEq] at hk hj
          subst hk hj
          simp [List.getElem?_eq_getElem hi]
        | succ k =>
          simp only [List.getElem?_cons_succ] at hk hj ⊢
          exact hent k b j hk hj

/-! ### C01 -/

/-- **C01.**  On arrays of one dtype, `cartesian` enumerates the product in row-major order (and
raises `IndexError` exactly for an empty list of arrays). -/
theorem C01_cartesian_enumerates (arrays : List (List α)) (h : arrays ≠ []) :
    ∃ rows, cartesian arrays = .ok rows ∧ EnumeratesProduct arrays rows := by
  cases arrays with
  | nil => exact absurd rfl h
  | cons a r => exact ⟨_, cartesian_cons a r, prodRows_enumerates _⟩

theorem C01_cartesian_empty : cartesian ([] : List (List α)) = .error .indexError := rfl

/-- Consequence in plain words: each row is a choice of one entry per array, and each choice of
positions is found at exactly one row. -/
theorem C01_cartesian_each_once (arrays rows : List (List α)) (h : cartesian arrays = .ok rows) :
    ∀ r, r < rows.length → ∃! idx, ValidIdx (arrays.map List.length) idx ∧
      flatIndex (arrays.map List.length) idx = r := by
  intro r hr
  cases arrays with
  | nil => cases h
  | cons a rest =>
    rw [cartesian_cons] at h
    cases h
    rw [length_prodRows] at hr
    exact flatIndex_bijective _ r hr

/-- **C01, with dtypes.**  `cartesian` on numpy arrays of possibly different dtypes enumerates the
product when every value survives being stored in the dtype of the *first* array.  (The full
statement, without the hypothesis `hcast`, is false: `C01_mixed_dtype_fails`.) -/
theorem C01_cartesianND_partial (a : NArr) (rest : List NArr)
    (hcast : ∀ b ∈ a :: rest, ∀ q ∈ b.data, a.dtype.cast q = q) :
    ∃ rows, cartesianND (a :: rest) = .ok rows ∧
      EnumeratesProduct ((a :: rest).map NArr.data) rows := by
  refine ⟨_, rfl, ?_⟩
  rw [List.map_cons, cartesianCore_eq_prodRows]
  have : ((a.data :: rest.map NArr.data).map fun l => l.map a.dtype.cast)
      = a.data :: rest.map NArr.data := by
    conv_rhs => rw [← List.map_id (a.data :: rest.map NArr.data)]
    apply List.map_congr_left
    intro l hl
    have hl' : ∃ b ∈ a :: rest, b.data = l := by
      simpa [eq_comm] using hl
    obtain ⟨b, hb, rfl⟩ := hl'
    conv_rhs => rw [id, ← List.map_id b.data]
    exact List.map_congr_left fun q hq => hcast b hb q hq
  rw [this]
  exact prodRows_enumerates _

/-- Float first: no hypothesis on the other arrays is needed. -/
theorem C01_cartesianND_float (a : NArr) (rest : List NArr) (hf : a.dtype = .float) :
    ∃ rows, cartesianND (a :: rest) = .ok rows ∧
      EnumeratesProduct ((a :: rest).map NArr.data) rows :=
  C01_cartesianND_partial a rest fun _ _ _ _ => by rw [hf]; rfl

/-- The code violates the property when an integer array comes first: the fractional values of later
arrays are truncated, so `cartesian([[1,2],[0.5]])` returns `[[1,0],[2,0]]`. -/
theorem C01_mixed_dtype_fails :
    ∃ arrays : List NArr, arrays ≠ [] ∧ ∃ rows, cartesianND arrays = .ok rows ∧
      ¬ EnumeratesProduct (arrays.map NArr.data) rows := by
  refine ⟨[⟨.int, [1, 2]⟩, ⟨.float, [1 / 2]⟩], by simp, _, rfl, ?_⟩
  rintro ⟨_, h⟩
  obtain ⟨row, hrow, _, hent⟩ := h [0, 0] (by
    refine List.Forall₂.cons (by simp) (List.Forall₂.cons (by simp) List.Forall₂.nil))
  have h1 := hent 1 [1 / 2] 0 rfl rfl
  rw [List.map_cons, cartesianCore_eq_prodRows] at hrow
  simp [flatIndex] at hrow
  subst hrow
  simp only [DType.cast, List.getElem?_cons_succ, List.getElem?_cons_zero] at h1
  norm_num at h1

example : cartesian [[1, 2, 3], [4, 5]] =
    .ok [[1, 4], [1, 5], [2, 4], [2, 5], [3, 4], [3, 5]] := by rfl

example : ValidIdx [3, 2] [2, 1] ∧ flatIndex [3, 2] [2, 1] = 5 := by
  refine ⟨List.Forall₂.cons (by norm_num) (List.Forall₂.cons (by norm_num) List.Forall₂.nil), rfl⟩

/-! ### C02 -/

section Uniform

variable {K : Type _} [Field K] [LinearOrder K] [IsStrictOrderedRing K]

/-- The `i`-th of `n` equally spaced points of `[a, b]`, ends included. -/
def spaced (a b : K) (n i : ℕ) : K := a + (i : K) * ((b - a) / ((n : K) - 1))

private theorem length_linspace (a b : K) (n : ℕ) : (linspace a b n).length = n := by
  simp [linspace]

private theorem linspace_getElem? (a b : K) (n i : ℕ) (hn : 2 ≤ n) (hi : i < n) :
    (linspace a b n)[i]? = some (spaced a b n i) := by
  have h : ¬ n ≤ 1 := by omega
  simp only [linspace, List.getElem?_map, List.getElem?_range hi, Option.map_some, h, if_false,
    spaced]

/-- `axes` holds one `linspace` per coordinate. -/
private theorem linspaces_ok : ∀ (a b : List K) (n : List ℕ), a.length = b.length →
    a.length = n.length → ∃ sl, linspaces a b n = .ok sl ∧ sl.map List.length = n ∧
      sl.length = n.length ∧
      ∀ (k : ℕ) (x y : K) (m : ℕ), a[k]? = some x → b[k]? = some y → n[k]? = some m →
        sl[k]? = some (linspace x y m)
  | [], b, n, h1, h2 => by
    have : n = [] := by cases n with
      | nil => rfl
      | cons => simp at h2
    subst this
    exact ⟨[], rfl, rfl, rfl, by simp⟩
  | a0 :: as, [], _, h1, _ => by simp at h1
  | a0 :: as, _ :: _, [], _, h2 => by simp at h2
  | a0 :: as, b0 :: bs, n0 :: ns, h1, h2 => by
    obtain ⟨sl, hsl, hlen, hl', hk⟩ := linspaces_ok as bs ns (by simpa using h1) (by simpa using h2)
    refine ⟨linspace a0 b0 n0 :: sl, ?_, ?_, by simp [hl'], ?_⟩
    · simp [linspaces, hsl, bind, Except.bind, pure, Except.pure]
    · simp [hlen, length_linspace]
    · intro k x y m hx hy hm
      cases k with
      | zero => simp_all
      | succ k => simp only [List.getElem?_cons_succ] at hx hy hm ⊢; exact hk k x y m hx hy hm

/-- **C02, positions.**  A uniform grid has `∏ n_k` nodes; the node at the row-major position of
`(i_1, …, i_d)` has `k`-th coordinate `min_k + i_k (max_k - min_k) / (n_k - 1)`. -/
theorem C02_uniform_grid_nodes (min max : List K) (n : List ℕ)
    (hd : n ≠ []) (h1 : min.length = max.length) (h2 : min.length = n.length)
    (hn : ∀ m ∈ n, 2 ≤ m) :
    ∃ g, UniformGrid.mk' min max n = .ok g ∧ g.min = min ∧ g.max = max ∧ g.n = n ∧
      g.nodes.length = n.prod ∧
      ∀ idx, ValidIdx n idx → ∃ row : List K, g.nodes[flatIndex n idx]? = some row ∧
        row.length = n.length ∧
        ∀ (k : ℕ) (a b : K) (m i : ℕ), min[k]? = some a → max[k]? = some b → n[k]? = some m →
          idx[k]? = some i → row[k]? = some (spaced a b m i) := by
  obtain ⟨sl, hsl, hlen, hl', hk⟩ := linspaces_ok min max n h1 h2
  have hne : sl ≠ [] := by
    rintro rfl; exact hd (List.length_eq_zero_iff.1 hl'.symm)
  obtain ⟨rows, hrows, hlenrows, henum⟩ := C01_cartesian_enumerates sl hne
  have hn0 : ¬ n.length = 0 := by simpa using hd
  refine ⟨⟨min, max, n, rows⟩, ?_, rfl, rfl, rfl, ?_, ?_⟩
  · simp [UniformGrid.mk', hd, mlinspace, hsl, bind, Except.bind, hrows, pure, Except.pure]
  · simpa [hlen] using hlenrows
  · intro idx hidx
    rw [hlen] at henum
    obtain ⟨row, hrow, hrl, hent⟩ := henum idx hidx
    refine ⟨row, hrow, by rw [hrl, hl'], ?_⟩
    intro k a b m i ha hb hm hi
    rw [hent k _ i (hk k a b m ha hb hm) hi]
    refine linspace_getElem? a b m i (hn m (List.mem_of_getElem? hm)) ?_
    have := List.forall₂_iff_get.1 hidx
    obtain ⟨hkn, hkn'⟩ := List.getElem?_eq_some_iff.1 hm
    obtain ⟨hki, hki'⟩ := List.getElem?_eq_some_iff.1 hi
    have h := this.2 k hkn hki
    simp only [List.get_eq_getElem] at h
    omega

/-- **C02, shape of the spacing.**  First point, last point, constant step, containment. -/
theorem C02_spacing (a b : K) (n : ℕ) (hn : 2 ≤ n) :
    spaced a b n 0 = a ∧ spaced a b n (n - 1) = b ∧
    (∀ i, spaced a b n (i + 1) - spaced a b n i = (b - a) / ((n : K) - 1)) ∧
    (a ≤ b → ∀ i, i < n → a ≤ spaced a b n i ∧ spaced a b n i ≤ b) := by
  have hn1 : (0 : K) < (n : K) - 1 := by
    have : (2 : K) ≤ (n : K) := by exact_mod_cast hn
    linarith
  refine ⟨by simp [spaced], ?_, ?_, ?_⟩
  · rw [spaced, Nat.cast_sub (by omega), Nat.cast_one, mul_div_cancel₀ _ hn1.ne']
    ring
  · intro i; simp [spaced]; ring
  · intro hab i hi
    have hi' : (i : K) ≤ (n : K) - 1 := by
      have : ((i + 1 : ℕ) : K) ≤ (n : K) := by exact_mod_cast hi
      push_cast at this; linarith
    have hstep : 0 ≤ (b - a) / ((n : K) - 1) := div_nonneg (by linarith) hn1.le
    constructor
    · have : 0 ≤ (i : K) * ((b - a) / ((n : K) - 1)) := mul_nonneg (by positivity) hstep
      simp only [spaced]; linarith
    · have h := mul_le_mul_of_nonneg_right hi' hstep
      rw [mul_div_cancel₀ _ hn1.ne'] at h
      simp only [spaced]; linarith

private theorem row_of_getElem? {m : ℕ} (row v : List K) (h1 : row.length = m) (h2 : v.length = m)
    (h : ∀ (k : ℕ) (x : K), v[k]? = some x → row[k]? = some x) : row = v := by
  apply List.ext_getElem (by omega)
  intro k hk hk'
  have := h k (v[k]) (List.getElem?_eq_getElem hk')
  rw [List.getElem?_eq_getElem hk] at this
  exact Option.some.inj this

/-- **C02, corners.**  The first node is `min`, the last node is `max`. -/
theorem C02_uniform_grid_corners (min max : List K) (n : List ℕ) (g : UniformGrid K)
    (hd : n ≠ []) (h1 : min.length = max.length) (h2 : min.length = n.length)
    (hn : ∀ m ∈ n, 2 ≤ m) (hg : UniformGrid.mk' min max n = .ok g) :
    g.nodes.head? = some min ∧ g.nodes.getLast? = some max := by
  obtain ⟨g', hg', -, -, -, hlen, hnodes⟩ := C02_uniform_grid_nodes min max n hd h1 h2 hn
  rw [hg] at hg'
  cases hg'
  constructor
  · have hv : ValidIdx n (List.replicate n.length 0) := by
      clear hnodes hlen hg h1 h2 hd
      induction n with
      | nil => exact List.Forall₂.nil
      | cons a n ih =>
        rw [List.length_cons, List.replicate_succ]
        exact List.Forall₂.cons (by have := hn a (by simp); omega)
          (ih fun m hm => hn m (by simp [hm]))
    have hf : flatIndex n (List.replicate n.length 0) = 0 := by
      clear hnodes hlen hg h1 h2 hd hn
      induction n with
      | nil => rfl
      | cons a n ih =>
        rw [List.length_cons, List.replicate_succ] at hv ⊢
        cases hv with
        | cons _ hv => rw [flatIndex_cons hv, ih hv]; simp
    obtain ⟨row, hrow, hrl, hent⟩ := hnodes _ hv
    rw [hf] at hrow
    rw [List.head?_eq_getElem?, hrow]
    congr 1
    refine row_of_getElem? row min hrl h2 fun k x hx => ?_
    obtain ⟨hk, -⟩ := List.getElem?_eq_some_iff.1 hx
    rw [hent k x (max[k]'(by omega)) (n[k]'(by omega)) 0 hx (List.getElem?_eq_getElem (by omega))
      (List.getElem?_eq_getElem (by omega)) (by
        simp only [List.getElem?_replicate]; rw [if_pos (by omega)])]
    rw [(C02_spacing x _ _ (hn _ (List.getElem_mem _))).1]
  · have hv : ValidIdx n (n.map (· - 1)) := by
      clear hnodes hlen hg h1 h2 hd
      induction n with
      | nil => exact List.Forall₂.nil
      | cons a n ih =>
        rw [List.map_cons]
        exact List.Forall₂.cons (by have := hn a (by simp); omega)
          (ih fun m hm => hn m (by simp [hm]))
    have hf : flatIndex n (n.map (· - 1)) + 1 = n.prod := by
      clear hnodes hlen hg h1 h2 hd
      induction n with
      | nil => rfl
      | cons a n ih =>
        rw [List.map_cons] at hv ⊢
        cases hv with
        | cons _ hv =>
          rw [flatIndex_cons hv, List.prod_cons]
          have := ih (fun m hm => hn m (by simp [hm])) hv
          obtain ⟨c, rfl⟩ : ∃ c, a = c + 1 := ⟨a - 1, by have := hn a (by simp); omega⟩
          rw [Nat.add_assoc, this]
          simp; ring
    obtain ⟨row, hrow, hrl, hent⟩ := hnodes _ hv
    rw [List.getLast?_eq_getElem?, hlen, show n.prod - 1 = flatIndex n (n.map (· - 1)) by omega, hrow]
    congr 1
    refine row_of_getElem? row max hrl (by omega) fun k x hx => ?_
    obtain ⟨hk, -⟩ := List.getElem?_eq_some_iff.1 hx
    rw [hent k (min[k]'(by omega)) x (n[k]'(by omega)) (n[k]'(by omega) - 1)
      (List.getElem?_eq_getElem (by omega)) hx
      (List.getElem?_eq_getElem (by omega)) (by
        simp [List.getElem?_map, List.getElem?_eq_getElem (show k < n.length by omega)])]
    rw [(C02_spacing _ x _ (hn _ (List.getElem_mem _))).2.1]

/-- **C02, containment.**  Every coordinate of every node lies between its bounds. -/
theorem C02_uniform_grid_inside (min max : List K) (n : List ℕ) (g : UniformGrid K)
    (hd : n ≠ []) (h1 : min.length = max.length) (h2 : min.length = n.length)
    (hn : ∀ m ∈ n, 2 ≤ m) (hmm : List.Forall₂ (· ≤ ·) min max)
    (hg : UniformGrid.mk' min max n = .ok g) :
    ∀ row ∈ g.nodes, row.length = min.length ∧
      ∀ (k : ℕ) (a b x : K), min[k]? = some a → max[k]? = some b → row[k]? = some x →
        a ≤ x ∧ x ≤ b := by
  obtain ⟨g', hg', -, -, -, hlen, hnodes⟩ := C02_uniform_grid_nodes min max n hd h1 h2 hn
  rw [hg] at hg'
  cases hg'
  intro row hrow
  obtain ⟨r, hr, hrr⟩ := List.mem_iff_getElem.1 hrow
  obtain ⟨idx, ⟨hv, hf⟩, -⟩ := flatIndex_bijective n r (by omega)
  obtain ⟨row', hrow', hrl, hent⟩ := hnodes idx hv
  rw [hf, List.getElem?_eq_getElem hr, hrr] at hrow'
  cases hrow'
  refine ⟨by omega, fun k a b x ha hb hx => ?_⟩
  obtain ⟨hk, ha'⟩ := List.getElem?_eq_some_iff.1 ha
  obtain ⟨hkb, hb'⟩ := List.getElem?_eq_some_iff.1 hb
  have hfl := List.forall₂_iff_get.1 hv
  have hki : k < idx.length := by rw [← hfl.1]; omega
  have hx' := hent k a b (n[k]'(by omega)) idx[k] ha hb (List.getElem?_eq_getElem (by omega))
    (List.getElem?_eq_getElem hki)
  rw [hx] at hx'
  cases hx'
  have hab : a ≤ b := by
    have := (List.forall₂_iff_get.1 hmm).2 k hk hkb
    simp only [List.get_eq_getElem] at this
    rwa [ha', hb'] at this
  have hlt := hfl.2 k (by omega) hki
  simp only [List.get_eq_getElem] at hlt
  exact (C02_spacing a b _ (hn _ (List.getElem_mem _))).2.2.2 hab _ hlt

/-- Fewer orders (or upper bounds) than lower bounds: the constructor raises `IndexError`. -/
theorem C02_too_few_orders (min max : List K) (n : List ℕ)
    (h : n.length < min.length ∨ max.length < min.length) :
    UniformGrid.mk' min max n = .error .indexError := by
  have key : ∀ (a b : List K) (n : List ℕ), (n.length < a.length ∨ b.length < a.length) →
      linspaces a b n = .error .indexError := by
    intro a
    induction a with
    | nil => intro b n h; simp at h
    | cons a0 as ih =>
      intro b n h
      cases b with
      | nil => rfl
      | cons b0 bs =>
        cases n with
        | nil => rfl
        | cons n0 ns =>
          have := ih bs ns (by simpa using h)
          simp [linspaces, this, bind, Except.bind]
  unfold UniformGrid.mk'
  split
  · rfl
  · simp [mlinspace, key min max n h, bind, Except.bind]

example : ∃ g, UniformGrid.mk' [0, 10] [(1 : ℚ), 20] [2, 3] = .ok g ∧
    g.nodes = [[0, 10], [0, 15], [0, 20], [1, 10], [1, 15], [1, 20]] := by
  refine ⟨_, rfl, ?_⟩
  norm_num [cartesianCore, linspace, npRepeat, List.range, List.range.loop,
    List.replicate]

/-! ### C03 -/

/-- What `g₁ + g₂` should be: the grid on the product box. -/
def IsConcat (g₁ g₂ g : UniformGrid K) : Prop :=
  UniformGrid.mk' (g₁.min ++ g₂.min) (g₁.max ++ g₂.max) (g₁.n ++ g₂.n) = .ok g

/-- **C03 (partial).**  Adding two uniform grids gives the grid on the product box when both grids
have the same bounds (e.g. `grid + grid`).  The full statement, for any two grids, is false:
`C03_uniform_add_fails`. -/
theorem C03_uniform_add_partial (g₁ g₂ : UniformGrid K) (hmin : g₂.min = g₁.min)
    (hmax : g₂.max = g₁.max) (g : UniformGrid K) (h : UniformGrid.add g₁ g₂ = .ok g) :
    IsConcat g₁ g₂ g := by
  unfold IsConcat
  rw [hmin, hmax]
  exact h

/-- The code drops the bounds of the second grid: for `g₁` on `[0,1]` and `g₂` on `[5,7]`, the result
is a grid on `[0,1]²`. -/
theorem C03_uniform_add_fails :
    ∃ g₁ g₂ g g' : UniformGrid ℚ, UniformGrid.mk' [0] [1] [2] = .ok g₁ ∧
      UniformGrid.mk' [5] [7] [3] = .ok g₂ ∧ UniformGrid.add g₁ g₂ = .ok g ∧
      IsConcat g₁ g₂ g' ∧ g.max = [1, 1] ∧ g'.max = [1, 7] ∧ ¬ IsConcat g₁ g₂ g := by
  refine ⟨_, _, _, _, rfl, rfl, rfl, rfl, rfl, rfl, ?_⟩
  intro h
  have := congrArg (Except.map UniformGrid.max) h
  simp [UniformGrid.mk', mlinspace, linspaces, bind, Except.bind, pure, Except.pure, cartesian,
    Except.map] at this

/-- In general the second grid only contributes its orders. -/
theorem C03_uniform_add_ignores_bounds (g₁ g₂ g₂' : UniformGrid K) (h : g₂.n = g₂'.n) :
    UniformGrid.add g₁ g₂ = UniformGrid.add g₁ g₂' := by
  simp [UniformGrid.add, h]

/-! ### C04 -/

/-- **C04.**  The sum of two non-uniform grids lists every concatenation of a node of the first with
a node of the second, the second varying fastest. -/
theorem C04_nonuniform_add (l₁ l₂ : List (List K)) (g₁ g₂ : NonUniformGrid K)
    (h₁ : NonUniformGrid.mk' l₁ = .ok g₁) (h₂ : NonUniformGrid.mk' l₂ = .ok g₂) :
    ∃ g, NonUniformGrid.add g₁ g₂ = .ok g ∧ g.listOfNodes = l₁ ++ l₂ ∧
      g.nodes.length = g₁.nodes.length * g₂.nodes.length ∧
      ∀ i j x y, g₁.nodes[i]? = some x → g₂.nodes[j]? = some y →
        g.nodes[i * g₂.nodes.length + j]? = some (x ++ y) := by
  have key : ∀ (l : List (List K)) g, NonUniformGrid.mk' l = .ok g →
      l ≠ [] ∧ l.any List.isEmpty = false ∧ g.listOfNodes = l ∧ g.nodes = prodRows l := by
    intro l g h
    unfold NonUniformGrid.mk' at h
    split at h
    · cases h
    · rename_i hne
      cases l with
      | nil => cases h
      | cons a r =>
        rw [cartesian_cons] at h
        simp only [bind, Except.bind, pure, Except.pure, Except.ok.injEq] at h
        subst h
        exact ⟨by simp, Bool.eq_false_iff.2 hne, rfl, rfl⟩
  obtain ⟨hne₁, he₁, hl₁, hn₁⟩ := key l₁ g₁ h₁
  obtain ⟨hne₂, he₂, hl₂, hn₂⟩ := key l₂ g₂ h₂
  have hlen : (prodRows (l₁ ++ l₂)).length = g₁.nodes.length * g₂.nodes.length := by
    rw [length_prodRows, hn₁, hn₂, length_prodRows, length_prodRows]
    simp
  refine ⟨⟨l₁ ++ l₂, prodRows (l₁ ++ l₂)⟩, ?_, rfl, hlen, ?_⟩
  · unfold NonUniformGrid.add NonUniformGrid.mk'
    rw [hl₁, hl₂, List.any_append, he₁, he₂]
    cases l₁ with
    | nil => exact absurd rfl hne₁
    | cons a r => 
      rw [List.cons_append, cartesian_cons]
      rfl
  · intro i j x y hi hj
    obtain ⟨hj', -⟩ := List.getElem?_eq_some_iff.1 hj
    simp only [prodRows_append]
    rw [getElem?_flatMap_block _ _ g₂.nodes.length i j (by intro z _; simp [hn₂]) hj', ← hn₁, hi]
    simp [← hn₂, hj]

/-- **C04, associativity** of `+` on non-uniform grids (including which error is raised). -/
theorem C04_nonuniform_add_assoc (l₁ l₂ l₃ : List (List K)) (g₁ g₂ g₃ : NonUniformGrid K)
    (h₁ : NonUniformGrid.mk' l₁ = .ok g₁) (h₂ : NonUniformGrid.mk' l₂ = .ok g₂)
    (h₃ : NonUniformGrid.mk' l₃ = .ok g₃) :
    ∃ g, (NonUniformGrid.add g₁ g₂ >>= fun a => NonUniformGrid.add a g₃) = .ok g ∧
      (NonUniformGrid.add g₂ g₃ >>= fun a => NonUniformGrid.add g₁ a) = .ok g := by
  obtain ⟨g₁₂, e₁₂, n₁₂, -⟩ := C04_nonuniform_add l₁ l₂ g₁ g₂ h₁ h₂
  obtain ⟨g₂₃, e₂₃, n₂₃, -⟩ := C04_nonuniform_add l₂ l₃ g₂ g₃ h₂ h₃
  have name : ∀ (l : List (List K)) g, NonUniformGrid.mk' l = .ok g → g.listOfNodes = l := by
    intro l g h
    unfold NonUniformGrid.mk' at h
    split at h
    · cases h
    · cases hc : cartesian l with
      | error e => rw [hc] at h; cases h
      | ok v => rw [hc] at h; cases h; rfl
  have f₁₂ : NonUniformGrid.mk' (l₁ ++ l₂) = .ok g₁₂ := by
    rw [← e₁₂, NonUniformGrid.add, name _ _ h₁, name _ _ h₂]
  obtain ⟨g, e, -⟩ := C04_nonuniform_add _ l₃ g₁₂ g₃ f₁₂ h₃
  refine ⟨g, ?_, ?_⟩
  · rw [e₁₂]; exact e
  · rw [e₂₃, ← e]
    show NonUniformGrid.add g₁ g₂₃ = _
    rw [NonUniformGrid.add, NonUniformGrid.add, n₁₂, n₂₃, name _ _ h₁, name _ _ h₃,
      List.append_assoc]

example : ∃ g₁ g₂ g : NonUniformGrid ℚ, NonUniformGrid.mk' [[1, 2]] = .ok g₁ ∧
    NonUniformGrid.mk' [[3, 7], [5]] = .ok g₂ ∧ NonUniformGrid.add g₁ g₂ = .ok g ∧
    g.nodes = [[1, 3, 5], [1, 7, 5], [2, 3, 5], [2, 7, 5]] :=
  ⟨_, _, _, rfl, rfl, rfl, rfl⟩

/-! ### C71 -/

/-- **C71.**  `domain.discretize(n)` is the uniform grid on the box of the domain, coordinate `k` being the
`k`-th variable of the domain: node number `flatIndex n idx` has as coordinate `k` the `idx k`-th of `n k`
equally spaced points between the `k`-th bounds, the first node is the lower corner and the last one the
upper corner.  By default there are ten points along each dimension. -/
theorem C71_domain_discretize (bounds : List (K × K)) (hb : bounds ≠ []) (n : Option (List ℕ))
    (ns : List ℕ) (hns : ns = match n with | none => bounds.map (fun _ => 10) | some l => l)
    (hl : bounds.length = ns.length) (hn : ∀ m ∈ ns, 2 ≤ m) :
    ∃ g, domainDiscretize bounds n = .ok g ∧ g.nodes.length = ns.prod ∧
      (∀ idx, ValidIdx ns idx → ∃ row : List K, g.nodes[flatIndex ns idx]? = some row ∧
        row.length = bounds.length ∧
        ∀ (k : ℕ) (a b : K) (m i : ℕ), bounds[k]? = some (a, b) → ns[k]? = some m →
          idx[k]? = some i → row[k]? = some (spaced a b m i)) ∧
      g.nodes.head? = some (bounds.map Prod.fst) ∧ g.nodes.getLast? = some (bounds.map Prod.snd) := by
  have e : domainDiscretize bounds n = UniformGrid.mk' (bounds.map Prod.fst) (bounds.map Prod.snd) ns := by
    unfold domainDiscretize
    rw [hns]
    cases n <;> simp [List.map_const']
  have hne : ns ≠ [] := by
    rintro rfl
    exact hb (List.length_eq_zero_iff.1 hl)
  obtain ⟨g, hg, -, -, -, hlen, hnodes⟩ := C02_uniform_grid_nodes (bounds.map Prod.fst)
    (bounds.map Prod.snd) ns hne (by simp) (by simpa using hl) hn
  have hc := C02_uniform_grid_corners (bounds.map Prod.fst) (bounds.map Prod.snd) ns g hne (by simp)
    (by simpa using hl) hn hg
  refine ⟨g, by rw [e, hg], hlen, ?_, hc⟩
  intro idx hidx
  obtain ⟨row, h1, h2, h3⟩ := hnodes idx hidx
  refine ⟨row, h1, by rw [h2, hl], ?_⟩
  intro k a b m i hk hm hi
  exact h3 k a b m i (by simp [hk]) (by simp [hk]) hm hi

example : ∃ g : UniformGrid ℚ, domainDiscretize [(0, 1), (2, 4)] (some [2, 3]) = .ok g ∧
    g.nodes = [[0, 2], [0, 3], [0, 4], [1, 2], [1, 3], [1, 4]] := by
  refine ⟨_, rfl, ?_⟩
  decide +kernel

end Uniform

end Dolo
