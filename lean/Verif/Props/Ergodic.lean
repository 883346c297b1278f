import Mathlib.Algebra.Order.Ring.Rat
import Mathlib.Data.Rat.Floor
import Mathlib.Algebra.Order.BigOperators.Group.Finset
import Mathlib.Algebra.BigOperators.Ring.Finset
import Mathlib.Algebra.BigOperators.Fin
import Mathlib.Algebra.BigOperators.Field
import Mathlib.Algebra.Order.BigOperators.Group.List
import Mathlib.Tactic.NormNum
import Mathlib.Tactic.Linarith
import Mathlib.Tactic.FieldSimp
import Mathlib.Tactic.LinearCombination
import Mathlib.Tactic.FinCases
import Verif.Model.Ergodic
import Verif.Lemmas.Cartesian

/-!
# C17, C18, C69: ergodic distributions
-/

set_option linter.unusedSectionVars false

namespace Dolo

variable {K : Type} [Field K] [LinearOrder K] [IsStrictOrderedRing K] [FloorRing K]

/-! ### Specification vocabulary -/

/-- `Σ_i c(i) A[i]`. -/
def weighted (c : ℕ → K) : List K → K
  | [] => 0
  | a :: r => c 0 * a + weighted (fun i => c (i + 1)) r

/-- `Σ_{i,j} c(i,j) A[i,j]`. -/
def weighted2 (c : ℕ → ℕ → K) : List (List K) → K
  | [] => 0
  | a :: r => weighted (c 0) a + weighted2 (fun i => c (i + 1)) r

/-- Position of node `i` of the uniform grid of `n` nodes over `[0,1]`. -/
def gridPos (n i : ℕ) : K := (i : K) / ((n : K) - 1)

private theorem weighted_modify (c : ℕ → K) (A : List K) (i : ℕ) (v : K) (h : i < A.length) :
    weighted c (A.modify i (· + v)) = weighted c A + c i * v := by
  induction A generalizing c i with
  | nil => simp at h
  | cons a r ih =>
    cases i with
    | zero => simp [weighted]; ring
    | succ i =>
      simp only [List.modify_succ_cons, weighted]
      rw [ih _ i (by simpa using h)]
      ring

theorem weighted2_addAt2 (c : ℕ → ℕ → K) (A : List (List K)) (i j : ℕ) (v : K)
    (h : i < A.length) (hj : ∀ row ∈ A, j < row.length) :
    weighted2 c (addAt2 A i j v) = weighted2 c A + c i j * v := by
  induction A generalizing c i with
  | nil => simp at h
  | cons a r ih =>
    cases i with
    | zero =>
      simp only [addAt2, List.modify_zero_cons, weighted2]
      rw [weighted_modify _ _ _ _ (hj a (by simp))]
      ring
    | succ i =>
      have := ih (fun i => c (i + 1)) i (by simpa using h) (fun row hr => hj row (by simp [hr]))
      simp only [addAt2, List.modify_succ_cons, weighted2] at this ⊢
      rw [this]
      ring

theorem weighted_one (A : List K) : weighted (fun _ => 1) A = A.sum := by
  induction A with
  | nil => rfl
  | cons a r ih => simp [weighted, ih]

theorem weighted2_one (A : List (List K)) : weighted2 (fun _ _ => 1) A = A.flatten.sum := by
  induction A with
  | nil => rfl
  | cons a r ih => simp [weighted2, ih, weighted_one]

private theorem modify_nonneg (A : List K) (i : ℕ) (v : K) (hA : ∀ a ∈ A, 0 ≤ a) (hv : 0 ≤ v) :
    ∀ a ∈ A.modify i (· + v), 0 ≤ a := by
  induction A generalizing i with
  | nil => simp
  | cons x r ih =>
    have hx := hA x (by simp)
    have hr : ∀ a ∈ r, 0 ≤ a := fun a ha => hA a (by simp [ha])
    cases i with
    | zero =>
      intro a ha
      simp only [List.modify_zero_cons, List.mem_cons] at ha
      rcases ha with rfl | ha
      · linarith
      · exact hr a ha
    | succ i =>
      intro a ha
      simp only [List.modify_succ_cons, List.mem_cons] at ha
      rcases ha with rfl | ha
      · exact hx
      · exact ih i hr a ha

private theorem mem_modify_row (A : List (List K)) (i : ℕ) (f : List K → List K) (row : List K)
    (h : row ∈ A.modify i f) : row ∈ A ∨ ∃ r ∈ A, row = f r := by
  induction A generalizing i with
  | nil => simp at h
  | cons x r ih =>
    cases i with
    | zero =>
      simp only [List.modify_zero_cons, List.mem_cons] at h
      rcases h with rfl | h
      · exact .inr ⟨x, by simp, rfl⟩
      · exact .inl (by simp [h])
    | succ i =>
      simp only [List.modify_succ_cons, List.mem_cons] at h
      rcases h with rfl | h
      · exact .inl (by simp)
      · rcases ih i h with h | ⟨y, hy, rfl⟩
        · exact .inl (by simp [h])
        · exact .inr ⟨y, by simp [hy], rfl⟩

private theorem addAt2_nonneg (A : List (List K)) (i j : ℕ) (v : K)
    (hA : ∀ row ∈ A, ∀ a ∈ row, 0 ≤ a) (hv : 0 ≤ v) :
    ∀ row ∈ addAt2 A i j v, ∀ a ∈ row, 0 ≤ a := by
  intro row hrow
  rcases mem_modify_row _ _ _ _ hrow with h | ⟨r, hr, rfl⟩
  · exact hA row h
  · exact modify_nonneg r j v (hA r hr) hv

theorem addAt2_shape (A : List (List K)) (i j : ℕ) (v : K) (n1 : ℕ)
    (hA : ∀ row ∈ A, row.length = n1) :
    (addAt2 A i j v).length = A.length ∧ ∀ row ∈ addAt2 A i j v, row.length = n1 := by
  refine ⟨by simp [addAt2], ?_⟩
  intro row hrow
  rcases mem_modify_row _ _ _ _ hrow with h | ⟨r, hr, rfl⟩
  · exact hA row h
  · simpa using hA r hr

theorem clamp_bounds (x : K) : 0 ≤ clamp01 x ∧ clamp01 x ≤ 1 := by
  unfold clamp01
  exact ⟨le_min (le_max_right _ _) zero_le_one, min_le_right _ _⟩

theorem n_pos {n0 : ℕ} (h : 2 ≤ n0) : (0 : K) < (n0 : K) - 1 := by
  have : (2 : K) ≤ (n0 : K) := by exact_mod_cast h
  linarith

/-- The cell chosen is a cell of the grid and contains the point. -/
theorem C18_cell (n0 : ℕ) (h : 2 ≤ n0) (x : K) (hx0 : 0 ≤ x) (hx1 : x ≤ 1) :
    trembleCell n0 x + 1 < n0 ∧
    gridPos n0 (trembleCell n0 x) ≤ x ∧ x ≤ gridPos n0 (trembleCell n0 x + 1) := by
  have hn := n_pos (K := K) h
  have hy : x / (1 / ((n0 : K) - 1)) = x * ((n0 : K) - 1) := by
    rw [div_div_eq_mul_div, div_one]
  have hy0 : 0 ≤ x * ((n0 : K) - 1) := mul_nonneg hx0 hn.le
  have hy1 : x * ((n0 : K) - 1) ≤ (n0 : K) - 1 := by
    calc x * ((n0 : K) - 1) ≤ 1 * ((n0 : K) - 1) := mul_le_mul_of_nonneg_right hx1 hn.le
      _ = _ := one_mul _
  have hf0 : 0 ≤ ⌊x * ((n0 : K) - 1)⌋ := Int.floor_nonneg.2 hy0
  have hdef : trembleCell n0 x = (min ⌊x * ((n0 : K) - 1)⌋ ((n0 : ℤ) - 2)).toNat := by
    simp only [trembleCell, hy, max_eq_right hf0]
  have hn2 : (0 : ℤ) ≤ (n0 : ℤ) - 2 := by omega
  have hq0 : 0 ≤ min ⌊x * ((n0 : K) - 1)⌋ ((n0 : ℤ) - 2) := le_min hf0 hn2
  have hcast : ((trembleCell n0 x : ℕ) : ℤ) = min ⌊x * ((n0 : K) - 1)⌋ ((n0 : ℤ) - 2) := by
    rw [hdef, Int.toNat_of_nonneg hq0]
  have hcastK : ((trembleCell n0 x : ℕ) : K) = ((min ⌊x * ((n0 : K) - 1)⌋ ((n0 : ℤ) - 2) : ℤ) : K) := by
    rw [← hcast]; simp
  have hle := min_le_left ⌊x * ((n0 : K) - 1)⌋ ((n0 : ℤ) - 2)
  have hle2 := min_le_right ⌊x * ((n0 : K) - 1)⌋ ((n0 : ℤ) - 2)
  refine ⟨by omega, ?_, ?_⟩
  · unfold gridPos
    rw [div_le_iff₀ hn, hcastK]
    exact (Int.cast_le.2 hle).trans (Int.floor_le _)
  · unfold gridPos
    rw [le_div_iff₀ hn]
    push_cast
    rw [hcastK]
    rcases le_total ⌊x * ((n0 : K) - 1)⌋ ((n0 : ℤ) - 2) with hh | hh
    · rw [min_eq_left hh]
      exact (Int.lt_floor_add_one _).le
    · rw [min_eq_right hh]
      push_cast
      linarith

theorem lam_bounds (n0 : ℕ) (h : 2 ≤ n0) (x : K) (hx0 : 0 ≤ x) (hx1 : x ≤ 1) :
    0 ≤ x * ((n0 : K) - 1) - (trembleCell n0 x : K) ∧
    x * ((n0 : K) - 1) - (trembleCell n0 x : K) ≤ 1 := by
  obtain ⟨-, h1, h2⟩ := C18_cell n0 h x hx0 hx1
  have hn := n_pos (K := K) h
  unfold gridPos at h1 h2
  rw [div_le_iff₀ hn] at h1
  rw [le_div_iff₀ hn] at h2
  push_cast at h2
  constructor <;> linarith

/-- What the one-dimensional trembling hand adds, against any test function `c` on the nodes. -/
theorem C18_tremble1_effect (A : List K) (hA : 2 ≤ A.length) (x w : K) (c : ℕ → K) :
    weighted c (tremble1 A x w) = weighted c A +
      w * ((1 - (clamp01 x * ((A.length : K) - 1) - (trembleCell A.length (clamp01 x) : K)))
            * c (trembleCell A.length (clamp01 x))
        + (clamp01 x * ((A.length : K) - 1) - (trembleCell A.length (clamp01 x) : K))
            * c (trembleCell A.length (clamp01 x) + 1)) := by
  obtain ⟨h1, -, -⟩ := C18_cell A.length hA (clamp01 x) (clamp_bounds x).1 (clamp_bounds x).2
  simp only [tremble1]
  rw [weighted_modify _ _ _ _ (by simpa using h1), weighted_modify _ _ _ _ (by omega),
    div_div_eq_mul_div, div_one]
  ring

/-- **C18, one dimension.**  For every point, weight, and grid of at least two nodes: total mass `w` is
added; the mean position of the added mass is the clamped point; entries stay non-negative when `w ≥ 0`;
and the number of nodes does not change. -/
theorem C18_tremble1 (A : List K) (hA : 2 ≤ A.length) (x w : K) :
    (tremble1 A x w).length = A.length ∧
    (tremble1 A x w).sum = A.sum + w ∧
    weighted (gridPos A.length) (tremble1 A x w)
      = weighted (gridPos A.length) A + w * min (max x 0) 1 ∧
    (0 ≤ w → (∀ a ∈ A, 0 ≤ a) → ∀ a ∈ tremble1 A x w, 0 ≤ a) := by
  have hn := n_pos (K := K) hA
  refine ⟨by simp [tremble1], ?_, ?_, ?_⟩
  · rw [← weighted_one, ← weighted_one, C18_tremble1_effect A hA]
    ring
  · rw [C18_tremble1_effect A hA]
    simp only [gridPos]
    push_cast
    have : clamp01 x = min (max x 0) 1 := rfl
    rw [← this]
    field_simp
    ring
  · intro hw hpos
    obtain ⟨h1, h2⟩ := lam_bounds A.length hA (clamp01 x) (clamp_bounds x).1 (clamp_bounds x).2
    simp only [tremble1]
    rw [div_div_eq_mul_div, div_one]
    apply modify_nonneg
    · apply modify_nonneg _ _ _ hpos
      exact mul_nonneg (by linarith) hw
    · exact mul_nonneg h1 hw

/-- **C18, locality.**  Only the two nodes around the clamped point receive mass. -/
theorem C18_tremble1_local (A : List K) (hA : 2 ≤ A.length) (x w : K) (i : ℕ)
    (hi : (gridPos A.length (i + 1) : K) < clamp01 x ∨ clamp01 x < gridPos A.length i - 1 / ((A.length : K) - 1)) :
    (tremble1 A x w)[i]? = A[i]? := by
  obtain ⟨h1, h2, h3⟩ := C18_cell A.length hA (clamp01 x) (clamp_bounds x).1 (clamp_bounds x).2
  have hn := n_pos (K := K) hA
  have key : i ≠ trembleCell A.length (clamp01 x) ∧ i ≠ trembleCell A.length (clamp01 x) + 1 := by
    constructor
    · rintro rfl
      rcases hi with h | h
      · exact absurd h3 (not_le.2 h)
      · have : (0 : K) < 1 / ((A.length : K) - 1) := by positivity
        linarith
    · intro h
      rw [h] at hi
      rcases hi with hi | hi
      · have : (gridPos A.length (trembleCell A.length (clamp01 x) + 1) : K)
            ≤ gridPos A.length (trembleCell A.length (clamp01 x) + 1 + 1) := by
          unfold gridPos
          apply div_le_div_of_nonneg_right _ hn.le
          push_cast; linarith
        linarith
      · have : (gridPos A.length (trembleCell A.length (clamp01 x) + 1) : K) - 1 / ((A.length : K) - 1)
            = gridPos A.length (trembleCell A.length (clamp01 x)) := by
          unfold gridPos
          push_cast
          rw [← sub_div]
          ring
        rw [this] at hi
        exact absurd h2 (not_le.2 hi)
  simp only [tremble1, List.getElem?_modify]
  have k1 : ¬ trembleCell A.length (clamp01 x) + 1 = i := fun h => key.2 h.symm
  have k2 : ¬ trembleCell A.length (clamp01 x) = i := fun h => key.1 h.symm
  simp [k1, k2]

/-- **C18, state units.**  With bounds `a < b`, the mean of the state on the grid nodes
`a + (b - a) pos` under the mass added is the target state clamped to `[a, b]`. -/
theorem C18_mean_state (n : ℕ) (hn2 : 2 ≤ n) (a b s w : K) (hab : a < b) :
    weighted (fun i => a + (b - a) * gridPos n i)
      (tremble1 (List.replicate n 0) (renormalise a b s) w) = w * min (max s a) b := by
  have hlen : (List.replicate n (0 : K)).length = n := List.length_replicate
  have hz : ∀ (c : ℕ → K) (n : ℕ), weighted c (List.replicate n 0) = 0 := by
    intro c n
    induction n generalizing c with
    | zero => rfl
    | succ n ih => simp [List.replicate_succ, weighted, ih]
  have hlin : ∀ (c : ℕ → K) (p q : K) (A : List K),
      weighted (fun i => p + q * c i) A = p * A.sum + q * weighted c A := by
    intro c p q A
    induction A generalizing c with
    | nil => simp [weighted]
    | cons x r ih =>
      simp only [weighted, List.sum_cons]
      rw [ih (fun i => c (i + 1))]
      ring
  obtain ⟨-, h1, h2, -⟩ := C18_tremble1 (List.replicate n (0 : K)) (by omega) (renormalise a b s) w
  rw [hlin, h1, ]
  rw [hlen, hz] at h2
  rw [h2]
  have hba : 0 < b - a := by linarith
  have hclamp : (b - a) * min (max (renormalise a b s) 0) 1 + a = min (max s a) b := by
    unfold renormalise
    rw [mul_min_of_nonneg _ _ hba.le, mul_max_of_nonneg _ _ hba.le, mul_zero, mul_one,
      mul_div_cancel₀ _ hba.ne', ← min_add_add_right, ← max_add_add_right]
    simp
  rw [← hclamp]
  simp
  ring

/-- **C18, two dimensions.** -/
theorem C18_tremble2 (n0 n1 : ℕ) (h0 : 2 ≤ n0) (h1 : 2 ≤ n1) (A : List (List K))
    (hA0 : A.length = n0) (hA1 : ∀ row ∈ A, row.length = n1) (x : K × K) (w : K) :
    ((tremble2 n0 n1 A x w).length = n0 ∧ ∀ row ∈ tremble2 n0 n1 A x w, row.length = n1) ∧
    (tremble2 n0 n1 A x w).flatten.sum = A.flatten.sum + w ∧
    weighted2 (fun i _ => gridPos n0 i) (tremble2 n0 n1 A x w)
      = weighted2 (fun i _ => gridPos n0 i) A + w * min (max x.1 0) 1 ∧
    weighted2 (fun _ j => gridPos n1 j) (tremble2 n0 n1 A x w)
      = weighted2 (fun _ j => gridPos n1 j) A + w * min (max x.2 0) 1 ∧
    (0 ≤ w → (∀ row ∈ A, ∀ a ∈ row, 0 ≤ a) → ∀ row ∈ tremble2 n0 n1 A x w, ∀ a ∈ row, 0 ≤ a) := by
  obtain ⟨c0, -, -⟩ := C18_cell n0 h0 (clamp01 x.1) (clamp_bounds x.1).1 (clamp_bounds x.1).2
  obtain ⟨c1, -, -⟩ := C18_cell n1 h1 (clamp01 x.2) (clamp_bounds x.2).1 (clamp_bounds x.2).2
  obtain ⟨l0, u0⟩ := lam_bounds n0 h0 (clamp01 x.1) (clamp_bounds x.1).1 (clamp_bounds x.1).2
  obtain ⟨l1, u1⟩ := lam_bounds n1 h1 (clamp01 x.2) (clamp_bounds x.2).1 (clamp_bounds x.2).2
  have hn0 := n_pos (K := K) h0
  have hn1 := n_pos (K := K) h1
  have hlam : ∀ (n : ℕ) (y q : K), 0 < (n : K) - 1 →
      (y - q * (1 / ((n : K) - 1))) / (1 / ((n : K) - 1)) = y * ((n : K) - 1) - q := by
    intro n y q h
    field_simp
  simp only [tremble2]
  rw [hlam n0 _ _ hn0, hlam n1 _ _ hn1]
  have e0 : min (max x.1 0) 1 = clamp01 x.1 := rfl
  have e1 : min (max x.2 0) 1 = clamp01 x.2 := rfl
  rw [e0, e1]
  generalize trembleCell n0 (clamp01 x.1) = q0 at *
  generalize trembleCell n1 (clamp01 x.2) = q1 at *
  set y0 := clamp01 x.1
  set y1 := clamp01 x.2
  set m0 := y0 * ((n0 : K) - 1) - (q0 : K) with hm0
  set m1 := y1 * ((n1 : K) - 1) - (q1 : K) with hm1
  set A1 := addAt2 A q0 q1 ((1 - m0) * (1 - m1) * w) with hA1'
  set A2 := addAt2 A1 q0 (q1 + 1) ((1 - m0) * m1 * w) with hA2'
  set A3 := addAt2 A2 (q0 + 1) q1 (m0 * (1 - m1) * w) with hA3'
  have s1 := addAt2_shape A q0 q1 ((1 - m0) * (1 - m1) * w) n1 hA1
  rw [← hA1'] at s1
  have s2 := addAt2_shape A1 q0 (q1 + 1) ((1 - m0) * m1 * w) n1 s1.2
  rw [← hA2'] at s2
  have s3 := addAt2_shape A2 (q0 + 1) q1 (m0 * (1 - m1) * w) n1 s2.2
  rw [← hA3'] at s3
  have s4 := addAt2_shape A3 (q0 + 1) (q1 + 1) (m0 * m1 * w) n1 s3.2
  have eff : ∀ c : ℕ → ℕ → K, weighted2 c (addAt2 A3 (q0 + 1) (q1 + 1) (m0 * m1 * w))
      = weighted2 c A + c q0 q1 * ((1 - m0) * (1 - m1) * w) + c q0 (q1 + 1) * ((1 - m0) * m1 * w)
        + c (q0 + 1) q1 * (m0 * (1 - m1) * w) + c (q0 + 1) (q1 + 1) * (m0 * m1 * w) := by
    intro c
    rw [weighted2_addAt2 _ _ _ _ _ (by omega) (fun row hr => by rw [s3.2 row hr]; omega), hA3',
      weighted2_addAt2 _ _ _ _ _ (by omega) (fun row hr => by rw [s2.2 row hr]; omega), hA2',
      weighted2_addAt2 _ _ _ _ _ (by omega) (fun row hr => by rw [s1.2 row hr]; omega), hA1',
      weighted2_addAt2 _ _ _ _ _ (by omega) (fun row hr => by rw [hA1 row hr]; omega)]
  refine ⟨⟨by omega, s4.2⟩, ?_, ?_, ?_, ?_⟩
  · rw [← weighted2_one, ← weighted2_one, eff]
    ring
  · rw [eff]
    have : y0 = (q0 + m0) / ((n0 : K) - 1) := by rw [hm0]; field_simp; ring
    simp only [gridPos]
    push_cast
    rw [this]
    field_simp
    ring
  · rw [eff]
    have : y1 = (q1 + m1) / ((n1 : K) - 1) := by rw [hm1]; field_simp; ring
    simp only [gridPos]
    push_cast
    rw [this]
    field_simp
    ring
  · intro hw hpos
    have p0 : 0 ≤ 1 - m0 := by linarith
    have p1 : 0 ≤ 1 - m1 := by linarith
    apply addAt2_nonneg _ _ _ _ _ (by positivity)
    apply addAt2_nonneg _ _ _ _ _ (by positivity)
    apply addAt2_nonneg _ _ _ _ _ (by positivity)
    exact addAt2_nonneg _ _ _ _ hpos (by positivity)

/-- A grid with a single node is refused. -/
theorem C18_single_node (A : List (List K)) (xs : List K) (w : K) (row : List K) (h : row ∈ A)
    (hl : row.length = 1) : tremblingHand1 A xs w = .error .zeroDivision := by
  unfold tremblingHand1
  rw [if_pos]
  simp only [List.any_eq_true, decide_eq_true_eq]
  exact ⟨row, h, by omega⟩

example : tremble1 [0, 0, (0 : ℚ)] (3 / 4) 1 = [0, 1 / 2, 1 / 2] ∧
    tremble1 [0, 0, (0 : ℚ)] 7 1 = [0, 0, 1] := by
  have h1 : ⌊(3 / 2 : ℚ)⌋ = 1 := by rw [Int.floor_eq_iff]; norm_num
  have h2 : ⌊(2 : ℚ)⌋ = 2 := by rw [Int.floor_eq_iff]; norm_num
  constructor
  · norm_num [tremble1, trembleCell, clamp01, h1, max_def, min_def]
  · norm_num [tremble1, trembleCell, clamp01, h2, max_def, min_def]

/-! ### C69: the transition matrix on the grid is stochastic -/

/-- All rows are probability vectors of length `n`. -/
def StochasticRows (n : ℕ) (P : List (List K)) : Prop :=
  ∀ row ∈ P, row.length = n ∧ row.sum = 1 ∧ ∀ p ∈ row, 0 ≤ p

/-- What is required of the way a weight is spread over the grid (C18 proves it for the one- and
two-dimensional trembling hand). -/
structure Spreads {ρ α : Type} (tr : ρ → α → K → ρ) (flat : ρ → List K) (shape : ρ → Prop)
    (n : ℕ) : Prop where
  ok : ∀ A x w, shape A → shape (tr A x w)
  len : ∀ A, shape A → (flat A).length = n
  mass : ∀ A x w, shape A → (flat (tr A x w)).sum = (flat A).sum + w
  pos : ∀ A x w, shape A → 0 ≤ w → (∀ a ∈ flat A, 0 ≤ a) → ∀ a ∈ flat (tr A x w), 0 ≤ a

/-- The one-dimensional trembling hand. -/
theorem spreads1 (n : ℕ) (hn : 2 ≤ n) :
    Spreads (K := K) tremble1 id (fun A => A.length = n) n where
  ok A x w h := by rw [(C18_tremble1 A (by omega) x w).1, h]
  len A h := h
  mass A x w h := (C18_tremble1 A (by omega) x w).2.1
  pos A x w h hw := (C18_tremble1 A (by omega) x w).2.2.2 hw

/-- The two-dimensional trembling hand. -/
theorem spreads2 (n0 n1 : ℕ) (h0 : 2 ≤ n0) (h1 : 2 ≤ n1) :
    Spreads (K := K) (tremble2 n0 n1) List.flatten
      (fun A => A.length = n0 ∧ ∀ row ∈ A, row.length = n1) (n0 * n1) where
  ok A x w h := (C18_tremble2 n0 n1 h0 h1 A h.1 h.2 x w).1
  len A h := by
    rw [List.length_flatten]
    have : A.map List.length = List.replicate n0 n1 := by
      rw [List.eq_replicate_iff]
      refine ⟨by simp [h.1], ?_⟩
      intro b hb
      obtain ⟨r, hr, rfl⟩ := List.mem_map.1 hb
      exact h.2 r hr
    rw [this]; simp
  mass A x w h := (C18_tremble2 n0 n1 h0 h1 A h.1 h.2 x w).2.1
  pos A x w h hw hpos := by
    have := (C18_tremble2 n0 n1 h0 h1 A h.1 h.2 x w).2.2.2.2 hw
      (fun row hr a ha => hpos a (List.mem_flatten.2 ⟨row, hr, ha⟩))
    intro a ha
    obtain ⟨row, hr, ha⟩ := List.mem_flatten.1 ha
    exact this row hr a ha

/-- **C69, Markov chains.**  For a stochastic exogenous chain with `Nm` states, and a state grid of `Ns`
nodes, the transition matrix over (exogenous state, grid node) pairs has `Nm * Ns` rows, each a
probability vector of length `Nm * Ns` - wherever the targets lie, inside or outside the grid. -/
theorem C69_markov_stochastic {ρ α : Type} (tr : ρ → α → K → ρ) (zero : ρ) (flat : ρ → List K)
    (ok : ρ → Prop) (Ns : ℕ) (h : Spreads tr flat ok Ns) (hz : ok zero) (hz0 : ∀ a ∈ flat zero, a = 0)
    (weights : List (List K)) (hw : StochasticRows weights.length weights) (S : ℕ → ℕ → ℕ → α) :
    (ergodicMatrixMC tr zero flat weights S Ns).length = weights.length * Ns ∧
    StochasticRows (weights.length * Ns) (ergodicMatrixMC tr zero flat weights S Ns) := by
  have hzs : (flat zero).sum = 0 := List.sum_eq_zero hz0
  constructor
  · simp only [ergodicMatrixMC, List.length_flatMap, List.length_map, List.length_range]
    simp
  · intro row hrow
    simp only [ergodicMatrixMC, List.mem_flatMap, List.mem_map, List.mem_range] at hrow
    obtain ⟨⟨ws, i⟩, hws, n, -, rfl⟩ := hrow
    have hws' : ws ∈ weights := by
      have := List.mem_zipIdx hws
      rw [this.2.2]
      exact List.getElem_mem _
    obtain ⟨hl, hs, hp⟩ := hw ws hws'
    have key : ∀ (ws : List K) (k : ℕ), (∀ p ∈ ws, 0 ≤ p) →
        ((ws.zipIdx k).flatMap fun (p : K × ℕ) => flat (tr zero (S i p.2 n) p.1)).length = ws.length * Ns ∧
        ((ws.zipIdx k).flatMap fun (p : K × ℕ) => flat (tr zero (S i p.2 n) p.1)).sum = ws.sum ∧
        ∀ a ∈ ((ws.zipIdx k).flatMap fun (p : K × ℕ) => flat (tr zero (S i p.2 n) p.1)), 0 ≤ a := by
      intro ws
      induction ws with
      | nil => intro k _; simp
      | cons w r ih =>
        intro k hpos
        obtain ⟨i1, i2, i3⟩ := ih (k + 1) (fun p hp => hpos p (by simp [hp]))
        simp only [List.zipIdx_cons, List.flatMap_cons, List.length_append, List.sum_append,
          List.length_cons, List.sum_cons]
        rw [i1, i2, h.len _ (h.ok _ _ _ hz), h.mass _ _ _ hz, hzs]
        refine ⟨by ring, by ring, ?_⟩
        intro a ha
        rcases List.mem_append.1 ha with ha | ha
        · exact h.pos _ _ _ hz (hpos w (by simp)) (fun a ha => (hz0 a ha).ge) a ha
        · exact i3 a ha
    obtain ⟨k1, k2, k3⟩ := key ws 0 hp
    exact ⟨by rw [k1, hl], by rw [k2, hs], k3⟩

/-- **C69, layout.**  Rows and columns are ordered by (exogenous state, grid node): entry
`(i * Ns + n, j * Ns + k)` is what the transition from exogenous state `i` to `j`, with its probability,
places on node `k` when starting from node `n`. -/
theorem C69_markov_layout {ρ α : Type} (tr : ρ → α → K → ρ) (zero : ρ) (flat : ρ → List K)
    (shape : ρ → Prop) (Ns : ℕ) (h : Spreads tr flat shape Ns) (hz : shape zero)
    (weights : List (List K)) (S : ℕ → ℕ → ℕ → α) (i n j k : ℕ) (ws : List K) (w : K)
    (hi : weights[i]? = some ws) (hj : ws[j]? = some w) (hn : n < Ns) (hk : k < Ns) :
    ∃ row, (ergodicMatrixMC tr zero flat weights S Ns)[i * Ns + n]? = some row ∧
      row[j * Ns + k]? = (flat (tr zero (S i j n) w))[k]? := by
  refine ⟨ws.zipIdx.flatMap fun (p : K × ℕ) => flat (tr zero (S i p.2 n) p.1), ?_, ?_⟩
  · unfold ergodicMatrixMC
    rw [getElem?_flatMap_block _ _ Ns i n (by intro a _; simp) hn]
    simp [hi, hn]
  · rw [getElem?_flatMap_block _ _ Ns j k (by intro a _; exact h.len _ (h.ok _ _ _ hz)) hk]
    simp [hj]

/-- **C69, iid processes.** -/
theorem C69_iid_stochastic {ρ α : Type} (tr : ρ → α → K → ρ) (zero : ρ) (flat : ρ → List K)
    (ok : ρ → Prop) (Ns : ℕ) (h : Spreads tr flat ok Ns) (hz : ok zero) (hz0 : ∀ a ∈ flat zero, a = 0)
    (weights : List K) (hsum : weights.sum = 1) (hpos : ∀ p ∈ weights, 0 ≤ p) (S : ℕ → ℕ → α) :
    (ergodicMatrixIID tr zero flat weights S Ns).length = Ns ∧
    StochasticRows Ns (ergodicMatrixIID tr zero flat weights S Ns) := by
  have hzs : (flat zero).sum = 0 := List.sum_eq_zero hz0
  refine ⟨by simp [ergodicMatrixIID], ?_⟩
  intro row hrow
  simp only [ergodicMatrixIID, List.mem_map, List.mem_range] at hrow
  obtain ⟨n, -, rfl⟩ := hrow
  have key : ∀ (ws : List K) (k : ℕ) (A : ρ), ok A → (∀ p ∈ ws, 0 ≤ p) → (∀ a ∈ flat A, 0 ≤ a) →
      ok ((ws.zipIdx k).foldl (fun A (p : K × ℕ) => tr A (S p.2 n) p.1) A) ∧
      (flat ((ws.zipIdx k).foldl (fun A (p : K × ℕ) => tr A (S p.2 n) p.1) A)).sum
        = (flat A).sum + ws.sum ∧
      ∀ a ∈ flat ((ws.zipIdx k).foldl (fun A (p : K × ℕ) => tr A (S p.2 n) p.1) A), 0 ≤ a := by
    intro ws
    induction ws with
    | nil => intro k A hA _ hA0; simpa using ⟨hA, hA0⟩
    | cons w r ih =>
      intro k A hA hp hA0
      obtain ⟨i1, i2, i3⟩ := ih (k + 1) (tr A (S k n) w) (h.ok _ _ _ hA)
        (fun p hp' => hp p (by simp [hp'])) (h.pos _ _ _ hA (hp w (by simp)) hA0)
      simp only [List.zipIdx_cons, List.foldl_cons, List.sum_cons]
      refine ⟨i1, ?_, i3⟩
      rw [i2, h.mass _ _ _ hA]
      ring
  obtain ⟨k1, k2, k3⟩ := key weights 0 zero hz hpos (fun a ha => (hz0 a ha).ge)
  exact ⟨h.len _ k1, by rw [k2, hzs, hsum, zero_add], k3⟩

/-- **C69, one state variable.**  With `n ≥ 2` grid nodes. -/
theorem C69_markov_stochastic_1d (n : ℕ) (hn : 2 ≤ n) (weights : List (List K))
    (hw : StochasticRows weights.length weights) (S : ℕ → ℕ → ℕ → K) :
    StochasticRows (weights.length * n)
      (ergodicMatrixMC tremble1 (List.replicate n 0) id weights S n) :=
  (C69_markov_stochastic tremble1 (List.replicate n 0) id _ n (spreads1 n hn) (by simp)
    (by intro a ha; exact List.eq_of_mem_replicate ha) weights hw S).2

/-- **C69, two state variables.** -/
theorem C69_markov_stochastic_2d (n0 n1 : ℕ) (h0 : 2 ≤ n0) (h1 : 2 ≤ n1) (weights : List (List K))
    (hw : StochasticRows weights.length weights) (S : ℕ → ℕ → ℕ → K × K) :
    StochasticRows (weights.length * (n0 * n1))
      (ergodicMatrixMC (tremble2 n0 n1) (List.replicate n0 (List.replicate n1 0)) List.flatten weights S
        (n0 * n1)) :=
  (C69_markov_stochastic (tremble2 n0 n1) (List.replicate n0 (List.replicate n1 0)) List.flatten _
    (n0 * n1) (spreads2 n0 n1 h0 h1) (by simp +contextual)
    (by
      intro a ha
      obtain ⟨row, hr, ha⟩ := List.mem_flatten.1 ha
      rw [List.eq_of_mem_replicate hr] at ha
      exact List.eq_of_mem_replicate ha) weights hw S).2

example : ∃ P : List (List ℚ), P = ergodicMatrixMC tremble1 [0, 0] id [[1 / 2, 1 / 2], [1 / 4, 3 / 4]]
    (fun i j n => (i + j + n : ℚ)) 2 ∧ P.length = 4 ∧ StochasticRows 4 P := by
  refine ⟨_, rfl, ?_⟩
  refine C69_markov_stochastic (K := ℚ) tremble1 [0, 0] id _ 2 (spreads1 2 le_rfl) rfl (by simp)
    [[1 / 2, 1 / 2], [1 / 4, 3 / 4]] ?_ _
  intro row hrow
  simp only [List.mem_cons, List.not_mem_nil, or_false] at hrow
  rcases hrow with rfl | rfl <;> norm_num

/-! ### C17: the invariant distribution -/

/-- `mu` is invariant under `P`: `mu P = mu`. -/
def Invariant {N : ℕ} (P : Fin N → Fin N → K) (mu : Fin N → K) : Prop :=
  ∀ j, ∑ i, mu i * P i j = mu j

/-- **C17.**  For row sums equal to one, the solutions of the linear system are exactly the invariant
vectors summing to one. -/
theorem C17_system_iff {N : ℕ} (P : Fin N → Fin N → K) (hP : ∀ i, ∑ j, P i j = 1) (mu : Fin N → K)
    (hN : N ≠ 0) :
    (∀ i, ∑ j, ergodicSystem P i j * mu j = ergodicRhs N i) ↔ Invariant P mu ∧ ∑ i, mu i = 1 := by
  obtain ⟨n, rfl⟩ := Nat.exists_eq_succ_of_ne_zero hN
  have hlast : ∀ i : Fin (n + 1), (i.val + 1 = n + 1) ↔ i = Fin.last n := by
    intro i
    constructor
    · intro h; ext; simp; omega
    · rintro rfl; simp
  have e1 : ∑ j, ergodicSystem P (Fin.last n) j * mu j = ∑ j, mu j := by
    apply Finset.sum_congr rfl
    intro j _
    simp [ergodicSystem]
  have e2 : ∀ i, i ≠ Fin.last n → ∑ j, ergodicSystem P i j * mu j = (∑ j, mu j * P j i) - mu i := by
    intro i hi
    have : ∀ j, ergodicSystem P i j * mu j = mu j * P j i - (if i = j then mu j else 0) := by
      intro j
      unfold ergodicSystem
      rw [if_neg (fun h => hi ((hlast i).1 h))]
      split_ifs <;> ring
    rw [Finset.sum_congr rfl (fun j _ => this j), Finset.sum_sub_distrib]
    simp
  have etot : ∑ i, ((∑ j, mu j * P j i) - mu i) = 0 := by
    rw [Finset.sum_sub_distrib, Finset.sum_comm]
    simp only [← Finset.mul_sum, hP, mul_one, sub_self]
  constructor
  · intro h
    have hs : ∑ j, mu j = 1 := by
      have := h (Fin.last n)
      rw [e1] at this
      simpa [ergodicRhs] using this
    have hne : ∀ i, i ≠ Fin.last n → (∑ j, mu j * P j i) - mu i = 0 := by
      intro i hi
      rw [← e2 i hi, h i]
      unfold ergodicRhs
      rw [if_neg (fun h => hi ((hlast i).1 h))]
    refine ⟨?_, hs⟩
    intro j
    by_cases hj : j = Fin.last n
    · have : ∑ i, ((∑ j, mu j * P j i) - mu i) = (∑ j, mu j * P j (Fin.last n)) - mu (Fin.last n) := by
        apply Finset.sum_eq_single
        · intro b _ hb; exact hne b hb
        · simp
      rw [hj]
      linarith
    · linarith [hne j hj]
  · rintro ⟨hinv, hs⟩ i
    by_cases hi : i = Fin.last n
    · rw [hi, e1, hs]; simp [ergodicRhs]
    · rw [e2 i hi, hinv i]
      unfold ergodicRhs
      rw [if_neg (fun h => hi ((hlast i).1 h)), sub_self]

/-- Contract of `numpy.linalg.solve`: a result is returned only for non-singular systems, and solves it. -/
def SolveContract {N : ℕ} (solve : (Fin N → Fin N → K) → (Fin N → K) → Except Err (Fin N → K)) : Prop :=
  ∀ A B x, solve A B = .ok x →
    (∀ i, ∑ j, A i j * x j = B i) ∧ ∀ v : Fin N → K, (∀ i, ∑ j, A i j * v j = 0) → ∀ j, v j = 0

/-- **C17, what is returned.**  For a stochastic matrix, a returned `mu` is the only invariant vector with
unit mass, and it is a probability distribution: all its entries are non-negative. -/
theorem C17_ergodic_distribution {N : ℕ}
    (solve : (Fin N → Fin N → K) → (Fin N → K) → Except Err (Fin N → K)) (hsolve : SolveContract solve)
    (P : Fin N → Fin N → K) (hP : ∀ i, ∑ j, P i j = 1) (hpos : ∀ i j, 0 ≤ P i j) (mu : Fin N → K)
    (hmu : ergodicMu solve P = .ok mu) :
    Invariant P mu ∧ ∑ i, mu i = 1 ∧ (∀ i, 0 ≤ mu i) ∧
    ∀ nu, Invariant P nu → ∑ i, nu i = 1 → nu = mu := by
  have hN : N ≠ 0 := by
    rintro rfl
    simp [ergodicMu] at hmu
  rw [ergodicMu, if_neg hN] at hmu
  obtain ⟨hsol, hinj⟩ := hsolve _ _ _ hmu
  obtain ⟨hinv, hs⟩ := (C17_system_iff P hP mu hN).1 hsol
  have huniq : ∀ nu, Invariant P nu → ∑ i, nu i = 1 → nu = mu := by
    intro nu h1 h2
    have h3 := (C17_system_iff P hP nu hN).2 ⟨h1, h2⟩
    have h4 := hinj (fun j => nu j - mu j) (by
      intro i
      simp only [mul_sub, Finset.sum_sub_distrib]
      rw [h3, hsol, sub_self])
    funext j
    linarith [h4 j]
  refine ⟨hinv, hs, ?_, huniq⟩
  -- |mu| is invariant as well
  have hle : ∀ j, |mu j| ≤ ∑ i, |mu i| * P i j := by
    intro j
    rw [← hinv j]
    refine (Finset.abs_sum_le_sum_abs _ _).trans (le_of_eq ?_)
    apply Finset.sum_congr rfl
    intro i _
    rw [abs_mul, abs_of_nonneg (hpos i j)]
  have htot : ∑ j, (∑ i, |mu i| * P i j) = ∑ j, |mu j| := by
    rw [Finset.sum_comm]
    simp only [← Finset.mul_sum, hP, mul_one]
  have habs : Invariant P (fun i => |mu i|) := by
    intro j
    have h0 : ∑ j, ((∑ i, |mu i| * P i j) - |mu j|) = 0 := by
      rw [Finset.sum_sub_distrib, htot, sub_self]
    have h1 := (Finset.sum_eq_zero_iff_of_nonneg (fun j _ => sub_nonneg.2 (hle j))).1 h0 j
      (Finset.mem_univ _)
    linarith
  set c := ∑ i, |mu i| with hc
  have hcpos : 0 < c := by
    have : (1 : K) ≤ c := by
      rw [← hs]
      exact Finset.sum_le_sum fun i _ => le_abs_self _
    linarith
  have h5 := huniq (fun i => |mu i| / c) (by
    intro j
    have := habs j
    simp only at this
    simp only
    rw [← this, Finset.sum_div]
    apply Finset.sum_congr rfl
    intro i _
    ring) (by rw [← Finset.sum_div, ← hc, div_self hcpos.ne'])
  intro i
  rw [← h5]
  positivity

/-- The two-state chain leaving state 0 with probability 1/2 and state 1 with probability 1/4. -/
example : Invariant (N := 2) (fun i j => if i = j then (if i = 0 then 1 / 2 else 3 / 4 : ℚ)
    else (if i = 0 then 1 / 2 else 1 / 4)) (fun i => if i = 0 then 1 / 3 else 2 / 3) := by
  intro j
  rw [Fin.sum_univ_two]
  fin_cases j <;> norm_num

/-- `asSquare` keeps row sums and signs. -/
private theorem sum_getD_fin (row : List K) : ∑ j : Fin row.length, row.getD j.val 0 = row.sum := by
  rw [← Fin.sum_univ_getElem]
  apply Finset.sum_congr rfl
  intro j _
  simp

/-- **C17 and C69 together.**  The distribution computed from a stochastic list matrix of size `N × N` is an
invariant probability distribution of it. -/
theorem C17_ergodic_of_rows (P : List (List K)) (hP : StochasticRows P.length P)
    (solve : (Fin P.length → Fin P.length → K) → (Fin P.length → K) → Except Err (Fin P.length → K))
    (hsolve : SolveContract solve) (mu : Fin P.length → K) (hmu : ergodicMu solve (asSquare P) = .ok mu) :
    Invariant (asSquare P) mu ∧ ∑ i, mu i = 1 ∧ ∀ i, 0 ≤ mu i := by
  obtain ⟨h1, h2, h3, -⟩ := C17_ergodic_distribution solve hsolve (asSquare P) (by
    intro i
    obtain ⟨hl, hs, -⟩ := hP P[i.val] (List.getElem_mem _)
    rw [← hs, ← sum_getD_fin]
    unfold asSquare
    rw [Finset.sum_fin_eq_sum_range, Finset.sum_fin_eq_sum_range, hl]
    ) (by
    intro i j
    obtain ⟨hl, -, hp⟩ := hP P[i.val] (List.getElem_mem _)
    unfold asSquare
    have hj : j.val < P[i.val].length := by rw [hl]; exact j.isLt
    simp only [List.getD_eq_getElem?_getD, List.getElem?_eq_getElem hj, Option.getD_some]
    exact hp _ (List.getElem_mem _)) mu hmu
  exact ⟨h1, h2, h3⟩

end Dolo
