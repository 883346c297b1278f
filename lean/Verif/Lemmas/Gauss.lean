import Mathlib.Algebra.BigOperators.Intervals
import Mathlib.Algebra.BigOperators.Ring.Finset
import Mathlib.Algebra.BigOperators.Field
import Mathlib.Tactic.LinearCombination
import Mathlib.LinearAlgebra.FiniteDimensional.Lemmas
import Mathlib.LinearAlgebra.Dimension.Constructions
import Mathlib.Tactic.Ring
import Mathlib.Tactic.Linarith
import Mathlib.Tactic.FieldSimp
import Verif.Model.Gauss

/-!
# Row operations and pivots
-/

set_option linter.unusedSectionVars false

namespace Dolo

variable {K : Type} [Field K]

/-- `v` solves the square system `A v = b` of size `n`. -/
def Solves (n : ℕ) (A : ℕ → ℕ → K) (b v : ℕ → K) : Prop :=
  ∀ i < n, ∑ j ∈ Finset.range n, A i j * v j = b i

/-- `A` is invertible: its kernel is trivial. -/
def Nonsingular (n : ℕ) (A : ℕ → ℕ → K) : Prop :=
  ∀ v : ℕ → K, Solves n A (fun _ => 0) v → ∀ j < n, v j = 0

theorem solves_rowop {n : ℕ} {A A' : ℕ → ℕ → K} {b b' v : ℕ → K} (y : ℕ) (hy : y < n) (c : ℕ → K) (d : K)
    (hd : d ≠ 0)
    (h1 : ∀ i < n, i ≠ y → (∀ j < n, A' i j = A i j - c i * A y j) ∧ b' i = b i - c i * b y)
    (h2 : (∀ j < n, A' y j = A y j / d) ∧ b' y = b y / d) :
    Solves n A' b' v ↔ Solves n A b v := by
  have e1 : ∑ j ∈ Finset.range n, A' y j * v j = (∑ j ∈ Finset.range n, A y j * v j) / d := by
    rw [Finset.sum_div]
    apply Finset.sum_congr rfl
    intro j hj
    rw [h2.1 j (Finset.mem_range.1 hj)]
    ring
  have e2 : ∀ i < n, i ≠ y → ∑ j ∈ Finset.range n, A' i j * v j
      = (∑ j ∈ Finset.range n, A i j * v j) - c i * ∑ j ∈ Finset.range n, A y j * v j := by
    intro i hi hne
    rw [Finset.mul_sum, ← Finset.sum_sub_distrib]
    apply Finset.sum_congr rfl
    intro j hj
    rw [(h1 i hi hne).1 j (Finset.mem_range.1 hj)]
    ring
  constructor
  · intro h
    have hy' : ∑ j ∈ Finset.range n, A y j * v j = b y := by
      have := h y hy
      rw [e1, h2.2, div_left_inj' hd] at this
      exact this
    intro i hi
    by_cases hne : i = y
    · subst hne; exact hy'
    · have := h i hi
      rw [e2 i hi hne, (h1 i hi hne).2, hy'] at this
      linear_combination this
  · intro h i hi
    by_cases hne : i = y
    · subst hne
      rw [e1, h2.2, h i hi]
    · rw [e2 i hi hne, (h1 i hi hne).2, h i hi, h y hy]

theorem swapRows_self {γ : Type} (i : ℕ) (M : ℕ → γ) : swapRows i i M = M := by
  funext r
  unfold swapRows
  split_ifs with h <;> simp_all

theorem solves_swap {n : ℕ} {A : ℕ → ℕ → K} {b v : ℕ → K} (y p : ℕ) (hy : y < n) (hp : p < n) :
    Solves n (swapRows y p A) (swapRows y p b) v ↔ Solves n A b v := by
  constructor
  · intro h i hi
    by_cases h1 : i = y
    · subst h1
      by_cases h2 : p = i
      · subst h2
        have := h p hp
        simpa [swapRows] using this
      · have := h p hp
        simpa [swapRows, h2] using this
    · by_cases h2 : i = p
      · subst h2
        have := h y hy
        simpa [swapRows] using this
      · have := h i hi
        simpa [swapRows, h1, h2] using this
  · intro h i hi
    by_cases h1 : i = y
    · subst h1
      simpa [swapRows] using h p hp
    · by_cases h2 : i = p
      · subst h2
        simpa [swapRows, h1] using h y hy
      · simpa [swapRows, h1, h2] using h i hi

theorem swap_zero (y p : ℕ) : swapRows y p (fun _ : ℕ => (0 : K)) = fun _ => 0 := by
  funext r
  unfold swapRows
  split_ifs <;> rfl

/-- If all the entries of column `y` from row `y` on vanish, and the earlier columns vanish below the
diagonal, the matrix is singular. -/
theorem pivot_exists {n : ℕ} {A : ℕ → ℕ → K} (hA : Nonsingular n A) (y : ℕ) (hy : y < n)
    (hlow : ∀ i j, j < y → j < i → i < n → A i j = 0) : ∃ r, y ≤ r ∧ r < n ∧ A r y ≠ 0 := by
  by_contra hcon
  push Not at hcon
  let L : (Fin (y + 1) → K) →ₗ[K] (Fin y → K) :=
    { toFun := fun v i => ∑ j : Fin (y + 1), A i j * v j
      map_add' := by
        intro u v; funext i
        simp only [Pi.add_apply, mul_add, Finset.sum_add_distrib]
      map_smul' := by
        intro c v; funext i
        simp only [Pi.smul_apply, smul_eq_mul, RingHom.id_apply, Finset.mul_sum]
        apply Finset.sum_congr rfl
        intro j _; ring }
  have hker : LinearMap.ker L ≠ ⊥ := by
    apply LinearMap.ker_ne_bot_of_finrank_lt
    simp
  obtain ⟨u, hu, hune⟩ := (Submodule.ne_bot_iff _).1 hker
  let v : ℕ → K := fun j => if h : j < y + 1 then u ⟨j, h⟩ else 0
  have hsum : ∀ i, ∑ j ∈ Finset.range n, A i j * v j = ∑ j : Fin (y + 1), A i j * u j := by
    intro i
    rw [← Finset.sum_subset (Finset.range_subset_range.2 (by omega : y + 1 ≤ n))]
    · rw [Finset.sum_range]
      apply Finset.sum_congr rfl
      intro j _
      simp only [v, dif_pos j.isLt]
    · intro j _ hj
      simp only [Finset.mem_range] at hj
      simp only [v, dif_neg hj, mul_zero]
  have hv : Solves n A (fun _ => 0) v := by
    intro i hi
    rw [hsum]
    by_cases hiy : i < y
    · have := congrFun (LinearMap.mem_ker.1 hu) ⟨i, hiy⟩
      exact this
    · apply Finset.sum_eq_zero
      intro j _
      have : A i j = 0 := by
        by_cases hj : j.val = y
        · rw [hj]; exact hcon i (by omega) hi
        · exact hlow i j (by omega) (by omega) hi
      rw [this, zero_mul]
  apply hune
  funext j
  have := hA v hv j (by omega)
  simp only [v, dif_pos j.isLt] at this
  exact this

variable [LinearOrder K] [IsStrictOrderedRing K]

theorem pivotRow_fold (m : ℕ → ℕ → K) (y : ℕ) (k s cur : ℕ) (hcur : cur < s) :
    let p := (List.range' s k).foldl (fun maxrow y2 => if |m y2 y| > |m maxrow y| then y2 else maxrow) cur
    (p = cur ∨ (s ≤ p ∧ p < s + k)) ∧ |m cur y| ≤ |m p y| ∧ ∀ r, s ≤ r → r < s + k → |m r y| ≤ |m p y| := by
  induction k generalizing s cur with
  | zero => intro p; refine ⟨.inl rfl, le_refl _, ?_⟩; intro r h1 h2; omega
  | succ k ih =>
    simp only [List.range'_succ, List.foldl_cons]
    split_ifs with h
    · obtain ⟨h1, h2, h3⟩ := ih (s + 1) s (by omega)
      refine ⟨.inr ?_, le_trans h.le h2, ?_⟩
      · rcases h1 with h1 | h1 <;> omega
      · intro r hr1 hr2
        by_cases hr : r = s
        · subst hr; exact h2
        · exact h3 r (by omega) (by omega)
    · obtain ⟨h1, h2, h3⟩ := ih (s + 1) cur (by omega)
      refine ⟨?_, h2, ?_⟩
      · rcases h1 with h1 | h1
        · left; exact h1
        · right; omega
      · intro r hr1 hr2
        by_cases hr : r = s
        · subst hr; exact le_trans (not_lt.1 h) h2
        · exact h3 r (by omega) (by omega)

/-- The row chosen is between `y` and `h - 1` and has the largest entry. -/
theorem pivotRow_spec (h : ℕ) (m : ℕ → ℕ → K) (y : ℕ) (hy : y < h) :
    y ≤ pivotRow h m y ∧ pivotRow h m y < h ∧ ∀ r, y ≤ r → r < h → |m r y| ≤ |m (pivotRow h m y) y| := by
  obtain ⟨h1, h2, h3⟩ := pivotRow_fold m y (h - (y + 1)) (y + 1) y (by omega)
  refine ⟨?_, ?_, ?_⟩
  · unfold pivotRow; rcases h1 with h1 | h1 <;> omega
  · unfold pivotRow; rcases h1 with h1 | h1 <;> omega
  · intro r hr1 hr2
    by_cases hr : r = y
    · subst hr; exact h2
    · exact h3 r (by omega) (by omega)

theorem invPivot_fold (A : ℕ → ℕ → K) (i : ℕ) (k s : ℕ) (st : K × ℕ) :
    let p := (List.range' s k).foldl
      (fun (s : K × ℕ) i0 => if |A i0 i| ≥ s.1 then (|A i0 i|, i0) else s) st
    st.1 ≤ p.1 ∧ (p = st ∨ (s ≤ p.2 ∧ p.2 < s + k ∧ p.1 = |A p.2 i|)) ∧
      ∀ r, s ≤ r → r < s + k → |A r i| ≤ p.1 := by
  induction k generalizing s st with
  | zero => intro p; refine ⟨le_refl _, .inl rfl, ?_⟩; intro r h1 h2; omega
  | succ k ih =>
    simp only [List.range'_succ, List.foldl_cons]
    split_ifs with h
    · obtain ⟨h1, h2, h3⟩ := ih (s + 1) (|A s i|, s)
      refine ⟨le_trans h h1, .inr ?_, ?_⟩
      · rcases h2 with h2 | h2
        · rw [h2]; exact ⟨le_refl _, by simp, rfl⟩
        · exact ⟨by omega, by omega, h2.2.2⟩
      · intro r hr1 hr2
        by_cases hr : r = s
        · subst hr; exact h1
        · exact h3 r (by omega) (by omega)
    · obtain ⟨h1, h2, h3⟩ := ih (s + 1) st
      refine ⟨h1, ?_, ?_⟩
      · rcases h2 with h2 | h2
        · left; exact h2
        · right; exact ⟨by omega, by omega, h2.2.2⟩
      · intro r hr1 hr2
        by_cases hr : r = s
        · subst hr; exact le_trans (le_of_lt (not_le.1 h)) h1
        · exact h3 r (by omega) (by omega)

theorem invPivot_spec (n : ℕ) (A : ℕ → ℕ → K) (i : ℕ) (hi : i < n) :
    i ≤ invPivot n A i ∧ invPivot n A i < n ∧ ∀ r, i ≤ r → r < n → |A r i| ≤ |A (invPivot n A i) i| := by
  obtain ⟨h1, h2, h3⟩ := invPivot_fold A i (n - i) i (-1, 0)
  rcases h2 with h2 | h2
  · exfalso
    have := h3 i (le_refl _) (by omega)
    rw [h2] at this
    have := abs_nonneg (A i i)
    simp only at *
    linarith
  · refine ⟨h2.1, ?_, ?_⟩
    · have := h2.2.1; unfold invPivot; omega
    · intro r hr1 hr2
      have := h3 r hr1 (by omega)
      rw [h2.2.2] at this
      exact this

/-- The entry found by a maximal row is not zero. -/
theorem pivot_ne_zero {n : ℕ} {A : ℕ → ℕ → K} (hA : Nonsingular n A) (y p : ℕ) (hy : y < n)
    (hlow : ∀ i j, j < y → j < i → i < n → A i j = 0)
    (hp : ∀ r, y ≤ r → r < n → |A r y| ≤ |A p y|) : A p y ≠ 0 := by
  obtain ⟨r, h1, h2, h3⟩ := pivot_exists hA y hy hlow
  intro h0
  have := hp r h1 h2
  rw [h0, abs_zero] at this
  exact h3 (abs_eq_zero.1 (le_antisymm this (abs_nonneg _)))

end Dolo
