import Mathlib.Tactic.NormNum
import Verif.Lemmas.Gauss

/-!
# C24, C25: linear systems
-/

set_option linter.unusedSectionVars false

namespace Dolo

variable {K : Type} [Field K] [LinearOrder K] [IsStrictOrderedRing K]

/-! ### C24 -/

/-- State of the elimination after the columns `< y`. -/
private structure Fwd (n y : ℕ) (m0 m : ℕ → ℕ → K) : Prop where
  sol : ∀ v, Solves n m (fun i => m i n) v ↔ Solves n m0 (fun i => m0 i n) v
  ker : Nonsingular n m
  low : ∀ i j, j < y → j < i → i < n → m i j = 0
  diag : ∀ j, j < y → m j j ≠ 0

private theorem nonsingular_of_iff {n : ℕ} {A A' : ℕ → ℕ → K} (hA : Nonsingular n A)
    (h : ∀ v, Solves n A' (fun _ => 0) v ↔ Solves n A (fun _ => 0) v) : Nonsingular n A' :=
  fun v hv => hA v ((h v).1 hv)

private theorem forward_step {n y : ℕ} {m0 m : ℕ → ℕ → K} (hy : y < n) (h : Fwd n y m0 m) :
    Fwd n (y + 1) m0 (forwardStep n (n + 1) m y) := by
  obtain ⟨p1, p2, p3⟩ := pivotRow_spec n m y hy
  set p := pivotRow n m y with hp
  set s := swapRows y p m with hs
  have hpiv : s y y ≠ 0 := by
    have : s y y = m p y := by simp [hs, swapRows]
    rw [this]
    exact pivot_ne_zero h.ker y p hy h.low p3
  -- entries of the swapped matrix in the earlier columns
  have slow : ∀ i j, j < y → j < i → i < n → s i j = 0 := by
    intro i j h1 h2 h3
    simp only [hs, swapRows]
    split_ifs with e1 e2
    · exact h.low p j h1 (by omega) p2
    · exact h.low y j h1 (by omega) hy
    · exact h.low i j h1 h2 h3
  have sdiag : ∀ j, j < y → s j j = m j j := by
    intro j hj
    have h1 : j ≠ y := by omega
    have h2 : j ≠ p := by omega
    simp only [hs, swapRows, if_neg h1, if_neg h2]
  have hrow : ∀ i < n, i ≠ y → ∀ j < n + 1, eliminate n (n + 1) s y i j
      = s i j - (if y < i then s i y / s y y else 0) * s y j := by
    intro i hi hne j hj
    unfold eliminate
    by_cases h1 : y < i
    · by_cases h2 : y ≤ j
      · rw [if_pos ⟨h1, hi, h2, hj⟩, if_pos h1]; ring
      · rw [if_neg (by tauto), if_pos h1, slow y j (by omega) (by omega) hy]; ring
    · rw [if_neg (by tauto), if_neg h1]; ring
  have hrowy : ∀ j, eliminate n (n + 1) s y y j = s y j := by
    intro j
    unfold eliminate
    rw [if_neg (by omega)]
  have hsolve : ∀ (b b' v : ℕ → K), (∀ i < n, i ≠ y → b' i = swapRows y p b i
      - (if y < i then s i y / s y y else 0) * swapRows y p b y) → b' y = swapRows y p b y →
      (Solves n (eliminate n (n + 1) s y) b' v ↔ Solves n m b v) := by
    intro b b' v hb hby
    rw [← solves_swap (A := m) y p hy p2]
    refine solves_rowop y hy (fun i => if y < i then s i y / s y y else 0) 1 one_ne_zero ?_ ?_
    · intro i hi hne
      exact ⟨fun j hj => hrow i hi hne j (by omega), hb i hi hne⟩
    · exact ⟨fun j _ => by rw [hrowy, div_one], by rw [hby, div_one]⟩
  have esw : swapRows y p (fun i => m i n) = fun i => s i n := by
    funext i
    simp only [hs, swapRows]
    split_ifs <;> rfl
  show Fwd n (y + 1) m0 (eliminate n (n + 1) s y)
  constructor
  · intro v
    rw [← h.sol v]
    apply hsolve
    · intro i hi hne
      rw [esw]
      exact hrow i hi hne n (by omega)
    · rw [esw]; exact hrowy n
  · apply nonsingular_of_iff h.ker
    intro v
    apply hsolve
    · intro i hi hne; rw [swap_zero]; ring
    · rw [swap_zero]
  · intro i j hj hji hi
    by_cases hjy : j = y
    · subst hjy
      rw [hrow i hi (by omega) j (by omega), if_pos hji]
      field_simp
      ring
    · by_cases hiy : i = y
      · rw [hiy, hrowy]; exact slow y j (by omega) (by omega) hy
      · rw [hrow i hi hiy j (by omega), slow i j (by omega) hji hi, slow y j (by omega) (by omega) hy]
        ring
  · intro j hj
    by_cases hjy : j = y
    · subst hjy; rw [hrowy]; exact hpiv
    · have : eliminate n (n + 1) s y j j = s j j := by
        unfold eliminate; rw [if_neg (by omega)]
      rw [this, sdiag j (by omega)]
      exact h.diag j (by omega)

private theorem forward_all {n : ℕ} {m : ℕ → ℕ → K} (hA : Nonsingular n m) (y : ℕ) (hy : y ≤ n) :
    Fwd n y m ((List.range y).foldl (forwardStep n (n + 1)) m) := by
  induction y with
  | zero => exact ⟨fun v => Iff.rfl, hA, fun i j h => by omega, fun j h => by omega⟩
  | succ y ih =>
    rw [List.range_succ, List.foldl_append]
    exact forward_step (by omega) (ih (by omega))

/-- State of the back substitution when columns `≥ t` are done. -/
private structure Bwd (n t : ℕ) (m0 m : ℕ → ℕ → K) : Prop where
  sol : ∀ v, Solves n m (fun i => m i n) v ↔ Solves n m0 (fun i => m0 i n) v
  low : ∀ i j, j < i → i < n → m i j = 0
  diag : ∀ j, j < t → m j j ≠ 0
  done : ∀ i j, i < n → t ≤ j → j < n → m i j = if i = j then 1 else 0

private theorem backward_step {n y : ℕ} {m0 m : ℕ → ℕ → K} (hy : y < n) (h : Bwd n (y + 1) m0 m) :
    Bwd n y m0 (backwardStep n (n + 1) m y) := by
  have hpiv := h.diag y (by omega)
  have hrow : ∀ i < n, i ≠ y → ∀ j < n + 1, backwardStep n (n + 1) m y i j
      = m i j - (if i < y then m i y / m y y else 0) * m y j := by
    intro i hi hne j hj
    unfold backwardStep
    by_cases h1 : i < y
    · by_cases h2 : y ≤ j
      · rw [if_pos ⟨h1, h2, hj⟩, if_pos h1]; ring
      · rw [if_neg (by tauto), if_neg (by tauto), if_pos h1, h.low y j (by omega) hy]; ring
    · rw [if_neg (by tauto), if_neg (by tauto), if_neg h1]; ring
  have hrowy : ∀ j < n + 1, backwardStep n (n + 1) m y y j = m y j / m y y := by
    intro j hj
    unfold backwardStep
    rw [if_neg (by omega)]
    by_cases h2 : j = y ∨ (n ≤ j ∧ j < n + 1)
    · rw [if_pos ⟨rfl, h2⟩]
    · rw [if_neg (by tauto)]
      have : m y j = 0 := by
        by_cases h3 : j < y
        · exact h.low y j h3 hy
        · rw [h.done y j hy (by omega) (by omega), if_neg (by omega)]
      rw [this, zero_div]
  constructor
  · intro v
    rw [← h.sol v]
    refine solves_rowop y hy (fun i => if i < y then m i y / m y y else 0) (m y y) hpiv ?_ ?_
    · intro i hi hne
      exact ⟨fun j hj => hrow i hi hne j (by omega), hrow i hi hne n (by omega)⟩
    · exact ⟨fun j hj => hrowy j (by omega), hrowy n (by omega)⟩
  · intro i j hji hi
    by_cases hiy : i = y
    · subst hiy; rw [hrowy j (by omega), h.low i j hji hi, zero_div]
    · rw [hrow i hi hiy j (by omega), h.low i j hji hi]
      split_ifs with hc
      · rw [h.low y j (by omega) hy]; ring
      · ring
  · intro j hj
    rw [hrow j (by omega) (by omega) j (by omega), h.low y j hj hy, mul_zero, sub_zero]
    exact h.diag j (by omega)
  · intro i j hi hj1 hj2
    by_cases hiy : i = y
    · subst hiy
      rw [hrowy j (by omega)]
      by_cases hij : i = j
      · subst hij; rw [if_pos rfl, div_self hpiv]
      · rw [if_neg hij, h.done i j hi (by omega) hj2, if_neg hij, zero_div]
    · rw [hrow i hi hiy j (by omega)]
      by_cases hjy : j = y
      · subst hjy
        rw [if_neg hiy]
        split_ifs with hc
        · field_simp; ring
        · rw [h.low i j (by omega) hi]; ring
      · rw [h.done i j hi (by omega) hj2, h.done y j hy (by omega) hj2, if_neg (fun e : y = j => hjy e.symm)]
        ring

private theorem backward_all {n : ℕ} {m0 m : ℕ → ℕ → K} (h : Bwd n n m0 m) (k : ℕ) (hk : k ≤ n) :
    Bwd n 0 m0 ((List.range k).reverse.foldl (backwardStep n (n + 1)) m) ∨ k < n := by
  by_cases hkn : k < n
  · exact .inr hkn
  · left
    have : k = n := by omega
    subst this
    clear hkn hk
    have gen : ∀ t ≤ k, ∀ m, Bwd k t m0 m →
        Bwd k 0 m0 ((List.range t).reverse.foldl (backwardStep k (k + 1)) m) := by
      intro t
      induction t with
      | zero => intro _ m hm; exact hm
      | succ t ih =>
        intro ht m hm
        rw [List.range_succ, List.reverse_append, List.reverse_singleton, List.foldl_append]
        exact ih (by omega) _ (backward_step (by omega) hm)
    exact gen k (le_refl _) m h

/-- **C24.**  For every size `n`, every invertible matrix and every right-hand side (the last column of the
augmented matrix), the elimination returns the solution of the system, and there is no other one. -/
theorem C24_gauss_solves (n : ℕ) (A : ℕ → ℕ → K) (b : ℕ → K) (hA : Nonsingular n A) :
    Solves n A b (gaussSolve n (n + 1) fun i j => if j < n then A i j else b i) ∧
    ∀ v, Solves n A b v → ∀ j < n, v j = gaussSolve n (n + 1) (fun i j => if j < n then A i j else b i) j := by
  set m0 : ℕ → ℕ → K := fun i j => if j < n then A i j else b i with hm0
  have heq : ∀ b' v : ℕ → K, Solves n m0 b' v ↔ Solves n A b' v := by
    intro b' v
    unfold Solves
    apply forall₂_congr
    intro i hi
    have : ∑ j ∈ Finset.range n, m0 i j * v j = ∑ j ∈ Finset.range n, A i j * v j := by
      apply Finset.sum_congr rfl
      intro j hj
      simp only [hm0, if_pos (Finset.mem_range.1 hj)]
    rw [this]
  have hn0 : Nonsingular n m0 := nonsingular_of_iff hA (fun v => heq _ v)
  have f := forward_all hn0 n (le_refl _)
  have b0 : Bwd n n m0 ((List.range n).foldl (forwardStep n (n + 1)) m0) :=
    ⟨f.sol, fun i j h1 h2 => f.low i j (by omega) h1 h2, f.diag, fun i j _ h1 h2 => by omega⟩
  rcases backward_all b0 n (le_refl _) with h | h
  swap
  · omega
  set m := (List.range n).reverse.foldl (backwardStep n (n + 1))
    ((List.range n).foldl (forwardStep n (n + 1)) m0) with hm
  have hsol : gaussSolve n (n + 1) m0 = fun y => m y n := rfl
  have hrhs : (fun i => m0 i n) = b := by
    funext i; simp [hm0]
  have key : ∀ v, Solves n A b v ↔ ∀ i < n, v i = m i n := by
    intro v
    rw [← heq, ← hrhs, ← h.sol v]
    unfold Solves
    apply forall₂_congr
    intro i hi
    have : ∑ j ∈ Finset.range n, m i j * v j = v i := by
      rw [Finset.sum_eq_single i]
      · rw [h.done i i hi (by omega) hi, if_pos rfl, one_mul]
      · intro j hj hne
        rw [h.done i j hi (by omega) (Finset.mem_range.1 hj), if_neg (fun e => hne e.symm), zero_mul]
      · intro hni; exact absurd (Finset.mem_range.2 hi) hni
    rw [this]
  rw [hsol]
  exact ⟨(key _).2 fun i _ => rfl, fun v hv j hj => (key v).1 hv j hj⟩

/-- **C24, `serial_solve`.**  Every point is solved, whatever the other points are. -/
theorem C24_serial_solve (n : ℕ) (points : List ((ℕ → ℕ → K) × (ℕ → K))) :
    (serialSolve n points).length = points.length ∧
    ∀ (i : ℕ) (A : ℕ → ℕ → K) (b : ℕ → K), points[i]? = some (A, b) → Nonsingular n A →
      ∃ v : ℕ → K, (serialSolve n points)[i]? = some v ∧ Solves n A b v := by
  refine ⟨by simp [serialSolve], ?_⟩
  intro i A b hi hA
  refine ⟨_, by simp only [serialSolve, List.getElem?_map, hi, Option.map_some]; rfl, ?_⟩
  exact (C24_gauss_solves n A b hA).1

/-- A matrix which needs a row exchange: `[[0, 1], [2, 0]]`. -/
example : Nonsingular 2 (fun i j => if i = 0 then (if j = 1 then (1 : ℚ) else 0) else if j = 0 then 2 else 0) := by
  intro v hv
  have h0 := hv 0 (by norm_num)
  have h1 := hv 1 (by norm_num)
  norm_num [Finset.sum_range_succ] at h0 h1
  intro j hj
  interval_cases j
  · exact h1
  · exact h0

/-! ### C25 -/

/-- State of `invert` after the columns `< y`. -/
private structure IFwd (n cols y : ℕ) (A0 B0 A B : ℕ → ℕ → K) : Prop where
  sol : ∀ c < cols, ∀ v, Solves n A (fun i => B i c) v ↔ Solves n A0 (fun i => B0 i c) v
  ker : Nonsingular n A
  low : ∀ i j, j < y → j < i → i < n → A i j = 0
  diag : ∀ j, j < y → A j j = 1

private theorem inv_forward_step {n cols y : ℕ} {A0 B0 A B : ℕ → ℕ → K} (hy : y < n)
    (h : IFwd n cols y A0 B0 A B) :
    IFwd n cols (y + 1) A0 B0 (invForward n cols (A, B) y).1 (invForward n cols (A, B) y).2 := by
  obtain ⟨p1, p2, p3⟩ := invPivot_spec n A y hy
  set p := invPivot n A y with hp
  set s := swapRows y p A with hs
  set sb := swapRows y p B with hsb
  have hpiv : s y y ≠ 0 := by
    have : s y y = A p y := by simp [hs, swapRows]
    rw [this]
    exact pivot_ne_zero h.ker y p hy h.low p3
  have slow : ∀ i j, j < y → j < i → i < n → s i j = 0 := by
    intro i j h1 h2 h3
    simp only [hs, swapRows]
    split_ifs with e1 e2
    · exact h.low p j h1 (by omega) p2
    · exact h.low y j h1 (by omega) hy
    · exact h.low i j h1 h2 h3
  have sdiag : ∀ j, j < y → s j j = A j j := by
    intro j hj
    have h1 : j ≠ y := by omega
    have h2 : j ≠ p := by omega
    simp only [hs, swapRows, if_neg h1, if_neg h2]
  set R := invForward n cols (A, B) y with hR
  have dA : ∀ i, i ≠ y → ∀ j, divideRow n y (s y y) s i j = s i j := by
    intro i hi j; unfold divideRow; rw [if_neg (by tauto)]
  have dB : ∀ i, i ≠ y → ∀ j, divideRow cols y (s y y) sb i j = sb i j := by
    intro i hi j; unfold divideRow; rw [if_neg (by tauto)]
  have dAy : ∀ j < n, divideRow n y (s y y) s y j = s y j / s y y := by
    intro j hj; unfold divideRow; rw [if_pos ⟨rfl, hj⟩]
  have dBy : ∀ j < cols, divideRow cols y (s y y) sb y j = sb y j / s y y := by
    intro j hj; unfold divideRow; rw [if_pos ⟨rfl, hj⟩]
  have rA : ∀ i < n, i ≠ y → ∀ j < n, R.1 i j
      = s i j - (if y < i then s i y / s y y else 0) * s y j := by
    intro i hi hne j hj
    simp only [hR, invForward, subtractRows, ← hp, ← hs]
    by_cases h1 : y < i
    · rw [if_pos (by simp [h1, hi, hj]), if_pos h1, dA i hne, dA i hne, dAy j hj]; ring
    · rw [if_neg (by simp [h1]), if_neg h1, dA i hne]; ring
  have rAy : ∀ j < n, R.1 y j = s y j / s y y := by
    intro j hj
    simp only [hR, invForward, subtractRows, ← hp, ← hs]
    rw [if_neg (by simp), dAy j hj]
  have rB : ∀ i < n, i ≠ y → ∀ j < cols, R.2 i j
      = sb i j - (if y < i then s i y / s y y else 0) * sb y j := by
    intro i hi hne j hj
    simp only [hR, invForward, subtractRows, ← hp, ← hs, ← hsb]
    by_cases h1 : y < i
    · rw [if_pos (by simp [h1, hi, hj]), if_pos h1, dA i hne, dB i hne, dBy j hj]; ring
    · rw [if_neg (by simp [h1]), if_neg h1, dB i hne]; ring
  have rBy : ∀ j < cols, R.2 y j = sb y j / s y y := by
    intro j hj
    simp only [hR, invForward, subtractRows, ← hp, ← hs, ← hsb]
    rw [if_neg (by simp), dBy j hj]
  have hsolve : ∀ (b b' v : ℕ → K), (∀ i < n, i ≠ y → b' i = swapRows y p b i
      - (if y < i then s i y / s y y else 0) * swapRows y p b y) → b' y = swapRows y p b y / s y y →
      (Solves n R.1 b' v ↔ Solves n A b v) := by
    intro b b' v hb hby
    rw [← solves_swap (A := A) y p hy p2]
    refine solves_rowop y hy (fun i => if y < i then s i y / s y y else 0) (s y y) hpiv ?_ ?_
    · intro i hi hne
      exact ⟨fun j hj => rA i hi hne j hj, hb i hi hne⟩
    · exact ⟨fun j hj => rAy j hj, hby⟩
  constructor
  · intro c hc v
    rw [← h.sol c hc v]
    have esw : swapRows y p (fun i => B i c) = fun i => sb i c := by
      funext i
      simp only [hsb, swapRows]
      split_ifs <;> rfl
    apply hsolve
    · intro i hi hne
      rw [esw]
      exact rB i hi hne c hc
    · rw [esw]; exact rBy c hc
  · apply nonsingular_of_iff h.ker
    intro v
    apply hsolve
    · intro i hi hne; rw [swap_zero]; ring
    · rw [swap_zero]; simp
  · intro i j hj hji hi
    by_cases hjy : j = y
    · subst hjy
      rw [rA i hi (by omega) j (by omega), if_pos hji]
      field_simp
      ring
    · by_cases hiy : i = y
      · rw [hiy, rAy j (by omega), slow y j (by omega) (by omega) hy, zero_div]
      · rw [rA i hi hiy j (by omega), slow i j (by omega) hji hi, slow y j (by omega) (by omega) hy]
        ring
  · intro j hj
    by_cases hjy : j = y
    · subst hjy; rw [rAy j hy, div_self hpiv]
    · rw [rA j (by omega) hjy j (by omega), if_neg (by omega), sdiag j (by omega), h.diag j (by omega)]
      ring

private theorem inv_forward_all {n cols : ℕ} {A B : ℕ → ℕ → K} (hA : Nonsingular n A) (y : ℕ)
    (hy : y ≤ n) :
    IFwd n cols y A B ((List.range y).foldl (invForward n cols) (A, B)).1
      ((List.range y).foldl (invForward n cols) (A, B)).2 := by
  induction y with
  | zero => exact ⟨fun c _ v => Iff.rfl, hA, fun i j h => by omega, fun j h => by omega⟩
  | succ y ih =>
    rw [List.range_succ, List.foldl_append]
    exact inv_forward_step (by omega) (ih (by omega))

private structure IBwd (n cols t : ℕ) (A0 B0 A B : ℕ → ℕ → K) : Prop where
  sol : ∀ c < cols, ∀ v, Solves n A (fun i => B i c) v ↔ Solves n A0 (fun i => B0 i c) v
  low : ∀ i j, j < i → i < n → A i j = 0
  diag : ∀ j, j < t → A j j = 1
  done : ∀ i j, i < n → t ≤ j → j < n → A i j = if i = j then 1 else 0

private theorem inv_backward_step {n cols y : ℕ} {A0 B0 A B : ℕ → ℕ → K} (hy : y < n)
    (h : IBwd n cols (y + 1) A0 B0 A B) :
    IBwd n cols y A0 B0 (invBackward n cols (A, B) y).1 (invBackward n cols (A, B) y).2 := by
  have hd := h.diag y (by omega)
  set R := invBackward n cols (A, B) y with hR
  have rA : ∀ i < n, ∀ j < n, R.1 i j = A i j - (if i < y then A i y else 0) * A y j := by
    intro i hi j hj
    simp only [hR, invBackward, subtractRows]
    by_cases h1 : i < y
    · rw [if_pos (by simp [h1, hj]), if_pos h1]
    · rw [if_neg (by simp [h1]), if_neg h1]; ring
  have rB : ∀ i < n, ∀ j < cols, R.2 i j = B i j - (if i < y then A i y else 0) * B y j := by
    intro i hi j hj
    simp only [hR, invBackward, subtractRows]
    by_cases h1 : i < y
    · rw [if_pos (by simp [h1, hj]), if_pos h1]
    · rw [if_neg (by simp [h1]), if_neg h1]; ring
  constructor
  · intro c hc v
    rw [← h.sol c hc v]
    refine solves_rowop y hy (fun i => if i < y then A i y else 0) 1 one_ne_zero ?_ ?_
    · intro i hi hne
      exact ⟨fun j hj => rA i hi j hj, rB i hi c hc⟩
    · refine ⟨fun j hj => ?_, ?_⟩
      · rw [rA y hy j hj, if_neg (by omega)]; ring
      · rw [rB y hy c hc, if_neg (by omega)]; ring
  · intro i j hji hi
    rw [rA i hi j (by omega), h.low i j hji hi]
    split_ifs with hc
    · rw [h.low y j (by omega) hy]; ring
    · ring
  · intro j hj
    rw [rA j (by omega) j (by omega), h.low y j hj hy, mul_zero, sub_zero]
    exact h.diag j (by omega)
  · intro i j hi hj1 hj2
    rw [rA i hi j hj2]
    by_cases hjy : j = y
    · subst hjy
      by_cases hij : i = j
      · subst hij; rw [if_pos rfl, if_neg (by omega), hd]; ring
      · rw [if_neg hij]
        split_ifs with hc
        · rw [hd]; ring
        · rw [h.low i j (by omega) hi]; ring
    · rw [h.done i j hi (by omega) hj2, h.done y j hy (by omega) hj2, if_neg (fun e : y = j => hjy e.symm)]
      ring

private theorem inv_backward_all {n cols : ℕ} {A0 B0 : ℕ → ℕ → K} :
    ∀ t ≤ n, ∀ s : (ℕ → ℕ → K) × (ℕ → ℕ → K), IBwd n cols t A0 B0 s.1 s.2 →
      IBwd n cols 0 A0 B0 ((List.range t).reverse.foldl (invBackward n cols) s).1
        ((List.range t).reverse.foldl (invBackward n cols) s).2 := by
  intro t
  induction t with
  | zero => intro _ m hm; exact hm
  | succ t ih =>
    intro ht s hs
    rw [List.range_succ, List.reverse_append, List.reverse_singleton, List.foldl_append]
    exact ih (by omega) _ (inv_backward_step (A := s.1) (B := s.2) (by omega) hs)

/-- The columns of `B` that `invert` treats: all those of a vector, of a square matrix and of a tensor. -/
def RhsShape.Good (n : ℕ) : RhsShape → Prop
  | .vector => True
  | .matrix p => p = n
  | .tensor _ => True

/-- **C25 (partial).**  For an invertible `A` and a `B` which is a vector, a square matrix or a tensor, the
in-place elimination ends with `A` equal to the identity and every column of `B` replaced by the solution of
the system it was the right-hand side of.  (The claim is false for a matrix that is not square,
`C25_rectangular_fails`.) -/
theorem C25_invert_partial (n : ℕ) (shape : RhsShape) (hs : shape.Good n) (A B : ℕ → ℕ → K)
    (hA : Nonsingular n A) :
    ∃ A' X, invert n shape A B = .ok (A', X) ∧
      (∀ i < n, ∀ j < n, A' i j = if i = j then 1 else 0) ∧
      ∀ c < shape.columns, Solves n A (fun i => B i c) (fun i => X i c) := by
  have hcols : shape.columns = shape.loop n := by
    cases shape with
    | vector => rfl
    | matrix p => exact hs
    | tensor p => rfl
  unfold invert
  rw [if_neg (by omega)]
  have f := inv_forward_all (cols := shape.loop n) (B := B) hA n (le_refl _)
  set s := (List.range n).foldl (invForward n (shape.loop n)) (A, B) with hsdef
  have b0 : IBwd n (shape.loop n) n A B s.1 s.2 :=
    ⟨f.sol, fun i j h1 h2 => f.low i j (by omega) h1 h2, f.diag, fun i j _ h1 h2 => by omega⟩
  have h := inv_backward_all n (le_refl _) s b0
  refine ⟨_, _, rfl, fun i hi j hj => h.done i j hi (by omega) hj, ?_⟩
  intro c hc
  rw [← h.sol c (by omega)]
  intro i hi
  rw [Finset.sum_eq_single i]
  · rw [h.done i i hi (by omega) hi, if_pos rfl, one_mul]
  · intro j hj hne
    rw [h.done i j hi (by omega) (Finset.mem_range.1 hj), if_neg (fun e => hne e.symm), zero_mul]
  · intro hni; exact absurd (Finset.mem_range.2 hi) hni

/-- **C25, `invert_gu`.**  The matrix returned is the inverse of `A`. -/
theorem C25_invert_gu (n : ℕ) (A : ℕ → ℕ → K) (hA : Nonsingular n A) :
    ∃ X, invertGu n A = .ok X ∧
      ∀ i < n, ∀ j < n, ∑ k ∈ Finset.range n, A i k * X k j = if i = j then 1 else 0 := by
  obtain ⟨A', X, h1, -, h2⟩ := C25_invert_partial n (.matrix n) rfl A (fun i j => if i = j then 1 else 0) hA
  refine ⟨X, by simp [invertGu, h1, bind, Except.bind, pure, Except.pure], ?_⟩
  intro i hi j hj
  exact h2 j hj i hi

/-- **C25, `solve_gu`.**  The vector is replaced by the solution of the system. -/
theorem C25_solve_gu (n : ℕ) (A : ℕ → ℕ → K) (b : ℕ → K) (hA : Nonsingular n A) :
    ∃ v, solveGu n A b = .ok v ∧ Solves n A b v := by
  obtain ⟨A', X, h1, -, h2⟩ := C25_invert_partial n .vector trivial A (fun i _ => b i) hA
  refine ⟨fun i => X i 0, by simp [solveGu, h1, bind, Except.bind, pure, Except.pure], ?_⟩
  exact h2 0 (by decide)

/-- A matrix `B` with more columns than rows: the extra columns are left as they are.  With `A = [[2]]` and
`B = [[2, 2]]` the result is `[[1, 2]]`. -/
theorem C25_rectangular_fails :
    ∃ (n p : ℕ) (A B A' X : ℕ → ℕ → ℚ), Nonsingular n A ∧
      invert n (.matrix p) A B = .ok (A', X) ∧
      ¬ ∀ c < p, Solves n A (fun i => B i c) (fun i => X i c) := by
  refine ⟨1, 2, fun _ _ => 2, fun _ _ => 2, _, _, ?_, rfl, ?_⟩
  · intro v hv j hj
    have := hv 0 (by norm_num)
    norm_num at this
    have : j = 0 := by omega
    subst this; assumption
  · intro h
    have := h 1 (by norm_num) 0 (by norm_num)
    simp [invForward, subtractRows, divideRow, RhsShape.loop, swapRows, invPivot] at this

/-- With fewer columns than rows the loops leave the array. -/
theorem C25_narrow_fails (n p : ℕ) (h : p < n) (A B : ℕ → ℕ → K) :
    invert n (.matrix p) A B = .error .indexError := by
  simp [invert, RhsShape.columns, RhsShape.loop, h]

end Dolo
