import Mathlib.Algebra.BigOperators.Fin
import Mathlib.Data.Fintype.BigOperators
import Mathlib.Logic.Equiv.Fin.Basic
import Mathlib.Tactic.NormNum
import Mathlib.Tactic.IntervalCases
import Verif.Model.Sylvester
import Verif.Props.Gauss

/-!
# C26: Sylvester equations
-/

set_option linter.unusedSectionVars false

namespace Dolo

variable {K : Type} [Field K]

/-! ### Specification -/

/-- What is expected of `numpy.linalg.solve`. -/
def LinSolver.Correct (solve : LinSolver K) : Prop :=
  ∀ n A b, Nonsingular n A → Solves n A b (solve n A b)

/-- The matrix equation `Σ A X B + D = 0` has at most one solution `X` (`n × q`). -/
def SylvesterRegular (n q : ℕ) (args : List ((ℕ → ℕ → K) × (ℕ → ℕ → K))) : Prop :=
  ∀ X : ℕ → ℕ → K,
    (∀ i < n, ∀ j < q, (args.map fun (A, B) =>
      ∑ k ∈ Finset.range n, ∑ l ∈ Finset.range q, A i k * X k l * B l j).sum = 0) →
    ∀ i < n, ∀ j < q, X i j = 0

/-- Position of the entry `(j₀, ..., j_{d-1})` in a row-major array of shape `(v, ..., v)`. -/
def tupleIndex {v : ℕ} : (d : ℕ) → (Fin d → Fin v) → ℕ
  | 0, _ => 0
  | d + 1, j => tupleIndex d (fun t => j t.castSucc) * v + j (Fin.last d)

/-! ### Auxiliary -/

theorem sum_range_mul (n q : ℕ) (f : ℕ → ℕ → K) :
    ∑ k ∈ Finset.range (n * q), f (k / q) (k % q)
      = ∑ i ∈ Finset.range n, ∑ j ∈ Finset.range q, f i j := by
  induction n with
  | zero => simp
  | succ n ih =>
    rw [Nat.succ_mul, Finset.sum_range_add, ih, Finset.sum_range_succ]
    congr 1
    apply Finset.sum_congr rfl
    intro j hj
    have hj := Finset.mem_range.1 hj
    have h1 : (n * q + j) / q = n := by
      rw [Nat.mul_comm, Nat.mul_add_div (by omega), Nat.div_eq_of_lt hj, Nat.add_zero]
    have h2 : (n * q + j) % q = j := by
      rw [Nat.mul_comm, Nat.mul_add_mod, Nat.mod_eq_of_lt hj]
    rw [h1, h2]

private theorem div_mod_pair {n q i j : ℕ} (hi : i < n) (hj : j < q) :
    (i * q + j) / q = i ∧ (i * q + j) % q = j ∧ i * q + j < n * q := by
  refine ⟨?_, ?_, ?_⟩
  · rw [Nat.mul_comm, Nat.mul_add_div (by omega), Nat.div_eq_of_lt hj, Nat.add_zero]
  · rw [Nat.mul_comm, Nat.mul_add_mod, Nat.mod_eq_of_lt hj]
  · calc i * q + j < i * q + q := by omega
      _ = (i + 1) * q := by ring
      _ ≤ n * q := Nat.mul_le_mul_right _ hi

private theorem list_sum_mul (l : List K) (x : K) : l.sum * x = (l.map (· * x)).sum := by
  induction l with
  | nil => simp
  | cons a l ih => simp [add_mul, ih]

private theorem finset_list_sum {α : Type} (s : Finset ℕ) (l : List α) (f : α → ℕ → K) :
    ∑ k ∈ s, (l.map fun a => f a k).sum = (l.map fun a => ∑ k ∈ s, f a k).sum := by
  induction l with
  | nil => simp
  | cons a l ih => simp [Finset.sum_add_distrib, ih]

/-- The stacked matrix applied to `x`, in terms of the matrix that `x` stacks. -/
private theorem stacked_apply (n q : ℕ) (args : List ((ℕ → ℕ → K) × (ℕ → ℕ → K))) (X : ℕ → ℕ → K)
    (i j : ℕ) (hi : i < n) (hj : j < q) :
    ∑ k ∈ Finset.range (n * q),
      (args.map fun (p : (ℕ → ℕ → K) × (ℕ → ℕ → K)) => kron q q p.1 (transp p.2) (i * q + j) k).sum
        * X (k / q) (k % q)
      = (args.map fun (p : (ℕ → ℕ → K) × (ℕ → ℕ → K)) =>
          ∑ k ∈ Finset.range n, ∑ l ∈ Finset.range q, p.1 i k * X k l * p.2 l j).sum := by
  obtain ⟨h1, h2, h3⟩ := div_mod_pair hi hj
  simp only [list_sum_mul, List.map_map]
  rw [finset_list_sum]
  congr 1
  apply List.map_congr_left
  intro p _
  simp only [Function.comp, kron, transp, h1, h2]
  rw [← sum_range_mul n q (fun k l => p.1 i k * X k l * p.2 l j)]
  apply Finset.sum_congr rfl
  intro k _
  ring

private theorem stacked_nonsingular {n q : ℕ} {args : List ((ℕ → ℕ → K) × (ℕ → ℕ → K))}
    (h : SylvesterRegular n q args) :
    Nonsingular (n * q) (fun i j =>
      (args.map fun (p : (ℕ → ℕ → K) × (ℕ → ℕ → K)) => kron q q p.1 (transp p.2) i j).sum) := by
  intro x hx
  have key := h (fun i j => x (i * q + j)) ?_
  · intro k hk
    have hq : 0 < q := by
      rcases Nat.eq_zero_or_pos q with rfl | h
      · omega
      · exact h
    have := key (k / q) (Nat.div_lt_of_lt_mul (by rwa [Nat.mul_comm] at hk)) (k % q) (Nat.mod_lt _ hq)
    rwa [Nat.mul_comm, Nat.div_add_mod] at this
  · intro i hi j hj
    have hs := hx (i * q + j) (div_mod_pair hi hj).2.2
    have e : ∀ k, x k = (fun a b => x (a * q + b)) (k / q) (k % q) := by
      intro k
      simp only []
      rw [Nat.mul_comm, Nat.div_add_mod]
    have hst := stacked_apply n q args (fun a b => x (a * q + b)) i j hi hj
    simp only [← e] at hst
    exact hst.symm.trans hs

/-- **C26.**  For every number of terms and every sizes, if the equation is regular, the matrix returned
satisfies `Σ A X B + D = 0`. -/
theorem C26_vectorized (solve : LinSolver K) (hsolve : solve.Correct) (n q : ℕ)
    (args : List ((ℕ → ℕ → K) × (ℕ → ℕ → K))) (D : ℕ → ℕ → K) (hreg : SylvesterRegular n q args) :
    ∀ i < n, ∀ j < q,
      (args.map fun (A, B) => ∑ k ∈ Finset.range n, ∑ l ∈ Finset.range q,
        A i k * sylvesterVectorized solve n q args D k l * B l j).sum + D i j = 0 := by
  intro i hi j hj
  obtain ⟨h1, h2, h3⟩ := div_mod_pair hi hj
  have hs := hsolve _ _ (fun i => - ravel q D i) (stacked_nonsingular hreg) (i * q + j) h3
  set x := solve (n * q) (fun i j =>
      (args.map fun (p : (ℕ → ℕ → K) × (ℕ → ℕ → K)) => kron q q p.1 (transp p.2) i j).sum)
      (fun i => - ravel q D i) with hx
  have e : sylvesterVectorized solve n q args D = fun a b => x (a * q + b) := rfl
  rw [e]
  have := stacked_apply n q args (fun a b => x (a * q + b)) i j hi hj
  have e2 : ∀ k, x k = (fun a b => x (a * q + b)) (k / q) (k % q) := by
    intro k
    simp only []
    rw [Nat.mul_comm, Nat.div_add_mod]
  simp only [← e2] at this
  rw [hs] at this
  simp only [ravel, h1, h2] at this
  have this2 : (args.map fun (p : (ℕ → ℕ → K) × (ℕ → ℕ → K)) =>
          ∑ k ∈ Finset.range n, ∑ l ∈ Finset.range q, p.1 i k * x (k * q + l) * p.2 l j).sum
          = - D i j := this.symm
  show (args.map fun (p : (ℕ → ℕ → K) × (ℕ → ℕ → K)) =>
          ∑ k ∈ Finset.range n, ∑ l ∈ Finset.range q, p.1 i k * x (k * q + l) * p.2 l j).sum + D i j = 0
  rw [this2]
  ring

theorem tupleIndex_lt {v : ℕ} (d : ℕ) (j : Fin d → Fin v) : tupleIndex d j < v ^ d := by
  induction d with
  | zero => simp [tupleIndex]
  | succ d ih =>
    rw [tupleIndex, pow_succ]
    exact (div_mod_pair (ih _) (j (Fin.last d)).isLt).2.2

theorem sum_tupleIndex {v : ℕ} (d : ℕ) (f : ℕ → K) :
    ∑ k ∈ Finset.range (v ^ d), f k = ∑ j : Fin d → Fin v, f (tupleIndex d j) := by
  induction d generalizing f with
  | zero => simp [tupleIndex]
  | succ d ih =>
    have e1 : ∑ k ∈ Finset.range (v ^ (d + 1)), f k
        = ∑ a ∈ Finset.range (v ^ d), ∑ b ∈ Finset.range v, f (a * v + b) := by
      rw [pow_succ, ← sum_range_mul (v ^ d) v (fun a b => f (a * v + b))]
      apply Finset.sum_congr rfl
      intro k _
      rw [Nat.mul_comm, Nat.div_add_mod]
    rw [e1, ih]
    rw [← (Fin.snocEquiv (fun _ : Fin (d + 1) => Fin v)).sum_comp, Fintype.sum_prod_type, Finset.sum_comm]
    rw [Finset.sum_comm]
    symm
    rw [Finset.sum_comm]
    symm
    apply Finset.sum_congr rfl
    intro j _
    rw [Finset.sum_range]
    apply Finset.sum_congr rfl
    intro b _
    simp [tupleIndex, Fin.snocEquiv]

private theorem kronPower_succ (v : ℕ) (C : ℕ → ℕ → K) (d : ℕ) (hd : 1 ≤ d) :
    kronPower v C (d + 1) = kron v v (kronPower v C d) C := by
  unfold kronPower
  rcases Nat.lt_or_ge 1 d with h | h
  · have e : d + 1 - 2 = (d - 2) + 1 := by omega
    simp only [e, List.range_succ, List.foldl_append, List.foldl_cons, List.foldl_nil]
    rw [if_neg (by omega), if_neg (by omega)]
  · have : d = 1 := by omega
    subst this
    simp

/-- The matrix `CC` of `solve_sylvester` has entries `Π C[l_t, j_t]`. -/
private theorem kronPower_apply {v : ℕ} (C : ℕ → ℕ → K) (d : ℕ) (hd : 1 ≤ d) (l j : Fin d → Fin v) :
    kronPower v C d (tupleIndex d l) (tupleIndex d j) = ∏ t, C (l t) (j t) := by
  induction d with
  | zero => omega
  | succ d ih =>
    rcases Nat.eq_zero_or_pos d with rfl | h
    · simp [kronPower, tupleIndex]
    · rw [kronPower_succ v C d h, kron, tupleIndex, tupleIndex]
      obtain ⟨a1, a2, -⟩ := div_mod_pair (tupleIndex_lt d (fun t => l t.castSucc)) (l (Fin.last d)).isLt
      obtain ⟨b1, b2, -⟩ := div_mod_pair (tupleIndex_lt d (fun t => j t.castSucc)) (j (Fin.last d)).isLt
      rw [a1, a2, b1, b2, ih h, Fin.prod_univ_castSucc]

private theorem mid_sum (m : ℕ) (A : ℕ → ℕ → K) (X : ℕ → ℕ → K) (i j n : ℕ) (hj : j < m) :
    ∑ k ∈ Finset.range n, ∑ l ∈ Finset.range m, A i k * X k l * (if l = j then 1 else 0)
      = ∑ k ∈ Finset.range n, A i k * X k j := by
  apply Finset.sum_congr rfl
  intro k _
  rw [Finset.sum_eq_single j]
  · simp
  · intro b _ hb; rw [if_neg hb, mul_zero]
  · intro h; exact absurd (Finset.mem_range.2 hj) h

/-- The equation `A X + B X[C, ..., C] = 0` in an `nc`-valued `nd`-linear function `X` has no non-zero
solution. -/
def MultilinearRegular (nc v nd : ℕ) (A B C : ℕ → ℕ → K) : Prop :=
  ∀ X : ℕ → (Fin nd → Fin v) → K,
    (∀ i < nc, ∀ j : Fin nd → Fin v,
      ∑ k ∈ Finset.range nc, A i k * X k j
        + ∑ k ∈ Finset.range nc, B i k * ∑ l : Fin nd → Fin v, X k l * ∏ t, C (l t) (j t) = 0) →
    ∀ i < nc, ∀ j, X i j = 0

/-- Every position of a flattened array is the position of some multi-index. -/
private theorem tupleIndex_surj {v : ℕ} (d k : ℕ) (hk : k < v ^ d) : ∃ j : Fin d → Fin v, tupleIndex d j = k := by
  induction d generalizing k with
  | zero => exact ⟨fun t => t.elim0, by simp [tupleIndex] at *; omega⟩
  | succ d ih =>
    have hv : 0 < v := by
      rcases Nat.eq_zero_or_pos v with rfl | h
      · simp at hk
      · exact h
    obtain ⟨j, hj⟩ := ih (k / v) (Nat.div_lt_of_lt_mul (by rwa [pow_succ, Nat.mul_comm] at hk))
    refine ⟨Fin.snoc (α := fun _ => Fin v) j ⟨k % v, Nat.mod_lt _ hv⟩, ?_⟩
    simp only [tupleIndex, Fin.snoc_castSucc, Fin.snoc_last, hj]
    rw [Nat.mul_comm, Nat.div_add_mod]

/-- The matrix form of the operator, entry by entry. -/
private theorem two_terms {nc v nd : ℕ} (hnd : 1 ≤ nd) (A B C X : ℕ → ℕ → K) (i : ℕ) (j : Fin nd → Fin v) :
    ([(A, fun i j => if i = j then 1 else 0), (B, kronPower v C nd)].map
        fun (p : (ℕ → ℕ → K) × (ℕ → ℕ → K)) => ∑ k ∈ Finset.range nc, ∑ l ∈ Finset.range (v ^ nd),
          p.1 i k * X k l * p.2 l (tupleIndex nd j)).sum
      = ∑ k ∈ Finset.range nc, A i k * X k (tupleIndex nd j)
        + ∑ k ∈ Finset.range nc, B i k * ∑ l : Fin nd → Fin v, X k (tupleIndex nd l) * ∏ t, C (l t) (j t) := by
  simp only [List.map_cons, List.map_nil, List.sum_cons, List.sum_nil, add_zero]
  rw [mid_sum _ A X i (tupleIndex nd j) nc (tupleIndex_lt nd j)]
  congr 1
  apply Finset.sum_congr rfl
  intro k _
  rw [sum_tupleIndex, Finset.mul_sum]
  apply Finset.sum_congr rfl
  intro l _
  rw [kronPower_apply C nd hnd]
  ring

private theorem regular_of_multilinear {nc v nd : ℕ} (hnd : 1 ≤ nd) {A B C : ℕ → ℕ → K}
    (h : MultilinearRegular nc v nd A B C) :
    SylvesterRegular nc (v ^ nd) [(A, fun i j => if i = j then 1 else 0), (B, kronPower v C nd)] := by
  intro X hX i hi jj hjj
  have := h (fun k j => X k (tupleIndex nd j)) ?_ i hi
  · obtain ⟨j, rfl⟩ := tupleIndex_surj nd jj hjj
    exact this j
  · intro i hi j
    rw [← two_terms hnd A B C X i j]
    exact hX i hi _ (tupleIndex_lt nd j)

/-- **C26, `solve_sylvester`.**  For every number of dimensions, the tensor returned satisfies
`A X + B X[C, ..., C] + D = 0`, entry by entry. -/
theorem C26_multilinear (solve : LinSolver K) (hsolve : solve.Correct) (nc v nd : ℕ) (hnd : 1 ≤ nd)
    (A B C D : ℕ → ℕ → K) (hreg : MultilinearRegular nc v nd A B C) :
    let X := solveSylvester solve nc v nd A B C D
    ∀ i < nc, ∀ j : Fin nd → Fin v,
      ∑ k ∈ Finset.range nc, A i k * X k (tupleIndex nd j)
        + ∑ k ∈ Finset.range nc, B i k * ∑ l : Fin nd → Fin v, X k (tupleIndex nd l) * ∏ t, C (l t) (j t)
        + D i (tupleIndex nd j) = 0 := by
  intro X i hi j
  have := C26_vectorized solve hsolve nc (v ^ nd) _ D (regular_of_multilinear hnd hreg) i hi
    (tupleIndex nd j) (tupleIndex_lt nd j)
  rw [← two_terms hnd A B C X i j]
  exact this

/-- The elimination of C24 is a linear solver in the sense used here. -/
theorem C26_solver_exists [LinearOrder K] [IsStrictOrderedRing K] :
    LinSolver.Correct (fun n A b => gaussSolve n (n + 1) fun i j => if j < n then A i j else b i : LinSolver K) :=
  fun n A b h => (C24_gauss_solves n A b h).1

/-- A regular equation: `2 X + X[C, C] + D = 0` with `C = [[1/2]]`. -/
example : MultilinearRegular (K := ℚ) 1 1 2 (fun _ _ => 2) (fun _ _ => 1) (fun _ _ => 1 / 2) := by
  intro X hX i hi j
  have := hX 0 (by norm_num) j
  have hj : ∀ l : Fin 2 → Fin 1, l = j := fun l => Subsingleton.elim _ _
  have hu : (Finset.univ : Finset (Fin 2 → Fin 1)) = {j} := by
    ext l; simp only [Finset.mem_univ, Finset.mem_singleton, hj l]
  rw [hu] at this
  simp at this
  have hi0 : i = 0 := by omega
  subst hi0
  linarith

end Dolo
