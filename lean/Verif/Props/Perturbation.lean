import Mathlib.LinearAlgebra.Matrix.NonsingularInverse
import Mathlib.LinearAlgebra.Matrix.Block
import Mathlib.LinearAlgebra.Matrix.SchurComplement
import Mathlib.Tactic.NoncommRing
import Mathlib.Tactic.FinCases
import Mathlib.Tactic.NormNum
import Mathlib.Tactic.Linarith
import Mathlib.Tactic.FieldSimp
import Verif.Model.Perturbation

/-!
# C33-C35, C77, C78: first-order perturbation
-/

set_option linter.unusedSectionVars false

namespace Dolo

open Matrix

variable {K : Type} [Field K] [LinearOrder K] [IsStrictOrderedRing K]

/-! ### Specification -/

/-- `ordqz`: `A = Q S Zᵀ` and `B = Q T Zᵀ` with orthogonal `Q` and `Z`. -/
structure QZ.Correct {I : Type} [Fintype I] [DecidableEq I] (d : QZ I K) (A B : Matrix I I K) : Prop where
  hA : A = d.Q * d.S * d.Zᵀ
  hB : B = d.Q * d.T * d.Zᵀ
  hQ : d.Qᵀ * d.Q = 1
  hZ : d.Zᵀ * d.Z = 1

/-- `numpy.linalg.solve` returns only for nonsingular matrices, and then the solution. -/
def MatSolver.Correct (solve : MatSolver K) : Prop :=
  ∀ n m M R X, solve n m M R = .ok X → IsUnit M.det ∧ M * X = R

/-- The linearised equilibrium conditions hold along `x = C s`, `s' = g_s s + g_x x`. -/
def LinearSolution {ns nx : ℕ} (g_s : Matrix (Fin ns) (Fin ns) K) (g_x : Matrix (Fin ns) (Fin nx) K)
    (f_s : Matrix (Fin nx) (Fin ns) K) (f_x : Matrix (Fin nx) (Fin nx) K)
    (f_S : Matrix (Fin nx) (Fin ns) K) (f_X : Matrix (Fin nx) (Fin nx) K)
    (C : Matrix (Fin nx) (Fin ns) K) : Prop :=
  f_s + f_x * C + f_S * (g_s + g_x * C) + f_X * C * (g_s + g_x * C) = 0

/-- The decomposition is split between its diagonal blocks by the states, with an invertible first block of
`S` (no zero generalised eigenvalue among the first `n_s`). -/
structure QZ.Split {ns nx : ℕ} (d : QZ (Fin ns ⊕ Fin nx) K) : Prop where
  hS : d.S.toBlocks₂₁ = 0
  hT : d.T.toBlocks₂₁ = 0
  hS11 : IsUnit d.S.toBlocks₁₁.det

/-! ### C33 -/

section
variable {ns nx : ℕ} {g_s : Matrix (Fin ns) (Fin ns) K} {g_x : Matrix (Fin ns) (Fin nx) K}
  {f_s : Matrix (Fin nx) (Fin ns) K} {f_x : Matrix (Fin nx) (Fin nx) K}
  {f_S : Matrix (Fin nx) (Fin ns) K} {f_X : Matrix (Fin nx) (Fin nx) K}

private theorem block_equations {d : QZ (Fin ns ⊕ Fin nx) K}
    (hd : d.Correct (pencilA f_S f_X) (pencilB g_s g_x f_s f_x)) (hs : d.Split) :
    d.Z.toBlocks₁₁ = d.Q.toBlocks₁₁ * d.S.toBlocks₁₁ ∧
    -f_S * d.Z.toBlocks₁₁ + -f_X * d.Z.toBlocks₂₁ = d.Q.toBlocks₂₁ * d.S.toBlocks₁₁ ∧
    g_s * d.Z.toBlocks₁₁ + g_x * d.Z.toBlocks₂₁ = d.Q.toBlocks₁₁ * d.T.toBlocks₁₁ ∧
    f_s * d.Z.toBlocks₁₁ + f_x * d.Z.toBlocks₂₁ = d.Q.toBlocks₂₁ * d.T.toBlocks₁₁ := by
  have eA : pencilA f_S f_X * d.Z = d.Q * d.S := by
    rw [hd.hA, Matrix.mul_assoc, hd.hZ, Matrix.mul_one]
  have eB : pencilB g_s g_x f_s f_x * d.Z = d.Q * d.T := by
    rw [hd.hB, Matrix.mul_assoc, hd.hZ, Matrix.mul_one]
  obtain ⟨hS, hT, -⟩ := hs
  rw [← fromBlocks_toBlocks d.Z, ← fromBlocks_toBlocks d.Q, ← fromBlocks_toBlocks d.S, pencilA,
    fromBlocks_multiply, fromBlocks_multiply, fromBlocks_inj, hS] at eA
  rw [← fromBlocks_toBlocks d.Z, ← fromBlocks_toBlocks d.Q, ← fromBlocks_toBlocks d.T, pencilB,
    fromBlocks_multiply, fromBlocks_multiply, fromBlocks_inj, hT] at eB
  obtain ⟨a1, -, a2, -⟩ := eA
  obtain ⟨b1, -, b2, -⟩ := eB
  simp only [Matrix.mul_zero, add_zero, Matrix.one_mul, Matrix.zero_mul] at a1 a2 b1 b2
  exact ⟨a1, a2, b1, b2⟩

/-- The rule computed from a decomposition: `C Z11 = Z21`, with `Z11` invertible. -/
theorem rule_eq {solve : MatSolver K} (hsolve : solve.Correct) {d : QZ (Fin ns ⊕ Fin nx) K}
    {C : Matrix (Fin nx) (Fin ns) K} (h : ruleFromQZ solve d = .ok C) :
    IsUnit d.Z.toBlocks₁₁.det ∧ C * d.Z.toBlocks₁₁ = d.Z.toBlocks₂₁ := by
  unfold ruleFromQZ at h
  rcases hx : solve ns nx d.Z.toBlocks₁₁ᵀ d.Z.toBlocks₂₁ᵀ with e | X
  · simp [hx, bind, Except.bind] at h
  · simp only [hx, bind, Except.bind, pure, Except.pure, Except.ok.injEq] at h
    obtain ⟨h1, h2⟩ := hsolve _ _ _ _ _ hx
    rw [det_transpose] at h1
    refine ⟨h1, ?_⟩
    rw [← h]
    have := congrArg transpose h2
    simpa [transpose_mul] using this

/-- Transition of the states under the rule, in the coordinates of the decomposition. -/
theorem transition_eq {d : QZ (Fin ns ⊕ Fin nx) K}
    (hd : d.Correct (pencilA f_S f_X) (pencilB g_s g_x f_s f_x)) (hs : d.Split)
    {C : Matrix (Fin nx) (Fin ns) K} (hC : C * d.Z.toBlocks₁₁ = d.Z.toBlocks₂₁) :
    (g_s + g_x * C) * d.Z.toBlocks₁₁ = d.Z.toBlocks₁₁ * (d.S.toBlocks₁₁⁻¹ * d.T.toBlocks₁₁) := by
  obtain ⟨a1, a2, b1, b2⟩ := block_equations hd hs
  have hQ : d.Q.toBlocks₁₁ = d.Z.toBlocks₁₁ * d.S.toBlocks₁₁⁻¹ := by
    rw [a1, Matrix.mul_assoc, mul_nonsing_inv _ hs.hS11, Matrix.mul_one]
  rw [Matrix.add_mul, Matrix.mul_assoc, hC, b1, hQ, Matrix.mul_assoc]

theorem linear_solution_of_split {d : QZ (Fin ns ⊕ Fin nx) K}
    (hd : d.Correct (pencilA f_S f_X) (pencilB g_s g_x f_s f_x)) (hs : d.Split)
    {C : Matrix (Fin nx) (Fin ns) K} (hZ : IsUnit d.Z.toBlocks₁₁.det)
    (hC : C * d.Z.toBlocks₁₁ = d.Z.toBlocks₂₁) : LinearSolution g_s g_x f_s f_x f_S f_X C := by
  obtain ⟨a1, a2, b1, b2⟩ := block_equations hd hs
  have hP := transition_eq hd hs hC
  have hQ2 : d.Q.toBlocks₂₁ = (-f_S * d.Z.toBlocks₁₁ + -f_X * d.Z.toBlocks₂₁) * d.S.toBlocks₁₁⁻¹ := by
    rw [a2, Matrix.mul_assoc, mul_nonsing_inv _ hs.hS11, Matrix.mul_one]
  set P := g_s + g_x * C with hPdef
  have key : (f_s + f_x * C + f_S * P + f_X * C * P) * d.Z.toBlocks₁₁ = 0 := by
    have e1 : (f_s + f_x * C) * d.Z.toBlocks₁₁ = d.Q.toBlocks₂₁ * d.T.toBlocks₁₁ := by
      rw [Matrix.add_mul, Matrix.mul_assoc, hC, b2]
    have e2 : d.Q.toBlocks₂₁ * d.T.toBlocks₁₁ = -(f_S * P + f_X * C * P) * d.Z.toBlocks₁₁ := by
      rw [hQ2, ← hC]
      have : (-f_S * d.Z.toBlocks₁₁ + -f_X * (C * d.Z.toBlocks₁₁)) * d.S.toBlocks₁₁⁻¹ * d.T.toBlocks₁₁
          = -(f_S + f_X * C) * (d.Z.toBlocks₁₁ * (d.S.toBlocks₁₁⁻¹ * d.T.toBlocks₁₁)) := by
        simp only [Matrix.neg_mul, Matrix.add_mul, Matrix.mul_assoc, neg_add]
      rw [this, ← hP]
      simp only [Matrix.neg_mul, Matrix.add_mul, Matrix.mul_assoc, neg_add]
    have e3 : f_s + f_x * C + f_S * P + f_X * C * P = (f_s + f_x * C) + (f_S * P + f_X * C * P) := by
      rw [add_assoc]
    rw [e3, Matrix.add_mul, e1, e2, Matrix.neg_mul, neg_add_cancel]
  have := congrArg (· * d.Z.toBlocks₁₁⁻¹) key
  simp only [Matrix.mul_assoc, mul_nonsing_inv _ hZ, Matrix.mul_one, Matrix.zero_mul] at this
  unfold LinearSolution
  rw [← hPdef]
  simpa only [Matrix.mul_assoc] using this

private theorem pyMax_spec {α : Type} [LinearOrder α] (l : List α) (a : α) (h : pyMax l = .ok a) :
    a ∈ l ∧ ∀ b ∈ l, b ≤ a := by
  cases l with
  | nil => simp [pyMax] at h
  | cons c l =>
    simp only [pyMax, Except.ok.injEq] at h
    subst h
    have gen : ∀ (l : List α) (c : α), l.foldl max c ∈ c :: l ∧ ∀ b ∈ c :: l, b ≤ l.foldl max c := by
      intro l
      induction l with
      | nil => intro c; simp
      | cons d l ih =>
        intro c
        obtain ⟨h1, h2⟩ := ih (max c d)
        simp only [List.foldl_cons]
        constructor
        · rcases List.mem_cons.1 h1 with h | h
          · rw [h]
            rcases le_total c d with hcd | hcd
            · rw [max_eq_right hcd]; simp
            · rw [max_eq_left hcd]; simp
          · simp [h]
        · intro b hb
          have hm := h2 (max c d) (by simp)
          rcases List.mem_cons.1 hb with rfl | hb
          · exact le_trans (le_max_left _ _) hm
          · rcases List.mem_cons.1 hb with rfl | hb
            · exact le_trans (le_max_right _ _) hm
            · exact h2 b (by simp [hb])
    exact gen l c

private theorem pyMin_spec {α : Type} [LinearOrder α] (l : List α) (a : α) (h : pyMin l = .ok a) :
    a ∈ l ∧ ∀ b ∈ l, a ≤ b := by
  have : pyMax (α := αᵒᵈ) l = .ok a := by
    cases l with
    | nil => simp [pyMin] at h
    | cons c l => exact h
  exact pyMax_spec (α := αᵒᵈ) l a this

theorem take_eigList (d : QZ (Fin ns ⊕ Fin nx) K) :
    (eigList d).take ns = List.ofFn (fun i => genEig d (.inl i)) := by
  unfold eigList
  rw [List.take_append_of_le_length (by simp), List.take_of_length_le (by simp)]

theorem drop_eigList (d : QZ (Fin ns ⊕ Fin nx) K) :
    (eigList d).drop ns = List.ofFn (fun j => genEig d (.inr j)) := by
  unfold eigList
  rw [List.drop_append_of_le_length (by simp), List.drop_of_length_le (by simp), List.nil_append]

private theorem bkTest_true {d : QZ (Fin ns ⊕ Fin nx) K} (h : bkTest d = .ok true) :
    (∃ i, 1 ≤ genEig d (.inl i)) ∧ ∃ j, genEig d (.inr j) < 1 := by
  unfold bkTest at h
  rw [take_eigList, drop_eigList] at h
  rcases ha : pyMax (List.ofFn fun i => genEig d (.inl i)) with e | a
  · simp [ha, bind, Except.bind] at h
  · simp only [ha, bind, Except.bind] at h
    split_ifs at h with h1
    · rcases hb : pyMin (List.ofFn fun j => genEig d (.inr j)) with e | b
      · simp [hb] at h
      · simp only [hb, pure, Except.pure, Except.ok.injEq, decide_eq_true_eq] at h
        obtain ⟨i, hi⟩ := (List.mem_ofFn' _ _).1 (pyMax_spec _ _ ha).1
        obtain ⟨j, hj⟩ := (List.mem_ofFn' _ _).1 (pyMin_spec _ _ hb).1
        exact ⟨⟨i, by rw [← hi] at h1; exact h1⟩, ⟨j, by rw [← hj] at h; exact h⟩⟩
    · simp [pure, Except.pure] at h

private theorem sorted_le {l : List (WithTop K)} {i : ℕ} {a b : WithTop K}
    (ha : (l.mergeSort (fun a b => decide (a ≤ b)))[i - 1]? = some a)
    (hb : (l.mergeSort (fun a b => decide (a ≤ b)))[i]? = some b) : a ≤ b := by
  have hp : List.Pairwise (fun a b => (decide (a ≤ b)) = true) (l.mergeSort (fun a b => decide (a ≤ b))) :=
    List.pairwise_mergeSort (fun a b c h1 h2 => by
      simp only [decide_eq_true_eq] at *; exact le_trans h1 h2)
      (fun a b => by simp only [Bool.or_eq_true, decide_eq_true_eq]; exact le_total a b) l
  rcases Nat.eq_zero_or_pos i with rfl | hi
  · rw [Nat.zero_sub, hb] at ha
    simp at ha
    exact le_of_eq ha.symm
  · obtain ⟨h1, rfl⟩ := List.getElem?_eq_some_iff.1 ha
    obtain ⟨h2, rfl⟩ := List.getElem?_eq_some_iff.1 hb
    have := List.pairwise_iff_getElem.1 hp (i - 1) i h1 h2 (by omega)
    simpa using this

private theorem select_ok {solve : MatSolver K} {d : QZ (Fin ns ⊕ Fin nx) K} {qz : K → QZ (Fin ns ⊕ Fin nx) K}
    {cut : WithTop K → WithTop K → K} {r : FirstOrder ns nx K} (h : selectRule solve d qz cut = .ok r) :
    diagOk d = true ∧ bkTest d = .ok true ∧ ruleFromQZ solve d = .ok r.C ∧ r.warned = false ∧
      r.eigvals = (eigList d).mergeSort (fun a b => decide (a ≤ b)) := by
  unfold selectRule at h
  rcases hdiag : diagOk d with _ | _
  · simp [hdiag, bind, Except.bind, throw, throwThe, MonadExceptOf.throw] at h
  · rcases hbk : bkTest d with e | b
    · simp [hdiag, hbk, bind, Except.bind] at h
    · cases b with
      | true =>
        rcases hr : ruleFromQZ solve d with e | C
        · simp [hdiag, hbk, hr, bind, Except.bind] at h
        · simp only [hdiag, hbk, hr, bind, Except.bind, pure, Except.pure, Bool.not_true, if_true,
            Except.ok.injEq, Bool.false_eq_true, if_false] at h
          subst h
          exact ⟨rfl, rfl, rfl, rfl, rfl⟩
      | false =>
        exfalso
        simp only [hdiag, hbk, bind, Except.bind, pure, Except.pure, Bool.not_true, Bool.false_eq_true,
          if_false] at h
        rcases ha : ((eigList d).mergeSort (fun a b => decide (a ≤ b)))[ns - 1]? with _ | a
        · simp [pyGet, ha] at h
        · rcases hb : ((eigList d).mergeSort (fun a b => decide (a ≤ b)))[ns]? with _ | b
          · simp [pyGet, ha, hb] at h
          · have hle := sorted_le ha hb
            simp [pyGet, ha, hb, not_lt.2 hle, throw, throwThe, MonadExceptOf.throw] at h

/-- The structure of a successful run. -/
theorem approximate_ok {solve : MatSolver K}
    {qz : Matrix (Fin ns ⊕ Fin nx) (Fin ns ⊕ Fin nx) K → Matrix (Fin ns ⊕ Fin nx) (Fin ns ⊕ Fin nx) K → K →
      QZ (Fin ns ⊕ Fin nx) K} {cut : WithTop K → WithTop K → K} {r : FirstOrder ns nx K}
    (h : approximate1stOrder solve qz cut g_s g_x f_s f_x f_S f_X = .ok r) :
    let d := qz (pencilA f_S f_X) (pencilB g_s g_x f_s f_x) (1 - 1 / 10 ^ 8)
    diagOk d = true ∧ bkTest d = .ok true ∧ ruleFromQZ solve d = .ok r.C ∧ r.warned = false ∧
      r.eigvals = (eigList d).mergeSort (fun a b => decide (a ≤ b)) := by
  intro d
  exact select_ok h

/-- **C33.**  For every number of states and controls, every derivative matrices, and every generalised Schur
decomposition that splits at the number of states (with no zero eigenvalue among the first `n_s`): the matrix
`C` returned by `approximate_1st_order` satisfies
`f_s + f_x C + f_S (g_s + g_x C) + f_X C (g_s + g_x C) = 0`. -/
theorem C33_first_order {solve : MatSolver K} (hsolve : solve.Correct)
    {qz : Matrix (Fin ns ⊕ Fin nx) (Fin ns ⊕ Fin nx) K → Matrix (Fin ns ⊕ Fin nx) (Fin ns ⊕ Fin nx) K → K →
      QZ (Fin ns ⊕ Fin nx) K}
    (hqz : (qz (pencilA f_S f_X) (pencilB g_s g_x f_s f_x) (1 - 1 / 10 ^ 8)).Correct
      (pencilA f_S f_X) (pencilB g_s g_x f_s f_x))
    (hsplit : (qz (pencilA f_S f_X) (pencilB g_s g_x f_s f_x) (1 - 1 / 10 ^ 8)).Split)
    (cut : WithTop K → WithTop K → K) (r : FirstOrder ns nx K)
    (h : approximate1stOrder solve qz cut g_s g_x f_s f_x f_S f_X = .ok r) :
    f_s + f_x * r.C + f_S * (g_s + g_x * r.C) + f_X * r.C * (g_s + g_x * r.C) = 0 := by
  obtain ⟨-, -, h1, -, -⟩ := approximate_ok h
  obtain ⟨h2, h3⟩ := rule_eq hsolve h1
  exact linear_solution_of_split hqz hsplit h2 h3

/-! ### C34 -/

/-- **C34 (partial).**  `approximate_1st_order` never issues a warning: whenever it returns, the test on line 148
was passed, that is *some* of the first `n_s` eigenvalues is at least one and *some* of the others below one;
in all other cases it raises.  The Blanchard-Kahn conditions ask for *all* of them: see `C34_fails` and
`C34_fails_indeterminate`; what is missing is exactly this. -/
theorem C34_returns_partial {solve : MatSolver K}
    {qz : Matrix (Fin ns ⊕ Fin nx) (Fin ns ⊕ Fin nx) K → Matrix (Fin ns ⊕ Fin nx) (Fin ns ⊕ Fin nx) K → K →
      QZ (Fin ns ⊕ Fin nx) K} (cut : WithTop K → WithTop K → K) (r : FirstOrder ns nx K)
    (h : approximate1stOrder solve qz cut g_s g_x f_s f_x f_S f_X = .ok r) :
    let d := qz (pencilA f_S f_X) (pencilB g_s g_x f_s f_x) (1 - 1 / 10 ^ 8)
    r.warned = false ∧ (∃ i, 1 ≤ genEig d (.inl i)) ∧ ∃ j, genEig d (.inr j) < 1 := by
  intro d
  obtain ⟨-, h1, -, h2, -⟩ := approximate_ok h
  exact ⟨h2, bkTest_true h1⟩

/-- **C34 (partial).**  With one state and one control the test is exact. -/
theorem C34_one_state_partial {solve : MatSolver K}
    {qz : Matrix (Fin 1 ⊕ Fin 1) (Fin 1 ⊕ Fin 1) K → Matrix (Fin 1 ⊕ Fin 1) (Fin 1 ⊕ Fin 1) K → K →
      QZ (Fin 1 ⊕ Fin 1) K} (cut : WithTop K → WithTop K → K)
    {g_s g_x f_s f_x f_S f_X : Matrix (Fin 1) (Fin 1) K} (r : FirstOrder 1 1 K)
    (h : approximate1stOrder solve qz cut g_s g_x f_s f_x f_S f_X = .ok r) :
    let d := qz (pencilA f_S f_X) (pencilB g_s g_x f_s f_x) (1 - 1 / 10 ^ 8)
    (∀ i, 1 ≤ genEig d (.inl i)) ∧ ∀ j, genEig d (.inr j) < 1 := by
  intro d
  obtain ⟨-, ⟨i, hi⟩, ⟨j, hj⟩⟩ := C34_returns_partial cut r h
  refine ⟨fun i' => ?_, fun j' => ?_⟩
  · rw [Subsingleton.elim i' i]; exact hi
  · rw [Subsingleton.elim j' j]; exact hj

end

/-! ### C78: the eigenvalues reported -/

theorem tri_det {n : ℕ} (M : Matrix (Fin n) (Fin n) K) (h : ∀ i j, j < i → M i j = 0) :
    M.det = ∏ i, M i i := det_of_isUpperTriangular (fun i j hij => h i j hij)

/-- The diagonal blocks of the decomposition are upper triangular: all generalised eigenvalues are real. -/
structure QZ.Triangular {ns nx : ℕ} (d : QZ (Fin ns ⊕ Fin nx) K) : Prop where
  S21 : ∀ i j, d.S (.inr i) (.inl j) = 0
  T21 : ∀ i j, d.T (.inr i) (.inl j) = 0
  S11 : ∀ i j, j < i → d.S (.inl i) (.inl j) = 0
  T11 : ∀ i j, j < i → d.T (.inl i) (.inl j) = 0
  S22 : ∀ i j, j < i → d.S (.inr i) (.inr j) = 0
  T22 : ∀ i j, j < i → d.T (.inr i) (.inr j) = 0

private theorem det_pencil {ns nx : ℕ} {d : QZ (Fin ns ⊕ Fin nx) K}
    {A B : Matrix (Fin ns ⊕ Fin nx) (Fin ns ⊕ Fin nx) K} (hd : d.Correct A B) (a b : K) :
    (a • A - b • B).det = 0 ↔ (a • d.S - b • d.T).det = 0 := by
  have e : a • A - b • B = d.Q * (a • d.S - b • d.T) * d.Zᵀ := by
    rw [hd.hA, hd.hB]
    simp only [Matrix.mul_sub, Matrix.sub_mul, Matrix.mul_smul, Matrix.smul_mul]
  have hq : d.Q.det ≠ 0 := by
    intro h
    have := congrArg det hd.hQ
    rw [det_mul, det_transpose, h] at this
    simp at this
  have hz : d.Zᵀ.det ≠ 0 := by
    intro h
    have := congrArg det hd.hZ
    rw [det_mul, h] at this
    simp at this
  rw [e, det_mul, det_mul]
  rw [mul_eq_zero, mul_eq_zero]
  simp only [hq, hz, false_or, or_false]

private theorem det_tri {ns nx : ℕ} {d : QZ (Fin ns ⊕ Fin nx) K} (ht : d.Triangular) (a b : K) :
    (a • d.S - b • d.T).det = ∏ i, (a * d.S i i - b * d.T i i) := by
  rw [← fromBlocks_toBlocks (a • d.S - b • d.T)]
  have h21 : (a • d.S - b • d.T).toBlocks₂₁ = 0 := by
    ext i j
    simp [toBlocks₂₁, ht.S21, ht.T21]
  rw [h21, det_fromBlocks_zero₂₁, tri_det, tri_det, Fintype.prod_sum_type]
  · simp [toBlocks₁₁, toBlocks₂₂]
  · intro i j hij; simp [toBlocks₂₂, ht.S22 i j hij, ht.T22 i j hij]
  · intro i j hij; simp [toBlocks₁₁, ht.S11 i j hij, ht.T11 i j hij]

theorem diag_ne {ns nx : ℕ} {d : QZ (Fin ns ⊕ Fin nx) K} (hok : diagOk d = true) (i : Fin ns ⊕ Fin nx) :
    ¬ (d.S i i = 0 ∧ d.T i i = 0) := by
  rintro ⟨h1, h2⟩
  unfold diagOk at hok
  simp only [List.all_append, Bool.and_eq_true, List.all_eq_true] at hok
  have hpos : |(0 : K)| < 1 / 10 ^ 10 := by rw [abs_zero]; positivity
  have hb : (decide (|d.S i i| < 1 / 10 ^ 10) && decide (|d.T i i| < 1 / 10 ^ 10)) = true := by
    rw [h1, h2, decide_eq_true hpos]; rfl
  rcases i with i | i
  · have := hok.1 _ ((List.mem_ofFn' _ _).2 ⟨i, rfl⟩)
    simp only [] at this
    rw [hb] at this
    simp at this
  · have := hok.2 _ ((List.mem_ofFn' _ _).2 ⟨i, rfl⟩)
    simp only [] at this
    rw [hb] at this
    simp at this

/-- **C78.**  When the decomposition is triangular, the numbers reported are exactly the moduli of the
generalised eigenvalues: `c` finite is reported iff some `λ` with `|λ| = c` satisfies `det(A - λ B) = 0`
(provided no index has `S_ii = T_ii = 0`, which is checked), and `∞` is reported iff `det B = 0`. -/
theorem C78_eigenvalues_partial {ns nx : ℕ} {d : QZ (Fin ns ⊕ Fin nx) K}
    {A B : Matrix (Fin ns ⊕ Fin nx) (Fin ns ⊕ Fin nx) K} (hd : d.Correct A B) (ht : d.Triangular)
    (hok : diagOk d = true) :
    (∀ c : K, (c : WithTop K) ∈ eigList d ↔ ∃ l : K, |l| = c ∧ (A - l • B).det = 0) ∧
    (⊤ ∈ eigList d ↔ B.det = 0) := by
  have hne := diag_ne hok
  have hmem : ∀ e : WithTop K, e ∈ eigList d ↔ ∃ i, genEig d i = e := by
    intro e
    unfold eigList
    rw [List.mem_append, List.mem_ofFn', List.mem_ofFn']
    constructor
    · rintro (⟨i, hi⟩ | ⟨i, hi⟩)
      · exact ⟨_, hi⟩
      · exact ⟨_, hi⟩
    · rintro ⟨i | i, hi⟩
      · exact .inl ⟨i, hi⟩
      · exact .inr ⟨i, hi⟩
  constructor
  · intro c
    rw [hmem]
    have e : ∀ l : K, (A - l • B).det = 0 ↔ ∃ i, d.S i i = l * d.T i i := by
      intro l
      have h1 := det_pencil hd 1 l
      rw [one_smul] at h1
      rw [h1, det_tri ht, Finset.prod_eq_zero_iff]
      constructor
      · rintro ⟨i, -, hi⟩; exact ⟨i, by linarith⟩
      · rintro ⟨i, hi⟩; exact ⟨i, Finset.mem_univ _, by rw [hi]; ring⟩
    simp only [e]
    constructor
    · rintro ⟨i, hi⟩
      unfold genEig at hi
      split_ifs at hi with h0
      · simp at hi
      · rw [WithTop.coe_inj] at hi
        exact ⟨d.S i i / d.T i i, hi, i, (div_mul_cancel₀ _ h0).symm⟩
    · rintro ⟨l, hl, i, hi⟩
      have h0 : d.T i i ≠ 0 := by
        intro h
        exact hne i ⟨by rw [hi, h, mul_zero], h⟩
      refine ⟨i, ?_⟩
      unfold genEig
      rw [if_neg h0, WithTop.coe_inj, hi, mul_div_cancel_right₀ _ h0, hl]
  · rw [hmem]
    have h1 := det_pencil hd 0 (-1)
    simp only [zero_smul, zero_sub, neg_smul, one_smul, neg_neg] at h1
    have h2 := det_tri ht 0 (-1)
    simp only [zero_smul, zero_sub, neg_smul, one_smul, neg_neg, zero_mul, neg_mul, one_mul] at h2
    rw [h1, h2, Finset.prod_eq_zero_iff]
    constructor
    · rintro ⟨i, hi⟩
      refine ⟨i, Finset.mem_univ _, ?_⟩
      unfold genEig at hi
      split_ifs at hi with h0
      · exact h0
      · exact absurd hi WithTop.coe_ne_top
    · rintro ⟨i, -, hi⟩
      exact ⟨i, by simp [genEig, hi]⟩

/-- **C78, stability of the solution.**  When moreover the first `n_s` eigenvalues are all above one, every
eigenvalue of the transition matrix `g_s + g_x C` of the solution is smaller than one in absolute value. -/
theorem C78_stable_solution_partial {ns nx : ℕ} {g_s : Matrix (Fin ns) (Fin ns) K} {g_x : Matrix (Fin ns) (Fin nx) K}
    {f_s : Matrix (Fin nx) (Fin ns) K} {f_x : Matrix (Fin nx) (Fin nx) K}
    {f_S : Matrix (Fin nx) (Fin ns) K} {f_X : Matrix (Fin nx) (Fin nx) K}
    {solve : MatSolver K} (hsolve : solve.Correct)
    {qz : Matrix (Fin ns ⊕ Fin nx) (Fin ns ⊕ Fin nx) K → Matrix (Fin ns ⊕ Fin nx) (Fin ns ⊕ Fin nx) K → K →
      QZ (Fin ns ⊕ Fin nx) K}
    (hqz : (qz (pencilA f_S f_X) (pencilB g_s g_x f_s f_x) (1 - 1 / 10 ^ 8)).Correct
      (pencilA f_S f_X) (pencilB g_s g_x f_s f_x))
    (cut : WithTop K → WithTop K → K) (r : FirstOrder ns nx K)
    (h : approximate1stOrder solve qz cut g_s g_x f_s f_x f_S f_X = .ok r) :
    let d := qz (pencilA f_S f_X) (pencilB g_s g_x f_s f_x) (1 - 1 / 10 ^ 8)
    d.Triangular → (∀ i, 1 < genEig d (.inl i)) →
    ∀ μ : K, (g_s + g_x * r.C - μ • (1 : Matrix (Fin ns) (Fin ns) K)).det = 0 → |μ| < 1 := by
  intro d ht hbig μ hμ
  obtain ⟨hok, -, h1, -, -⟩ := approximate_ok h
  obtain ⟨h2, h3⟩ := rule_eq hsolve h1
  change IsUnit d.Z.toBlocks₁₁.det at h2
  have hSne : ∀ i, d.S (.inl i) (.inl i) ≠ 0 := by
    intro i h0
    have := hbig i
    unfold genEig at this
    split_ifs at this with hT
    · exact diag_ne hok _ ⟨h0, hT⟩
    · rw [h0, zero_div, abs_zero] at this
      have h' := WithTop.coe_lt_coe.1 (show ((1 : K) : WithTop K) < ((0 : K) : WithTop K) from this)
      exact absurd h' (not_lt.2 zero_le_one)
  have hsp : d.Split := by
    refine ⟨?_, ?_, ?_⟩
    · ext i j; simp [toBlocks₂₁, ht.S21]
    · ext i j; simp [toBlocks₂₁, ht.T21]
    · rw [tri_det _ (fun i j hij => by simp [toBlocks₁₁, ht.S11 i j hij]), isUnit_iff_ne_zero,
        Finset.prod_ne_zero_iff]
      intro i _
      exact hSne i
  have hP := transition_eq hqz hsp h3
  change _ * d.Z.toBlocks₁₁ = d.Z.toBlocks₁₁ * (d.S.toBlocks₁₁⁻¹ * d.T.toBlocks₁₁) at hP
  -- S11 Z11⁻¹ (P - μ) Z11 = T11 - μ S11
  have e : d.S.toBlocks₁₁ * (d.Z.toBlocks₁₁⁻¹ * ((g_s + g_x * r.C - μ • 1) * d.Z.toBlocks₁₁))
      = d.T.toBlocks₁₁ - μ • d.S.toBlocks₁₁ := by
    rw [Matrix.sub_mul, hP, Matrix.smul_mul, Matrix.one_mul, Matrix.mul_sub, ← Matrix.mul_assoc,
      nonsing_inv_mul _ h2, Matrix.one_mul, Matrix.mul_smul, nonsing_inv_mul _ h2, Matrix.mul_sub,
      ← Matrix.mul_assoc, mul_nonsing_inv _ hsp.hS11, Matrix.one_mul, Matrix.mul_smul, Matrix.mul_one]
  have e2 := congrArg det e
  rw [det_mul, det_mul, det_mul, hμ] at e2
  simp only [zero_mul, mul_zero] at e2
  rw [tri_det _ (fun i j hij => by simp [toBlocks₁₁, ht.S11 i j hij, ht.T11 i j hij])] at e2
  obtain ⟨i, -, hi⟩ := Finset.prod_eq_zero_iff.1 e2.symm
  simp only [toBlocks₁₁, Matrix.sub_apply, Matrix.of_apply, Matrix.smul_apply, smul_eq_mul] at hi
  have hT : d.T (.inl i) (.inl i) = μ * d.S (.inl i) (.inl i) := by linarith
  have hb := hbig i
  unfold genEig at hb
  split_ifs at hb with h0
  · rw [h0] at hT
    have : μ = 0 := by
      rcases mul_eq_zero.1 hT.symm with h | h
      · exact h
      · exact absurd h (hSne i)
    rw [this, abs_zero]; exact zero_lt_one
  · have hb' : (1 : K) < |d.S (.inl i) (.inl i) / d.T (.inl i) (.inl i)| :=
      WithTop.coe_lt_coe.1 (show ((1 : K) : WithTop K) < _ from hb)
    have hμ0 : μ ≠ 0 := by
      intro h; rw [h, zero_mul] at hT; exact h0 hT
    rw [hT, mul_comm μ, ← div_div, div_self (hSne i), one_div, abs_inv] at hb'
    have hpos : 0 < |μ| := abs_pos.2 hμ0
    rw [one_lt_inv₀ hpos] at hb'
    exact hb'

/-! ### Witnesses for C33, C34 and C78 -/

open Classical in
/-- An exact linear solver. -/
noncomputable def exactSolver : MatSolver ℚ := fun _ _ M R =>
  if IsUnit M.det then .ok (M⁻¹ * R) else .error .linAlgError

theorem exactSolver_correct : MatSolver.Correct exactSolver := by
  intro n m M R X h
  unfold exactSolver at h
  split_ifs at h with hM
  simp only [Except.ok.injEq] at h
  refine ⟨hM, ?_⟩
  rw [← h, ← Matrix.mul_assoc, mul_nonsing_inv _ hM, Matrix.one_mul]

private theorem exactSolver_one (ns nx : ℕ) :
    exactSolver ns nx (1 : Matrix (Fin ns) (Fin ns) ℚ)ᵀ (0 : Matrix (Fin nx) (Fin ns) ℚ)ᵀ = .ok 0 := by
  unfold exactSolver
  rw [if_pos (by simp)]
  simp

private theorem one_blocks (ns nx : ℕ) :
    (1 : Matrix (Fin ns ⊕ Fin nx) (Fin ns ⊕ Fin nx) ℚ).toBlocks₁₁ = 1 ∧
    (1 : Matrix (Fin ns ⊕ Fin nx) (Fin ns ⊕ Fin nx) ℚ).toBlocks₂₁ = 0 := by
  rw [← fromBlocks_one]
  exact ⟨toBlocks_fromBlocks₁₁ _ _ _ _, toBlocks_fromBlocks₂₁ _ _ _ _⟩

/-- A pencil that is already diagonal is its own decomposition. -/
theorem diagonal_correct {ns nx : ℕ} (A B : Matrix (Fin ns ⊕ Fin nx) (Fin ns ⊕ Fin nx) ℚ) :
    QZ.Correct (⟨A, B, 1, 1⟩ : QZ _ ℚ) A B :=
  ⟨by simp, by simp, by simp, by simp⟩

/-- One state, one control, one stable and one unstable eigenvalue: the hypotheses of C33 are met, and
`approximate_1st_order` returns. -/
example : let A := pencilA (K := ℚ) (ns := 1) (nx := 1) 0 !![-(1/2)]
    let B := pencilB (K := ℚ) (ns := 1) (nx := 1) !![1/2] 0 0 1
    let d : QZ (Fin 1 ⊕ Fin 1) ℚ := ⟨A, B, 1, 1⟩
    d.Correct A B ∧ d.Split ∧ d.Triangular ∧ (∀ i, 1 < genEig d (.inl i)) ∧ ∃ r, approximate1stOrder exactSolver (fun _ _ _ => d) (fun _ _ => 0)
      !![1/2] 0 0 1 0 !![-(1/2)] = .ok r := by
  intro A B d
  refine ⟨diagonal_correct A B, ⟨?_, ?_, ?_⟩, ⟨?_, ?_, ?_, ?_, ?_, ?_⟩, ?_, ⟨0, (eigList d).mergeSort (fun a b => decide (a ≤ b)), false⟩, ?_⟩
  · ext i j; simp [d, A, pencilA, toBlocks₂₁]
  · ext i j; simp [d, B, pencilB, toBlocks₂₁]
  · simp [d, A, pencilA, toBlocks₁₁]
  · intro i j; simp [d, A, pencilA]
  · intro i j; simp [d, B, pencilB]
  · intro i j hij; exact absurd hij (by rw [Subsingleton.elim i j]; exact lt_irrefl _)
  · intro i j hij; exact absurd hij (by rw [Subsingleton.elim i j]; exact lt_irrefl _)
  · intro i j hij; exact absurd hij (by rw [Subsingleton.elim i j]; exact lt_irrefl _)
  · intro i j hij; exact absurd hij (by rw [Subsingleton.elim i j]; exact lt_irrefl _)
  · intro i
    have e1 : genEig d (.inl i) = ((2 : ℚ) : WithTop ℚ) := by
      fin_cases i
      simp [genEig, d, A, B, pencilA, pencilB]
    rw [e1]
    exact_mod_cast (by norm_num : (1 : ℚ) < 2)
  · unfold approximate1stOrder selectRule
    have h1 : diagOk d = true := by
      simp [diagOk, d, A, B, pencilA, pencilB]; norm_num
    have h2 : bkTest d = .ok true := by
      have e1 : genEig d (.inl 0) = ((2 : ℚ) : WithTop ℚ) := by
        simp [genEig, d, A, B, pencilA, pencilB]
      have e2 : genEig d (.inr 0) = ((1 / 2 : ℚ) : WithTop ℚ) := by
        simp [genEig, d, A, B, pencilA, pencilB]
      have h3 : (1 : WithTop ℚ) ≤ ((2 : ℚ) : WithTop ℚ) := by exact_mod_cast (by norm_num : (1 : ℚ) ≤ 2)
      have h4 : ((1 / 2 : ℚ) : WithTop ℚ) < 1 := by exact_mod_cast (by norm_num : (1 / 2 : ℚ) < 1)
      unfold bkTest
      rw [take_eigList, drop_eigList]
      simp only [List.ofFn_succ, List.ofFn_zero, e1, e2, pyMax, pyMin, List.foldl_nil, bind, Except.bind, h3,
        if_true, pure, Except.pure, h4, decide_true]
    have h3 : ruleFromQZ exactSolver d = .ok 0 := by
      unfold ruleFromQZ
      have hz : d.Z = 1 := rfl
      simp only [hz, one_blocks]
      rw [exactSolver_one]
      rfl
    simp [h1, h2, h3, bind, Except.bind, pure, Except.pure]

/-- **C34 fails.**  A model with two states, one of which is explosive whatever the control does: only one
eigenvalue is on the stable side.  The decomposition is correct and has the selected eigenvalue first, yet
`approximate_1st_order` returns without warning; the transition matrix of the solution has the
eigenvalue 2.  (`perturb` then reports `stable=True`.) -/
theorem C34_fails :
    ∃ (g_s : Matrix (Fin 2) (Fin 2) ℚ) (g_x : Matrix (Fin 2) (Fin 1) ℚ) (f_s : Matrix (Fin 1) (Fin 2) ℚ)
      (f_x : Matrix (Fin 1) (Fin 1) ℚ) (f_S : Matrix (Fin 1) (Fin 2) ℚ) (f_X : Matrix (Fin 1) (Fin 1) ℚ)
      (solve : MatSolver ℚ) (d : QZ (Fin 2 ⊕ Fin 1) ℚ) (r : FirstOrder 2 1 ℚ),
      solve.Correct ∧ d.Correct (pencilA f_S f_X) (pencilB g_s g_x f_s f_x) ∧ d.Split ∧ d.Triangular ∧
      approximate1stOrder solve (fun _ _ _ => d) (fun _ _ => 0) g_s g_x f_s f_x f_S f_X = .ok r ∧
      r.warned = false ∧ genEig d (.inl 0) = (2 : ℚ) ∧ genEig d (.inl 1) = ((1 / 2 : ℚ) : WithTop ℚ) ∧
      (g_s + g_x * r.C - (2 : ℚ) • (1 : Matrix (Fin 2) (Fin 2) ℚ)).det = 0 := by
  let g_s : Matrix (Fin 2) (Fin 2) ℚ := !![1/2, 0; 0, 2]
  let f_X : Matrix (Fin 1) (Fin 1) ℚ := !![-(1/4)]
  let A := pencilA (K := ℚ) (ns := 2) (nx := 1) 0 f_X
  let B := pencilB (K := ℚ) (ns := 2) (nx := 1) g_s 0 0 1
  let d : QZ (Fin 2 ⊕ Fin 1) ℚ := ⟨A, B, 1, 1⟩
  have e1 : genEig d (.inl 0) = ((2 : ℚ) : WithTop ℚ) := by
    simp [genEig, d, A, B, pencilA, pencilB, g_s]
  have e2 : genEig d (.inl 1) = ((1 / 2 : ℚ) : WithTop ℚ) := by
    simp [genEig, d, A, B, pencilA, pencilB, g_s]
  have e3 : genEig d (.inr 0) = ((1 / 4 : ℚ) : WithTop ℚ) := by
    simp [genEig, d, A, B, pencilA, pencilB, f_X]
  refine ⟨g_s, 0, 0, 1, 0, f_X, exactSolver, d, ⟨0, (eigList d).mergeSort (fun a b => decide (a ≤ b)), false⟩, exactSolver_correct, diagonal_correct A B,
    ⟨?_, ?_, ?_⟩, ⟨?_, ?_, ?_, ?_, ?_, ?_⟩, ?_, rfl, e1, e2, ?_⟩
  · ext i j; simp [d, A, pencilA, toBlocks₂₁]
  · ext i j; simp [d, B, pencilB, toBlocks₂₁]
  · have : d.S.toBlocks₁₁ = 1 := toBlocks_fromBlocks₁₁ _ _ _ _
    rw [this]; simp
  · intro i j; simp [d, A, pencilA]
  · intro i j; simp [d, B, pencilB]
  · intro i j hij
    fin_cases i <;> fin_cases j <;> simp [d, A, pencilA] at hij ⊢
  · intro i j hij
    fin_cases i <;> fin_cases j <;> simp [d, B, pencilB, g_s] at hij ⊢
  · intro i j hij; exact absurd hij (by rw [Subsingleton.elim i j]; exact lt_irrefl _)
  · intro i j hij; exact absurd hij (by rw [Subsingleton.elim i j]; exact lt_irrefl _)
  · unfold approximate1stOrder selectRule
    have h1 : diagOk d = true := by
      simp [diagOk, d, A, B, pencilA, pencilB, g_s, f_X]; norm_num
    have h2 : bkTest d = .ok true := by
      have h3 : (1 : WithTop ℚ) ≤ ((2 : ℚ) : WithTop ℚ) := by exact_mod_cast (by norm_num : (1 : ℚ) ≤ 2)
      have h4 : ((1 / 4 : ℚ) : WithTop ℚ) < 1 := by exact_mod_cast (by norm_num : (1 / 4 : ℚ) < 1)
      have h5 : max ((2 : ℚ) : WithTop ℚ) ((1 / 2 : ℚ) : WithTop ℚ) = ((2 : ℚ) : WithTop ℚ) :=
        max_eq_left (by exact_mod_cast (by norm_num : (1 / 2 : ℚ) ≤ 2))
      unfold bkTest
      rw [take_eigList, drop_eigList]
      have e2' : genEig d (.inl (Fin.succ 0)) = ((1 / 2 : ℚ) : WithTop ℚ) := e2
      simp only [List.ofFn_succ, List.ofFn_zero, e1, e2', e3, pyMax, pyMin, List.foldl_nil, List.foldl_cons, h5,
        bind, Except.bind, h3, if_true, pure, Except.pure, h4, decide_true]
    have h3 : ruleFromQZ exactSolver d = .ok 0 := by
      unfold ruleFromQZ
      have hz : d.Z = 1 := rfl
      simp only [hz, one_blocks]
      rw [exactSolver_one]
      rfl
    simp [h1, h2, h3, bind, Except.bind, pure, Except.pure]
  · simp [g_s, det_fin_two]

/-- **C34 fails, indeterminacy.**  One state and two controls, with two eigenvalues on the stable side:
`approximate_1st_order` returns without warning although there is a non-zero path with `s = 0` that satisfies
the linearised model and vanishes. -/
theorem C34_fails_indeterminate :
    ∃ (g_s : Matrix (Fin 1) (Fin 1) ℚ) (g_x : Matrix (Fin 1) (Fin 2) ℚ) (f_s : Matrix (Fin 2) (Fin 1) ℚ)
      (f_x : Matrix (Fin 2) (Fin 2) ℚ) (f_S : Matrix (Fin 2) (Fin 1) ℚ) (f_X : Matrix (Fin 2) (Fin 2) ℚ)
      (solve : MatSolver ℚ) (d : QZ (Fin 1 ⊕ Fin 2) ℚ) (r : FirstOrder 1 2 ℚ) (x : ℕ → Fin 2 → ℚ),
      solve.Correct ∧ d.Correct (pencilA f_S f_X) (pencilB g_s g_x f_s f_x) ∧ d.Split ∧
      approximate1stOrder solve (fun _ _ _ => d) (fun _ _ => 0) g_s g_x f_s f_x f_S f_X = .ok r ∧
      r.warned = false ∧
      (∀ t, f_x *ᵥ x t + f_X *ᵥ x (t + 1) = 0) ∧ (∀ t, g_x *ᵥ x t = 0) ∧
      (∀ t, x t = fun i => if i = 0 then (2 / 3) ^ t else 0) := by
  let f_X : Matrix (Fin 2) (Fin 2) ℚ := !![-(3/2), 0; 0, -(1/2)]
  let A := pencilA (K := ℚ) (ns := 1) (nx := 2) 0 f_X
  let B := pencilB (K := ℚ) (ns := 1) (nx := 2) !![1/2] 0 0 1
  let d : QZ (Fin 1 ⊕ Fin 2) ℚ := ⟨A, B, 1, 1⟩
  have e1 : genEig d (.inl 0) = ((2 : ℚ) : WithTop ℚ) := by
    simp [genEig, d, A, B, pencilA, pencilB]
  have e2 : genEig d (.inr 0) = ((3 / 2 : ℚ) : WithTop ℚ) := by
    simp [genEig, d, A, B, pencilA, pencilB, f_X]
    norm_num
  have e3 : genEig d (.inr 1) = ((1 / 2 : ℚ) : WithTop ℚ) := by
    simp [genEig, d, A, B, pencilA, pencilB, f_X]
  refine ⟨!![1/2], 0, 0, 1, 0, f_X, exactSolver, d, ⟨0, (eigList d).mergeSort (fun a b => decide (a ≤ b)), false⟩,
    fun t i => if i = 0 then (2 / 3) ^ t else 0, exactSolver_correct, diagonal_correct A B,
    ⟨?_, ?_, ?_⟩, ?_, rfl, ?_, ?_, fun _ => rfl⟩
  · ext i j; simp [d, A, pencilA, toBlocks₂₁]
  · ext i j; simp [d, B, pencilB, toBlocks₂₁]
  · simp [d, A, pencilA, toBlocks₁₁]
  · unfold approximate1stOrder selectRule
    have h1 : diagOk d = true := by
      simp [diagOk, d, A, B, pencilA, pencilB, f_X]; norm_num
    have h2 : bkTest d = .ok true := by
      have h3 : (1 : WithTop ℚ) ≤ ((2 : ℚ) : WithTop ℚ) := by exact_mod_cast (by norm_num : (1 : ℚ) ≤ 2)
      have h4 : ((1 / 2 : ℚ) : WithTop ℚ) < 1 := by exact_mod_cast (by norm_num : (1 / 2 : ℚ) < 1)
      have h5 : min ((3 / 2 : ℚ) : WithTop ℚ) ((1 / 2 : ℚ) : WithTop ℚ) = ((1 / 2 : ℚ) : WithTop ℚ) :=
        min_eq_right (by exact_mod_cast (by norm_num : (1 / 2 : ℚ) ≤ 3 / 2))
      unfold bkTest
      rw [take_eigList, drop_eigList]
      have e3' : genEig d (.inr (Fin.succ 0)) = ((1 / 2 : ℚ) : WithTop ℚ) := e3
      simp only [List.ofFn_succ, List.ofFn_zero, e1, e2, e3', pyMax, pyMin, List.foldl_nil, List.foldl_cons, h5,
        bind, Except.bind, h3, if_true, pure, Except.pure, h4, decide_true]
    have h3 : ruleFromQZ exactSolver d = .ok 0 := by
      unfold ruleFromQZ
      have hz : d.Z = 1 := rfl
      simp only [hz, one_blocks]
      rw [exactSolver_one]
      rfl
    simp [h1, h2, h3, bind, Except.bind, pure, Except.pure]
  · intro t
    funext i
    fin_cases i
    · simp [f_X, dotProduct, pow_succ]; ring
    · simp [f_X, dotProduct]
  · intro t; simp

/-- **C78 fails for complex eigenvalues.**  With a pair of complex eigenvalues the real decomposition has a
`2 × 2` block, whose diagonal does not hold the eigenvalues: for states that rotate while shrinking by one half
(eigenvalues `±i/2`, inverse `∓2i`), the numbers reported for both are `0` instead of `2`, and
`approximate_1st_order` raises although the rule `C = 0` solves the model, and is stable. -/
theorem C78_complex_pair_fails :
    ∃ (g_s : Matrix (Fin 2) (Fin 2) ℚ) (f_x f_X : Matrix (Fin 1) (Fin 1) ℚ) (d : QZ (Fin 2 ⊕ Fin 1) ℚ),
      d.Correct (pencilA 0 f_X) (pencilB g_s 0 0 f_x) ∧ d.Split ∧
      LinearSolution g_s 0 0 f_x 0 f_X 0 ∧ g_s * g_s = -((1 / 4 : ℚ) • (1 : Matrix (Fin 2) (Fin 2) ℚ)) ∧
      (∀ i, genEig d (.inl i) = (0 : ℚ)) ∧ genEig d (.inr 0) = ((1 / 2 : ℚ) : WithTop ℚ) ∧
      ∀ solve cut, approximate1stOrder solve (fun _ _ _ => d) cut g_s 0 0 f_x 0 f_X = .error .nameError := by
  let g_s : Matrix (Fin 2) (Fin 2) ℚ := !![0, 1/2; -(1/2), 0]
  let R : Matrix (Fin 2) (Fin 2) ℚ := !![0, 1; -1, 0]
  let f_X : Matrix (Fin 1) (Fin 1) ℚ := !![-(1/2)]
  let d : QZ (Fin 2 ⊕ Fin 1) ℚ :=
    ⟨fromBlocks !![0, -1; 1, 0] 0 0 !![1/2], fromBlocks !![1/2, 0; 0, 1/2] 0 0 1, fromBlocks R 0 0 1, 1⟩
  have hRR : Rᵀ * R = 1 := by
    ext i j; fin_cases i <;> fin_cases j <;> simp [R, Matrix.mul_apply, Fin.sum_univ_two]
  have e1 : ∀ i, genEig d (.inl i) = ((0 : ℚ) : WithTop ℚ) := by
    intro i; fin_cases i <;> simp [genEig, d]
  have e2 : genEig d (.inr 0) = ((1 / 2 : ℚ) : WithTop ℚ) := by
    simp [genEig, d]
  refine ⟨g_s, 1, f_X, d, ⟨?_, ?_, ?_, ?_⟩, ⟨?_, ?_, ?_⟩, ?_, ?_, e1, e2, ?_⟩
  · simp only [d, pencilA, transpose_one, Matrix.mul_one, fromBlocks_multiply, fromBlocks_inj, Matrix.mul_zero,
      Matrix.zero_mul, add_zero, zero_add, Matrix.one_mul, neg_zero, true_and]
    refine ⟨?_, ?_⟩
    · ext i j; fin_cases i <;> fin_cases j <;> simp [R, Matrix.mul_apply, Fin.sum_univ_two]
    · ext i j; fin_cases i; fin_cases j; simp [f_X]
  · simp only [d, pencilB, transpose_one, Matrix.mul_one, fromBlocks_multiply, fromBlocks_inj, Matrix.mul_zero,
      Matrix.zero_mul, add_zero, zero_add, and_true]
    ext i j; fin_cases i <;> fin_cases j <;> simp [R, g_s, Matrix.mul_apply, Fin.sum_univ_two]
  · simp only [d, fromBlocks_transpose, fromBlocks_multiply, hRR, transpose_zero, transpose_one, Matrix.mul_zero,
      Matrix.zero_mul, add_zero, zero_add, Matrix.mul_one, fromBlocks_one]
  · simp [d]
  · exact toBlocks_fromBlocks₂₁ _ _ _ _
  · exact toBlocks_fromBlocks₂₁ _ _ _ _
  · have : d.S.toBlocks₁₁ = !![0, -1; 1, 0] := toBlocks_fromBlocks₁₁ _ _ _ _
    rw [this]; simp [det_fin_two]
  · simp [LinearSolution]
  · ext i j; fin_cases i <;> fin_cases j <;> norm_num [g_s, Matrix.mul_apply, Fin.sum_univ_two]
  · intro solve cut
    unfold approximate1stOrder selectRule
    have h1 : diagOk d = true := by
      simp [diagOk, d]; norm_num
    have h2 : bkTest d = .ok false := by
      unfold bkTest
      rw [take_eigList]
      have h3 : ¬ (1 : WithTop ℚ) ≤ ((0 : ℚ) : WithTop ℚ) := by
        rw [not_le]; exact_mod_cast (by norm_num : (0 : ℚ) < 1)
      simp only [List.ofFn_succ, List.ofFn_zero, e1, pyMax, List.foldl_nil, List.foldl_cons, max_self, bind,
        Except.bind, h3, if_false, pure, Except.pure]
    simp only [h1, h2, bind, Except.bind, pure, Except.pure, Bool.not_true, Bool.false_eq_true, if_false]
    have hlen : ((eigList d).mergeSort (fun a b => decide (a ≤ b))).length = 3 := by
      rw [List.length_mergeSort]; simp [eigList]
    rcases ha : ((eigList d).mergeSort (fun a b => decide (a ≤ b)))[2 - 1]? with _ | a
    · rw [List.getElem?_eq_none_iff] at ha; omega
    · rcases hb : ((eigList d).mergeSort (fun a b => decide (a ≤ b)))[2]? with _ | b
      · rw [List.getElem?_eq_none_iff] at hb; omega
      · have hle := sorted_le ha hb
        simp only [pyGet, ha, hb, not_lt.2 hle, decide_false, Bool.not_false, if_true, throw, throwThe,
          MonadExceptOf.throw]

/-! ### C77: the rule in the variables of the model -/

private theorem catIdx_mulVec {nm ns nx : ℕ} (C : Matrix (Fin nx) (Fin (nm + ns)) K) (a : Fin nm → K)
    (b : Fin ns → K) :
    C *ᵥ (Sum.elim a b ∘ catIdx nm ns)
      = (C.submatrix id fun i => (catIdx nm ns).symm (.inl i)) *ᵥ a
        + (C.submatrix id fun i => (catIdx nm ns).symm (.inr i)) *ᵥ b := by
  funext k
  simp only [mulVec, dotProduct, Pi.add_apply, submatrix_apply, id, Function.comp]
  rw [← Equiv.sum_comp (catIdx nm ns).symm]
  simp [Fintype.sum_sum_type]

/-- **C77.**  For a model driven by a VAR(1) with autocorrelation matrix `A`: the loadings `C_m`, `C_s` of the
decision rule returned by `perturb` make the linearised arbitrage equations hold at every deviation `(m, s)`
from the steady state, tomorrow's exogenous being `A m`, tomorrow's states being given by the linearised
transition, and tomorrow's controls by the same rule. -/
theorem C77_var1_partial {nm ns nx : ℕ} {solve : MatSolver K} (hsolve : solve.Correct)
    (qz : ∀ ns nx : ℕ, Matrix (Fin ns ⊕ Fin nx) (Fin ns ⊕ Fin nx) K →
      Matrix (Fin ns ⊕ Fin nx) (Fin ns ⊕ Fin nx) K → K → QZ (Fin ns ⊕ Fin nx) K)
    (cut : WithTop K → WithTop K → K) (A : Matrix (Fin nm) (Fin nm) K) (dv : Derivs nm ns nx K)
    (hqz : let e := dv.extend A
      let d := qz (nm + ns) nx (pencilA e.f_S e.f_X) (pencilB e.g_s e.g_x e.f_s e.f_x) (1 - 1 / 10 ^ 8)
      d.Correct (pencilA e.f_S e.f_X) (pencilB e.g_s e.g_x e.f_s e.f_x) ∧ d.Split)
    (m_bar : Fin nm → K) (s_bar : Fin ns → K) (x_bar : Fin nx → K) (t : BiTaylor nm ns nx K)
    (h : perturb1 solve qz cut (.var1 (some A)) dv m_bar s_bar x_bar = .ok t) :
    t.m_bar = m_bar ∧ t.s_bar = s_bar ∧ t.x_bar = x_bar ∧ ∃ C_m, t.C_m = some C_m ∧
    ∀ (m : Fin nm → K) (s : Fin ns → K),
      let x := C_m *ᵥ m + t.C_s *ᵥ s
      let M := A *ᵥ m
      let S := dv.g_m *ᵥ m + dv.g_s *ᵥ s + dv.g_x *ᵥ x + dv.g_M *ᵥ M
      let X := C_m *ᵥ M + t.C_s *ᵥ S
      dv.f_m *ᵥ m + dv.f_s *ᵥ s + dv.f_x *ᵥ x + dv.f_M *ᵥ M + dv.f_S *ᵥ S + dv.f_X *ᵥ X = 0 := by
  unfold perturb1 at h
  simp only [] at h hqz
  rcases hr : approximate1stOrder solve (qz (nm + ns) nx) cut (dv.extend A).g_s (dv.extend A).g_x
    (dv.extend A).f_s (dv.extend A).f_x (dv.extend A).f_S (dv.extend A).f_X with e | r
  · simp [hr, bind, Except.bind] at h
  · simp only [hr, bind, Except.bind, pure, Except.pure, Except.ok.injEq] at h
    subst h
    refine ⟨rfl, rfl, rfl, _, rfl, ?_⟩
    have hlin := C33_first_order hsolve hqz.1 hqz.2 cut r hr
    intro m s x M S X
    set e := dv.extend A with he
    set v : Fin (nm + ns) → K := Sum.elim m s ∘ catIdx nm ns with hv
    have hvs : v ∘ (catIdx nm ns).symm = Sum.elim m s := by
      funext i; simp [hv, Function.comp]
    have hx : r.C *ᵥ v = x := catIdx_mulVec r.C m s
    have hgs : e.g_s *ᵥ v = Sum.elim (A *ᵥ m) (dv.g_m *ᵥ m + dv.g_M *ᵥ (A *ᵥ m) + dv.g_s *ᵥ s) ∘ catIdx nm ns := by
      simp only [he, Derivs.extend]
      rw [submatrix_mulVec_equiv, hvs, fromBlocks_mulVec]
      simp [add_mulVec, mulVec_mulVec]
    have hgx : e.g_x *ᵥ x = Sum.elim (0 : Fin nm → K) (dv.g_x *ᵥ x) ∘ catIdx nm ns := by
      simp only [he, Derivs.extend]
      have : (fromRows 0 dv.g_x).submatrix (catIdx nm ns) id *ᵥ x
          = ((fromRows (0 : Matrix (Fin nm) (Fin nx) K) dv.g_x) *ᵥ x) ∘ catIdx nm ns := rfl
      rw [this, fromRows_mulVec, zero_mulVec]
    have hv' : (e.g_s + e.g_x * r.C) *ᵥ v = Sum.elim M S ∘ catIdx nm ns := by
      rw [add_mulVec, ← mulVec_mulVec, hx, hgs, hgx]
      funext i
      simp only [Pi.add_apply, Function.comp]
      rcases catIdx nm ns i with j | j
      · simp [M]
      · simp only [Sum.elim_inr, Pi.add_apply, S, M]; ring
    have hX : r.C *ᵥ (Sum.elim M S ∘ catIdx nm ns) = X := catIdx_mulVec r.C M S
    have hfs : e.f_s *ᵥ v = dv.f_m *ᵥ m + dv.f_s *ᵥ s := by
      simp only [he, Derivs.extend]
      have h1 := submatrix_mulVec_equiv (fromCols dv.f_m dv.f_s) v id (catIdx nm ns)
      rw [h1, hvs]
      simp [fromCols_mulVec]
    have hfS : e.f_S *ᵥ (Sum.elim M S ∘ catIdx nm ns) = dv.f_M *ᵥ M + dv.f_S *ᵥ S := by
      simp only [he, Derivs.extend]
      have h1 := submatrix_mulVec_equiv (fromCols dv.f_M dv.f_S) (Sum.elim M S ∘ catIdx nm ns) id (catIdx nm ns)
      have h2 : (Sum.elim M S ∘ catIdx nm ns) ∘ (catIdx nm ns).symm = Sum.elim M S := by
        funext i; simp [Function.comp]
      rw [h1, h2]
      simp [fromCols_mulVec]
    have key := congrArg (· *ᵥ v) hlin
    simp only [add_mulVec, zero_mulVec] at key
    rw [← mulVec_mulVec, ← mulVec_mulVec, ← mulVec_mulVec v (e.f_X * r.C), ← mulVec_mulVec _ e.f_X, hv', hfS, hX,
      hx, hfs] at key
    have e1 : e.f_x = dv.f_x := rfl
    have e2 : e.f_X = dv.f_X := rfl
    rw [e1, e2] at key
    rw [← key]
    abel

/-- **C77, iid shocks.**  For a model with iid shocks the rule depends on the states only, and makes the
linearised arbitrage equations hold when the shocks are at their steady state. -/
theorem C77_iid {nm ns nx : ℕ} {solve : MatSolver K} (hsolve : solve.Correct)
    (qz : ∀ ns nx : ℕ, Matrix (Fin ns ⊕ Fin nx) (Fin ns ⊕ Fin nx) K →
      Matrix (Fin ns ⊕ Fin nx) (Fin ns ⊕ Fin nx) K → K → QZ (Fin ns ⊕ Fin nx) K)
    (cut : WithTop K → WithTop K → K) (dv : Derivs nm ns nx K)
    (hqz : let d := qz ns nx (pencilA dv.f_S dv.f_X) (pencilB dv.g_s dv.g_x dv.f_s dv.f_x) (1 - 1 / 10 ^ 8)
      d.Correct (pencilA dv.f_S dv.f_X) (pencilB dv.g_s dv.g_x dv.f_s dv.f_x) ∧ d.Split)
    (m_bar : Fin nm → K) (s_bar : Fin ns → K) (x_bar : Fin nx → K) (t : BiTaylor nm ns nx K)
    (h : perturb1 solve qz cut .iid dv m_bar s_bar x_bar = .ok t) :
    t.m_bar = m_bar ∧ t.s_bar = s_bar ∧ t.x_bar = x_bar ∧ t.C_m = none ∧
    ∀ s : Fin ns → K,
      let x := t.C_s *ᵥ s
      let S := dv.g_s *ᵥ s + dv.g_x *ᵥ x
      let X := t.C_s *ᵥ S
      dv.f_s *ᵥ s + dv.f_x *ᵥ x + dv.f_S *ᵥ S + dv.f_X *ᵥ X = 0 := by
  unfold perturb1 at h
  simp only [] at h hqz
  rcases hr : approximate1stOrder solve (qz ns nx) cut dv.g_s dv.g_x dv.f_s dv.f_x dv.f_S dv.f_X with e | r
  · simp [hr, bind, Except.bind] at h
  · simp only [hr, bind, Except.bind, pure, Except.pure, Except.ok.injEq] at h
    subst h
    refine ⟨rfl, rfl, rfl, rfl, ?_⟩
    have hlin := C33_first_order hsolve hqz.1 hqz.2 cut r hr
    intro s x S X
    have hS : (dv.g_s + dv.g_x * r.C) *ᵥ s = S := by
      rw [add_mulVec, ← mulVec_mulVec]
    have key := congrArg (· *ᵥ s) hlin
    simp only [add_mulVec, zero_mulVec] at key
    rw [← mulVec_mulVec, ← mulVec_mulVec, ← mulVec_mulVec s (dv.f_X * r.C), ← mulVec_mulVec _ dv.f_X, hS] at key
    exact key

private def selfQZ (ns nx : ℕ) (A B : Matrix (Fin ns ⊕ Fin nx) (Fin ns ⊕ Fin nx) ℚ) (_ : ℚ) :
    QZ (Fin ns ⊕ Fin nx) ℚ := ⟨A, B, 1, 1⟩

/-- A model with a VAR(1) and one with iid shocks whose pencils are diagonal: the hypotheses of C77 are met. -/
example : let dv : Derivs 1 1 1 ℚ := ⟨0, 0, 1, 0, 0, !![-(1/2)], 0, !![1/2], 0, 0⟩
    (let e := dv.extend !![1/4];
      let d := selfQZ (1 + 1) 1 (pencilA e.f_S e.f_X) (pencilB e.g_s e.g_x e.f_s e.f_x) (1 - 1 / 10 ^ 8);
      d.Correct (pencilA e.f_S e.f_X) (pencilB e.g_s e.g_x e.f_s e.f_x) ∧ d.Split) ∧
    (let d := selfQZ 1 1 (pencilA dv.f_S dv.f_X) (pencilB dv.g_s dv.g_x dv.f_s dv.f_x) (1 - 1 / 10 ^ 8);
      d.Correct (pencilA dv.f_S dv.f_X) (pencilB dv.g_s dv.g_x dv.f_s dv.f_x) ∧ d.Split) := by
  intro dv
  refine ⟨⟨diagonal_correct _ _, ?_, ?_, ?_⟩, ⟨diagonal_correct _ _, ?_, ?_, ?_⟩⟩
  · ext i j; simp [selfQZ, dv, Derivs.extend, pencilA, toBlocks₂₁]
  · ext i j; simp [selfQZ, dv, Derivs.extend, pencilB, toBlocks₂₁]
  · have : (selfQZ (1 + 1) 1 (pencilA (dv.extend !![1/4]).f_S (dv.extend !![1/4]).f_X)
        (pencilB (dv.extend !![1/4]).g_s (dv.extend !![1/4]).g_x (dv.extend !![1/4]).f_s (dv.extend !![1/4]).f_x)
        (1 - 1 / 10 ^ 8)).S.toBlocks₁₁ = 1 := toBlocks_fromBlocks₁₁ _ _ _ _
    rw [this]; simp
  · ext i j; simp [selfQZ, dv, pencilA, toBlocks₂₁]
  · ext i j; simp [selfQZ, dv, pencilB, toBlocks₂₁]
  · simp [selfQZ, dv, pencilA, toBlocks₁₁]

/-- **C77 fails for every VAR1 built by its constructor**: `get_derivatives` reads `process.rho`, but the
attribute is called `ρ`. -/
theorem C77_var1_raises {nm ns nx : ℕ} (solve : MatSolver K)
    (qz : ∀ ns nx : ℕ, Matrix (Fin ns ⊕ Fin nx) (Fin ns ⊕ Fin nx) K →
      Matrix (Fin ns ⊕ Fin nx) (Fin ns ⊕ Fin nx) K → K → QZ (Fin ns ⊕ Fin nx) K)
    (cut : WithTop K → WithTop K → K) (ρ : Matrix (Fin nm) (Fin nm) K) (dv : Derivs nm ns nx K)
    (m_bar : Fin nm → K) (s_bar : Fin ns → K) (x_bar : Fin nx → K) :
    perturb1 solve qz cut (.newVAR1 ρ) dv m_bar s_bar x_bar = .error .attributeError := rfl

/-! ### C35: BivariateTaylor -/

section
variable {nm ns nx : ℕ}

/-- The affine rule around the steady state. -/
def BiTaylor.affine (t : BiTaylor nm ns nx K) (C_m : Matrix (Fin nx) (Fin nm) K) (m : Fin nm → K)
    (s : Fin ns → K) : Fin nx → K :=
  t.x_bar + C_m *ᵥ (m - t.m_bar) + t.C_s *ᵥ (s - t.s_bar)

/-- **C35.**  At single points: the rule is affine in `(m, s)`, equal to `x_bar` at the steady state; without
exogenous loading, it ignores the exogenous argument. -/
theorem C35_points (t : BiTaylor nm ns nx K) :
    (∀ C_m, t.C_m = some C_m → ∀ m s, t.evalMS (.vec m) (.vec s)
      = .ok (.vec (t.x_bar + C_m *ᵥ (m - t.m_bar) + t.C_s *ᵥ (s - t.s_bar)))) ∧
    (t.C_m = none → ∀ m s, t.evalMS (.vec m) (.vec s) = .ok (.vec (t.x_bar + t.C_s *ᵥ (s - t.s_bar))) ∧
      t.evalS (.vec s) = .ok (.vec (t.x_bar + t.C_s *ᵥ (s - t.s_bar)))) ∧
    t.evalMS (.vec t.m_bar) (.vec t.s_bar) = .ok (.vec t.x_bar) := by
  have h1 : ∀ C_m, t.C_m = some C_m → ∀ m s, t.evalMS (.vec m) (.vec s)
      = .ok (.vec (t.x_bar + C_m *ᵥ (m - t.m_bar) + t.C_s *ᵥ (s - t.s_bar))) := by
    intro C_m hC m s
    simp [BiTaylor.evalMS, BiTaylor.evalRows, hC, bcastAdd, firstRow, pyGet, vecMul_transpose, bind, Except.bind,
      pure, Except.pure]
  have h2 : t.C_m = none → ∀ m s,
      t.evalMS (.vec m) (.vec s) = .ok (.vec (t.x_bar + t.C_s *ᵥ (s - t.s_bar))) ∧
      t.evalS (.vec s) = .ok (.vec (t.x_bar + t.C_s *ᵥ (s - t.s_bar))) := by
    intro hC m s
    simp [BiTaylor.evalMS, BiTaylor.evalS, BiTaylor.evalRows, hC, firstRow, pyGet, vecMul_transpose, bind,
      Except.bind, pure, Except.pure]
  refine ⟨h1, h2, ?_⟩
  rcases hC : t.C_m with _ | C_m
  · rw [(h2 hC _ _).1]; simp
  · rw [h1 C_m hC]; simp

/-- **C35, vectorised.**  On arrays of points, the rule is applied row by row; a single point is combined with
every row of the other argument; without exogenous loading the first argument is ignored altogether. -/
theorem C35_rows (t : BiTaylor nm ns nx K) :
    (∀ C_m, t.C_m = some C_m →
      (∀ m s : List _, m.length = s.length →
        t.evalMS (.rows m) (.rows s) = .ok (.rows (List.zipWith (t.affine C_m) m s))) ∧
      (∀ m (s : List _), t.evalMS (.vec m) (.rows s) = .ok (.rows (s.map fun r => t.affine C_m m r))) ∧
      (∀ (m : List _) s, t.evalMS (.rows m) (.vec s) = .ok (.rows (m.map fun r => t.affine C_m r s))) ∧
      (∀ m s : List _, m.length ≠ s.length → m.length ≠ 1 → s.length ≠ 1 →
        t.evalMS (.rows m) (.rows s) = .error .valueError)) ∧
    (t.C_m = none → ∀ (m : Arg nm K) (s : List (Fin ns → K)),
      t.evalMS m (.rows s) = .ok (.rows (s.map fun r => t.x_bar + t.C_s *ᵥ (r - t.s_bar)))) := by
  refine ⟨?_, ?_⟩
  · intro C_m hC
    refine ⟨?_, ?_, ?_, ?_⟩
    · intro m s hl
      simp only [BiTaylor.evalMS, BiTaylor.evalRows, hC, bcastAdd, List.length_map, hl, if_true, bind, Except.bind,
        pure, Except.pure, List.map_map, List.zipWith_map_left, List.zipWith_map_right, vecMul_transpose,
        Function.comp]
      rfl
    · intro m s
      simp only [BiTaylor.evalMS, BiTaylor.evalRows, hC, bcastAdd, List.map_cons, List.map_nil, List.length_map,
        List.length_cons, List.length_nil, bind, Except.bind, pure, Except.pure, vecMul_transpose]
      split_ifs with hl
      · obtain ⟨r, rfl⟩ := List.length_eq_one_iff.1 hl.symm
        rfl
      · simp [List.map_map, Function.comp, BiTaylor.affine]
    · intro m s
      simp only [BiTaylor.evalMS, BiTaylor.evalRows, hC, bcastAdd, List.map_cons, List.map_nil, List.length_map,
        List.length_cons, List.length_nil, bind, Except.bind, pure, Except.pure, vecMul_transpose]
      split_ifs with hl
      · obtain ⟨r, rfl⟩ := List.length_eq_one_iff.1 hl
        rfl
      · rcases m with _ | ⟨a, _ | ⟨b, m⟩⟩
        · rfl
        · simp at hl
        · simp [List.map_map, Function.comp, BiTaylor.affine]
    · intro m s h1 h2 h3
      simp only [BiTaylor.evalMS, BiTaylor.evalRows, hC, bcastAdd, List.length_map, h1, if_false, bind, Except.bind,
        pure, Except.pure]
      rcases m with _ | ⟨a, _ | ⟨b, m⟩⟩ <;> rcases s with _ | ⟨c, _ | ⟨e, s⟩⟩ <;> simp_all
  · intro hC m s
    rcases m with _ | m | m <;>
      simp [BiTaylor.evalMS, BiTaylor.evalRows, hC, bind, Except.bind, pure, Except.pure, vecMul_transpose,
        List.map_map, Function.comp]

/-- With an exogenous loading, the rule cannot be evaluated at states alone: `eval_s` raises a `TypeError`. -/
theorem C35_eval_s_raises (t : BiTaylor nm ns nx K) (C_m : Matrix (Fin nx) (Fin nm) K) (h : t.C_m = some C_m)
    (s : Arg ns K) : t.evalS s = .error .typeError := by
  rcases s with _ | s | s <;> simp [BiTaylor.evalS, BiTaylor.evalMS, BiTaylor.evalRows, h, bind, Except.bind]

end

end Dolo
