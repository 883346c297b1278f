import Mathlib.Data.Matrix.Mul
import Mathlib.Data.List.FinRange
import Mathlib.LinearAlgebra.Matrix.Notation
import Mathlib.LinearAlgebra.Matrix.NonsingularInverse
import Mathlib.Tactic.Abel
import Mathlib.Tactic.FinCases
import Mathlib.Tactic.Ring
import Mathlib.Tactic.NormNum
import Mathlib.Tactic.Linarith
import Mathlib.Tactic.Positivity
import Mathlib.Tactic.NoncommRing
import Verif.Model.BruteforceLinear
import Verif.Props.Perturbation

/-!
# C117: the Newton solver for linear models

Specification: `X` solves the linear model when
`f_s + f_x X + f_S (g_s + g_x X) + f_X X (g_s + g_x X) = 0` (`LinearSolution`, written out below).
-/

set_option linter.unusedSectionVars false

namespace Dolo

open Matrix

variable {K : Type} [Field K] [LinearOrder K] [IsStrictOrderedRing K]

/-- The left-hand side of the linear model at the rule `X`. -/
def modelGap {ns nx : ℕ} (g_s : Matrix (Fin ns) (Fin ns) K) (g_x : Matrix (Fin ns) (Fin nx) K)
    (f_s : Matrix (Fin nx) (Fin ns) K) (f_x : Matrix (Fin nx) (Fin nx) K)
    (f_S : Matrix (Fin nx) (Fin ns) K) (f_X : Matrix (Fin nx) (Fin nx) K)
    (X : Matrix (Fin nx) (Fin ns) K) : Matrix (Fin nx) (Fin ns) K :=
  f_s + f_x * X + f_S * (g_s + g_x * X) + f_X * X * (g_s + g_x * X)

/-- `numpy.linalg.inv` returns only for nonsingular matrices, and then the inverse. -/
def MatInv.Correct (inv : MatInv K) : Prop := ∀ n A R, inv n A = .ok R → A * R = 1 ∧ R * A = 1

/-! ## The largest absolute value -/

private theorem foldl_row {q : ℕ} (f : Fin q → K) (l : List (Fin q)) (m c : K) :
    l.foldl (fun mm j => if mm < |f j| then |f j| else mm) m ≤ c ↔ m ≤ c ∧ ∀ j ∈ l, |f j| ≤ c := by
  induction l generalizing m with
  | nil => simp
  | cons a l ih =>
    simp only [List.foldl_cons, ih, List.mem_cons, forall_eq_or_imp]
    split_ifs with h
    · constructor
      · rintro ⟨h1, h2⟩; exact ⟨h.le.trans h1, h1, h2⟩
      · rintro ⟨-, h1, h2⟩; exact ⟨h1, h2⟩
    · constructor
      · rintro ⟨h1, h2⟩; exact ⟨h1, (not_lt.1 h).trans h1, h2⟩
      · rintro ⟨h1, -, h2⟩; exact ⟨h1, h2⟩

private theorem foldl_rows {p q : ℕ} (T : Matrix (Fin p) (Fin q) K) (l : List (Fin p)) (m c : K) :
    l.foldl (fun mm i => (List.finRange q).foldl (fun mm j =>
      if mm < |T i j| then |T i j| else mm) mm) m ≤ c ↔ m ≤ c ∧ ∀ i ∈ l, ∀ j, |T i j| ≤ c := by
  induction l generalizing m with
  | nil => simp
  | cons a l ih =>
    simp only [List.foldl_cons, ih, foldl_row, List.mem_cons, forall_eq_or_imp, List.mem_finRange,
      forall_const]
    tauto

/-- **C117** (simple_max).  It is the largest absolute value of an entry, and 0 for an empty array: it is
at most `c` exactly if `c` is nonnegative and bounds every entry. -/
theorem C117_simple_max {p q : ℕ} (T : Matrix (Fin p) (Fin q) K) (c : K) :
    simpleMax T ≤ c ↔ 0 ≤ c ∧ ∀ i j, |T i j| ≤ c := by
  unfold simpleMax
  rw [foldl_rows]
  simp

/-! ## The code as it stands -/

/-- **C117** (fails).  As the module stands, the three solvers raise `NameError` for every model. -/
theorem C117_raises {ns nx : ℕ} (g_s : Matrix (Fin ns) (Fin ns) K) (g_x : Matrix (Fin ns) (Fin nx) K)
    (f_s : Matrix (Fin nx) (Fin ns) K) (f_x : Matrix (Fin nx) (Fin nx) K)
    (f_S : Matrix (Fin nx) (Fin ns) K) (f_X : Matrix (Fin nx) (Fin nx) K) (inv : MatInv K)
    (solve : MatSolver K) (res : Matrix (Fin nx) (Fin ns) K) (X : Option (Matrix (Fin nx) (Fin ns) K))
    (qz : Matrix (Fin ns ⊕ Fin nx) (Fin ns ⊕ Fin nx) K → Matrix (Fin ns ⊕ Fin nx) (Fin ns ⊕ Fin nx) K → K →
      QZ (Fin ns ⊕ Fin nx) K) :
    newtonator g_s g_x f_s f_x f_S f_X moduleNames inv = .error .nameError ∧
    spectralRadiusBf g_s g_x f_x f_S f_X moduleNames inv res X = .error .nameError ∧
    classicalPerturbation g_s g_x f_s f_x f_S f_X moduleNames solve qz = .error .nameError :=
  ⟨rfl, rfl, rfl⟩

/-! ## With the names defined -/

section
variable {ns nx : ℕ} {g_s : Matrix (Fin ns) (Fin ns) K} {g_x : Matrix (Fin ns) (Fin nx) K}
  {f_s : Matrix (Fin nx) (Fin ns) K} {f_x : Matrix (Fin nx) (Fin nx) K}
  {f_S : Matrix (Fin nx) (Fin ns) K} {f_X : Matrix (Fin nx) (Fin nx) K}

theorem newtonatorRes_eq (X : Matrix (Fin nx) (Fin ns) K) :
    newtonatorRes g_s g_x f_s f_x f_S f_X X = modelGap g_s g_x f_s f_x f_S f_X X := by
  unfold newtonatorRes modelGap
  simp only [Matrix.mul_add, Matrix.add_mul, Matrix.mul_assoc]
  abel

/-- The terms of the inner loop. -/
def neumannTerm (M : Matrix (Fin nx) (Fin nx) K) (C : Matrix (Fin ns) (Fin ns) K)
    (d : Matrix (Fin nx) (Fin ns) K) (n : ℕ) : Matrix (Fin nx) (Fin ns) K := M ^ n * d * C ^ n

theorem neumannTerm_succ (M : Matrix (Fin nx) (Fin nx) K) (C : Matrix (Fin ns) (Fin ns) K)
    (d : Matrix (Fin nx) (Fin ns) K) (n : ℕ) :
    M * neumannTerm M C d n * C = neumannTerm M C d (n + 1) := by
  unfold neumannTerm
  rw [pow_succ' M, pow_succ C]
  simp only [Matrix.mul_assoc]

theorem newtonatorInner_spec (M : Matrix (Fin nx) (Fin nx) K) (C : Matrix (Fin ns) (Fin ns) K) (tol : K)
    (d : Matrix (Fin nx) (Fin ns) K) (fuel m : ℕ) :
    ∃ n, m ≤ n ∧ n ≤ m + fuel ∧ (n < m + fuel → ∀ i j, |neumannTerm M C d n i j| < tol) ∧
      newtonatorInner M C tol fuel (neumannTerm M C d m)
        (∑ k ∈ Finset.range (m + 1), neumannTerm M C d k) =
        ∑ k ∈ Finset.range (n + 1), neumannTerm M C d k := by
  induction fuel generalizing m with
  | zero => exact ⟨m, le_rfl, le_rfl, by omega, rfl⟩
  | succ fuel ih =>
    simp only [newtonatorInner, neumannTerm_succ]
    rw [← Finset.sum_range_succ]
    split_ifs with h
    · refine ⟨m + 1, by omega, by omega, ?_, rfl⟩
      intro _ i j
      exact lt_of_le_of_lt (((C117_simple_max _ _).1 le_rfl).2 i j) h
    · obtain ⟨n, h1, h2, h3, h4⟩ := ih (m + 1)
      exact ⟨n, by omega, by omega, fun hn => h3 (by omega), h4⟩

private theorem telescope (M : Matrix (Fin nx) (Fin nx) K) (C : Matrix (Fin ns) (Fin ns) K)
    (d : Matrix (Fin nx) (Fin ns) K) (n : ℕ) :
    (∑ k ∈ Finset.range (n + 1), neumannTerm M C d k) -
      M * (∑ k ∈ Finset.range (n + 1), neumannTerm M C d k) * C = d - neumannTerm M C d (n + 1) := by
  induction n with
  | zero => rw [← neumannTerm_succ]; simp [neumannTerm]
  | succ n ih =>
    rw [Finset.sum_range_succ, Matrix.mul_add, Matrix.add_mul, neumannTerm_succ, add_sub_add_comm, ih]
    abel

/-- **C117** (one step).  A step of `newtonator` from `X` subtracts a matrix `D` which solves the
linearisation `A D + B D C = gap(X)` of the model at `X` up to the term `B T C`, where `T` is the last term of
the inner loop: unless all 1000 inner steps were used, all its entries are below `1e-12`.  The gap at the new
rule is `f_X D g_x D` (the second-order term) minus that remainder. -/
theorem C117_step_partial {inv : MatInv K} (hinv : inv.Correct) (X X' : Matrix (Fin nx) (Fin ns) K)
    (h : newtonatorStep g_s g_x f_x f_S f_X inv X (newtonatorRes g_s g_x f_s f_x f_S f_X X) = .ok X') :
    ∃ (D T : Matrix (Fin nx) (Fin ns) K) (n : ℕ), X' = X - D ∧ 1 ≤ n ∧ n ≤ 1000 ∧
      (n < 1000 → ∀ i j, |T i j| < 1 / 10 ^ 12) ∧
      (f_x + f_S * g_x + f_X * X * g_x) * D + f_X * D * (g_s + g_x * X) =
        modelGap g_s g_x f_s f_x f_S f_X X + f_X * T * (g_s + g_x * X) ∧
      modelGap g_s g_x f_s f_x f_S f_X X' = f_X * D * g_x * D - f_X * T * (g_s + g_x * X) := by
  unfold newtonatorStep at h
  simp only [bind, Except.bind] at h
  generalize hA : f_x + f_S * g_x + f_X * X * g_x = A at h ⊢
  cases hi : inv nx A with
  | error e => simp [hi] at h
  | ok R =>
    simp only [hi, Except.ok.injEq] at h
    obtain ⟨i1, i2⟩ := hinv _ _ _ hi
    rw [newtonatorRes_eq] at h
    generalize hC : g_s + g_x * X = C at h ⊢
    generalize hG : modelGap g_s g_x f_s f_x f_S f_X X = G at h ⊢
    -- the first inner step is taken apart so that `n ≥ 1`
    have h0 : neumannTerm (-R * f_X) C (R * G) 0 = R * G := by simp [neumannTerm]
    have hs := newtonatorInner_spec (-R * f_X) C (1 / 10 ^ 12) (R * G) 1000 0
    rw [h0] at hs
    simp only [zero_add, Finset.range_one, Finset.sum_singleton, h0] at hs
    obtain ⟨n, -, n2, n3, n4⟩ := hs
    have hn1 : ∃ n, 1 ≤ n ∧ n ≤ 1000 ∧ (n < 1000 → ∀ i j, |neumannTerm (-R * f_X) C (R * G) n i j| < 1 / 10 ^ 12) ∧
        newtonatorInner (-R * f_X) C (1 / 10 ^ 12) 1000 (R * G) (R * G) =
          ∑ k ∈ Finset.range (n + 1), neumannTerm (-R * f_X) C (R * G) k := by
      have hone : newtonatorInner (-R * f_X) C (1 / 10 ^ 12 : K) 1000 (R * G) (R * G) =
          if simpleMax (-R * f_X * (R * G) * C) < 1 / 10 ^ 12 then R * G + -R * f_X * (R * G) * C
          else newtonatorInner (-R * f_X) C (1 / 10 ^ 12) 999 (-R * f_X * (R * G) * C)
            (R * G + -R * f_X * (R * G) * C) := rfl
      have e1 : -R * f_X * (R * G) * C = neumannTerm (-R * f_X) C (R * G) 1 := by
        rw [← neumannTerm_succ, h0]
      have e2 : R * G + neumannTerm (-R * f_X) C (R * G) 1 =
          ∑ k ∈ Finset.range (1 + 1), neumannTerm (-R * f_X) C (R * G) k := by
        rw [Finset.sum_range_succ, Finset.sum_range_one, h0]
      rw [hone, e1, e2]
      split_ifs with hlt
      · exact ⟨1, le_rfl, by omega, fun _ i j =>
          lt_of_le_of_lt (((C117_simple_max _ _).1 le_rfl).2 i j) hlt, rfl⟩
      · obtain ⟨n, m1, m2, m3, m4⟩ :=
          newtonatorInner_spec (-R * f_X) C (1 / 10 ^ 12) (R * G) 999 1
        exact ⟨n, m1, by omega, fun hn => m3 (by omega), m4⟩
    clear n4 n3 n2
    obtain ⟨n, k1, k2, k3, k4⟩ := hn1
    rw [k4] at h
    set D := ∑ k ∈ Finset.range (n + 1), neumannTerm (-R * f_X) C (R * G) k with hD
    have ht := telescope (-R * f_X) C (R * G) n
    rw [← hD, ← neumannTerm_succ] at ht
    set T := neumannTerm (-R * f_X) C (R * G) n with hT
    have hlin : A * D + f_X * D * C = G + f_X * T * C := by
      have hAM : ∀ Y : Matrix (Fin nx) (Fin ns) K, A * (-R * f_X * Y * C) = -(f_X * Y * C) := by
        intro Y
        rw [Matrix.neg_mul, Matrix.neg_mul, Matrix.neg_mul, Matrix.mul_neg, Matrix.mul_assoc R,
          Matrix.mul_assoc R, ← Matrix.mul_assoc A R, i1, Matrix.one_mul]
      have h' : A * (D - -R * f_X * D * C) = A * (R * G - -R * f_X * T * C) := by rw [ht]
      rw [Matrix.mul_sub, Matrix.mul_sub, hAM, hAM, ← Matrix.mul_assoc A R, i1, Matrix.one_mul,
        sub_neg_eq_add, sub_neg_eq_add] at h'
      exact h'
    refine ⟨D, T, n, h.symm, k1, k2, k3, hlin, ?_⟩
    rw [← h]
    have hexp : modelGap g_s g_x f_s f_x f_S f_X (X - D) =
        modelGap g_s g_x f_s f_x f_S f_X X - (A * D + f_X * D * C) + f_X * D * g_x * D := by
      rw [← hA, ← hC]
      unfold modelGap
      simp only [Matrix.mul_add, Matrix.add_mul, Matrix.mul_sub, Matrix.sub_mul, Matrix.mul_assoc]
      abel
    rw [hexp, hG, hlin]
    abel

/-- **C117** (result).  With the names defined, the rule returned is the result of at most 1000 steps from
the zero rule; unless all 1000 were used, every entry of its gap is at most `1e-14` in absolute value. -/
theorem C117_result_partial {inv : MatInv K} (names : BfNames) (X : Matrix (Fin nx) (Fin ns) K)
    (h : newtonator g_s g_x f_s f_x f_S f_X names inv = .ok X) :
    ∃ (n : ℕ) (path : ℕ → Matrix (Fin nx) (Fin ns) K), 1 ≤ n ∧ n ≤ 1000 ∧ path 0 = 0 ∧ path n = X ∧
      (∀ k < n, newtonatorStep g_s g_x f_x f_S f_X inv (path k)
        (newtonatorRes g_s g_x f_s f_x f_S f_X (path k)) = .ok (path (k + 1))) ∧
      (n < 1000 → ∀ i j, |modelGap g_s g_x f_s f_x f_S f_X X i j| ≤ 1 / 10 ^ 14) := by
  have key : ∀ (fuel : ℕ) (err : K) (Y : Matrix (Fin nx) (Fin ns) K),
      (err = simpleMax (newtonatorRes g_s g_x f_s f_x f_S f_X Y) ∨ 1 / 10 ^ 14 < err) →
      newtonatorLoop g_s g_x f_s f_x f_S f_X inv fuel err Y
        (newtonatorRes g_s g_x f_s f_x f_S f_X Y) = .ok X →
      ∃ (n : ℕ) (path : ℕ → Matrix (Fin nx) (Fin ns) K), n ≤ fuel ∧
        (1 / 10 ^ 14 < err → 0 < fuel → 1 ≤ n) ∧ path 0 = Y ∧ path n = X ∧
        (∀ k < n, newtonatorStep g_s g_x f_x f_S f_X inv (path k)
          (newtonatorRes g_s g_x f_s f_x f_S f_X (path k)) = .ok (path (k + 1))) ∧
        (n < fuel → ∀ i j, |modelGap g_s g_x f_s f_x f_S f_X X i j| ≤ 1 / 10 ^ 14) := by
    intro fuel
    induction fuel with
    | zero =>
      intro err Y _ hl
      simp only [newtonatorLoop, Except.ok.injEq] at hl
      exact ⟨0, fun _ => Y, le_rfl, by simp, rfl, hl, by simp, by simp⟩
    | succ fuel ih =>
      intro err Y herr hl
      simp only [newtonatorLoop, bind, Except.bind] at hl
      split_ifs at hl with hgt
      · cases hst : newtonatorStep g_s g_x f_x f_S f_X inv Y
            (newtonatorRes g_s g_x f_s f_x f_S f_X Y) with
        | error e => simp [hst] at hl
        | ok Y' =>
          simp only [hst] at hl
          cases hm : absMaxE (newtonatorRes g_s g_x f_s f_x f_S f_X Y') with
          | error e => simp [hm] at hl
          | ok err' =>
            simp only [hm] at hl
            have he : err' = simpleMax (newtonatorRes g_s g_x f_s f_x f_S f_X Y') := by
              unfold absMaxE at hm
              split_ifs at hm
              simpa using hm.symm
            obtain ⟨n, path, p1, -, p3, p4, p5, p6⟩ := ih err' Y' (.inl he) hl
            refine ⟨n + 1, fun k => if k = 0 then Y else path (k - 1), by omega, by omega, rfl,
              by simpa using p4, ?_, fun hn => p6 (by omega)⟩
            intro k hk
            rcases k with _ | k
            · simpa [p3] using hst
            · simpa using p5 k (by omega)
      · simp only [Except.ok.injEq] at hl
        refine ⟨0, fun _ => Y, by omega, fun h' => absurd h' hgt, rfl, hl, by simp, ?_⟩
        intro _
        rcases herr with herr | herr
        · rw [herr, not_lt, C117_simple_max] at hgt
          rw [← hl, ← newtonatorRes_eq]
          exact hgt.2
        · exact absurd herr hgt
  unfold newtonator at h
  split_ifs at h
  have h1 : (1 : K) / 10 ^ 14 < 1 := by
    rw [div_lt_one (by positivity)]
    exact one_lt_pow₀ (by norm_num) (by norm_num)
  obtain ⟨n, path, p1, p2, p3, p4, p5, p6⟩ := key 1000 1 0 (.inr h1) h
  exact ⟨n, path, p2 h1 (by norm_num), p1, p3, p4, p5, p6⟩

/-- **C117 (models without states or controls).**  With no control or no state the solver has no answer: once the
inverse is there, the test of convergence is the maximum of an empty array. -/
theorem C117_no_entries_fails (inv : MatInv K) (names : BfNames) (h0 : nx = 0 ∨ ns = 0)
    (hn : names.sizes = true) (hinv : ∀ A, ∃ B, inv nx A = .ok B) :
    newtonator g_s g_x f_s f_x f_S f_X names inv = .error .valueError := by
  obtain ⟨B, hB⟩ := hinv (f_x + f_S * g_x + f_X * (0 : Matrix (Fin nx) (Fin ns) K) * g_x)
  unfold newtonator
  rw [if_pos hn, newtonatorLoop, if_pos (by norm_num)]
  simp only [newtonatorStep, hB, bind, Except.bind, absMaxE, if_pos h0]

/-- **C117** (fixed points).  A step from an exact solution stays there. -/
theorem C117_fixed_point_partial {inv : MatInv K} (X X' : Matrix (Fin nx) (Fin ns) K)
    (hX : modelGap g_s g_x f_s f_x f_S f_X X = 0)
    (h : newtonatorStep g_s g_x f_x f_S f_X inv X (newtonatorRes g_s g_x f_s f_x f_S f_X X) = .ok X') :
    X' = X := by
  unfold newtonatorStep at h
  simp only [bind, Except.bind, newtonatorRes_eq, hX] at h
  cases hi : inv nx (f_x + f_S * g_x + f_X * X * g_x) with
  | error e => simp [hi] at h
  | ok R =>
    simp only [hi, Except.ok.injEq, Matrix.mul_zero] at h
    obtain ⟨n, -, -, -, hs⟩ := newtonatorInner_spec (-R * f_X) (g_s + g_x * X) (1 / 10 ^ 12) 0 1000 0
    simp only [neumannTerm, Matrix.mul_zero, Matrix.zero_mul, Finset.sum_const_zero] at hs
    rw [hs, sub_zero] at h
    exact h.symm

/-- **C117** (classical perturbation).  With the names defined, and a decomposition split between states and
controls, the rule returned solves the linear model. -/
theorem C117_classical_partial {solve : MatSolver K} (hsolve : solve.Correct)
    {qz : Matrix (Fin ns ⊕ Fin nx) (Fin ns ⊕ Fin nx) K → Matrix (Fin ns ⊕ Fin nx) (Fin ns ⊕ Fin nx) K → K →
      QZ (Fin ns ⊕ Fin nx) K}
    (hqz : (qz (pencilA f_S f_X) (pencilB g_s g_x f_s f_x) (1 - 1 / 10 ^ 8)).Correct
      (pencilA f_S f_X) (pencilB g_s g_x f_s f_x))
    (hsplit : (qz (pencilA f_S f_X) (pencilB g_s g_x f_s f_x) (1 - 1 / 10 ^ 8)).Split)
    (names : BfNames) (r : Matrix (Fin nx) (Fin ns) K × List (WithTop K))
    (h : classicalPerturbation g_s g_x f_s f_x f_S f_X names solve qz = .ok r) :
    modelGap g_s g_x f_s f_x f_S f_X r.1 = 0 := by
  unfold classicalPerturbation at h
  split_ifs at h
  simp only [bind, Except.bind] at h
  cases hr : ruleFromQZ solve (qz (pencilA f_S f_X) (pencilB g_s g_x f_s f_x) (1 - 1 / 10 ^ 8)) with
  | error e => simp only [hr] at h; cases h
  | ok C =>
    simp only [hr, Except.ok.injEq] at h
    obtain ⟨h2, h3⟩ := rule_eq hsolve hr
    rw [← h]
    exact linear_solution_of_split hqz hsplit h2 h3

end

/-! ## Failures that remain with the names defined -/

open Classical in
/-- An exact inverse. -/
noncomputable def exactInv : MatInv ℚ := fun _ A =>
  if IsUnit A.det then .ok A⁻¹ else .error .linAlgError

theorem exactInv_correct : MatInv.Correct exactInv := by
  intro n A R h
  unfold exactInv at h
  split_ifs at h with hA
  simp only [Except.ok.injEq] at h
  rw [← h]
  exact ⟨mul_nonsing_inv _ hA, nonsing_inv_mul _ hA⟩

/-- **C117** (no warning).  With the names defined, `newtonator` returns a rule even if there is no
solution: for `s' = s`, `f = s + x - x'` the gap is 1 at every rule; the rule returned is `-1001000`. -/
theorem C117_unsolved_fails :
    newtonator (ns := 1) (nx := 1) (1 : Matrix _ _ ℚ) 0 1 1 0 (-1) ⟨true, true⟩ exactInv =
      .ok !![(-1001000 : ℚ)] ∧
    ∀ X : Matrix (Fin 1) (Fin 1) ℚ, modelGap 1 0 1 1 0 (-1) X = 1 := by
  have hgap : ∀ X : Matrix (Fin 1) (Fin 1) ℚ, modelGap 1 0 1 1 0 (-1) X = 1 := by
    intro X
    unfold modelGap
    simp
  have hres : ∀ X : Matrix (Fin 1) (Fin 1) ℚ, newtonatorRes 1 0 1 1 0 (-1) X = 1 := by
    intro X; rw [newtonatorRes_eq, hgap]
  have hmax : simpleMax (1 : Matrix (Fin 1) (Fin 1) ℚ) = 1 := by
    simp [simpleMax, List.finRange_succ]
  have hinner : ∀ (n : ℕ) (D : Matrix (Fin 1) (Fin 1) ℚ),
      newtonatorInner (1 : Matrix (Fin 1) (Fin 1) ℚ) (1 : Matrix (Fin 1) (Fin 1) ℚ) (1 / 10 ^ 12) n 1 D =
        D + (n : ℚ) • (1 : Matrix (Fin 1) (Fin 1) ℚ) := by
    intro n
    induction n with
    | zero => intro D; simp [newtonatorInner]
    | succ n ih =>
      intro D
      simp only [newtonatorInner, Matrix.mul_one, hmax]
      rw [if_neg (by norm_num), ih]
      push_cast
      rw [add_smul, one_smul]
      abel
  have hinv1 : exactInv 1 (1 : Matrix (Fin 1) (Fin 1) ℚ) = .ok 1 := by
    unfold exactInv
    rw [if_pos (by simp), inv_one]
  have hstep : ∀ X : Matrix (Fin 1) (Fin 1) ℚ,
      newtonatorStep 1 0 1 0 (-1) exactInv X 1 = .ok (X - (1001 : ℚ) • (1 : Matrix (Fin 1) (Fin 1) ℚ)) := by
    intro X
    unfold newtonatorStep
    simp only [Matrix.mul_zero, Matrix.zero_mul, add_zero, hinv1, bind, Except.bind, Matrix.mul_one,
      neg_mul_neg, hinner]
    congr 2
    rw [show (1001 : ℚ) = 1 + ((1000 : ℕ) : ℚ) by norm_num, add_smul, one_smul]
  have hloop : ∀ (n : ℕ) (err : ℚ) (X : Matrix (Fin 1) (Fin 1) ℚ), 1 / 10 ^ 14 < err →
      newtonatorLoop 1 0 1 1 0 (-1) exactInv n err X 1 =
        .ok (X - ((n : ℚ) * 1001) • (1 : Matrix (Fin 1) (Fin 1) ℚ)) := by
    intro n
    induction n with
    | zero => intro err X _; simp [newtonatorLoop]
    | succ n ih =>
      intro err X herr
      simp only [newtonatorLoop, if_pos herr, hstep, hres, bind, Except.bind, absMaxE, hmax]
      rw [if_neg (by simp)]
      simp only
      rw [ih 1 _ (by norm_num)]
      congr 1
      push_cast
      rw [sub_sub, ← add_smul]
      congr 2
      ring
  refine ⟨?_, hgap⟩
  unfold newtonator
  rw [if_pos rfl, hres, hloop 1000 1 0 (by norm_num)]
  congr 1
  ext i j
  fin_cases i; fin_cases j
  norm_num

/-! ## The spectral radius -/

theorem radiusErrors_eq {ns nx : ℕ} (M : Matrix (Fin nx) (Fin nx) K) (C : Matrix (Fin ns) (Fin ns) K)
    (d : Matrix (Fin nx) (Fin ns) K) (mx : ℕ → K) (hmx : ∀ k, arrMaxE (neumannTerm M C d k) = .ok (mx k))
    (n m : ℕ) : radiusErrors M C n (neumannTerm M C d m) =
      .ok ((List.range n).map fun k => |mx (m + 1 + k)|) := by
  induction n generalizing m with
  | zero => rfl
  | succ n ih =>
    simp only [radiusErrors, neumannTerm_succ, hmx, bind, Except.bind]
    rw [ih (m + 1)]
    simp only [List.range_succ_eq_map, List.map_cons, List.map_map, Except.ok.injEq, List.cons.injEq]
    refine ⟨by simp, ?_⟩
    apply List.map_congr_left
    intro k _
    simp only [Function.comp]
    congr 2
    omega

theorem spectralRadius_eq {ns nx : ℕ} {g_s : Matrix (Fin ns) (Fin ns) K} {g_x : Matrix (Fin ns) (Fin nx) K}
    {f_x : Matrix (Fin nx) (Fin nx) K} {f_S : Matrix (Fin nx) (Fin ns) K} {f_X : Matrix (Fin nx) (Fin nx) K}
    {names : BfNames} (hn : names.sizes = true) {inv : MatInv K} {res X : Matrix (Fin nx) (Fin ns) K}
    {R : Matrix (Fin nx) (Fin nx) K} (hR : inv nx (f_x + f_S * g_x + f_X * X * g_x) = .ok R)
    (mx : ℕ → K) (hmx : ∀ k, arrMaxE (neumannTerm (-R * f_X) (g_s + g_x * X) (R * res) k) = .ok (mx k))
    (h0 : mx 999 ≠ 0) :
    spectralRadiusBf g_s g_x f_x f_S f_X names inv res (some X) = .ok (|mx 1000| / |mx 999|) := by
  unfold spectralRadiusBf
  rw [if_pos hn]
  simp only [Option.getD_some, hR, bind, Except.bind]
  have hz : R * res = neumannTerm (-R * f_X) (g_s + g_x * X) (R * res) 0 := by simp [neumannTerm]
  rw [hz, radiusErrors_eq _ _ _ mx hmx]
  have g1 : pyGet ((List.range 1000).map fun k => |mx (0 + 1 + k)|) 998 = .ok |mx 999| := by
    simp [pyGet]
  have g2 : pyGet ((List.range 1000).map fun k => |mx (0 + 1 + k)|) 999 = .ok |mx 1000| := by
    simp [pyGet]
  simp only [g1, g2]
  rw [if_neg (by simpa using h0)]

private theorem ratio_pow (q c : K) (hq : q ≠ 0) (hc : c ≠ 0) (n : ℕ) :
    |q ^ (n + 1) * c| / |q ^ n * c| = |q| := by
  have h : q ^ n * c ≠ 0 := mul_ne_zero (pow_ne_zero _ hq) hc
  rw [← abs_div, pow_succ, mul_right_comm, mul_comm, mul_div_assoc, div_self h, mul_one]

/-- **C117** (spectral radius, one state and one control).  With the names defined, the number returned is
the factor `|-(f_X / A) C|` by which the inner loop of `newtonator` multiplies its terms, with
`A = f_x + f_S g_x + f_X X g_x` and `C = g_s + g_x X`, if this is not zero. -/
theorem C117_radius_scalar_partial (gs gx fx fS fX x r : K) {names : BfNames} (hn : names.sizes = true)
    {inv : MatInv K} (hinv : inv.Correct) {R : Matrix (Fin 1) (Fin 1) K}
    (hR : inv 1 (!![fx] + !![fS] * !![gx] + !![fX] * !![x] * !![gx]) = .ok R)
    (hr : r ≠ 0) (hX : fX ≠ 0) (hC : gs + gx * x ≠ 0) :
    spectralRadiusBf !![gs] !![gx] !![fx] !![fS] !![fX] names inv !![r] (some !![x]) =
      .ok |fX * (gs + gx * x) / (fx + fS * gx + fX * x * gx)| := by
  set A := fx + fS * gx + fX * x * gx with hA
  have hAR : A * R 0 0 = 1 := by
    have := congrFun (congrFun (hinv _ _ _ hR).1 0) 0
    simpa [Matrix.mul_apply, hA, mul_assoc, mul_comm, mul_left_comm] using this
  have hR0 : R 0 0 ≠ 0 := fun h => by rw [h, mul_zero] at hAR; exact zero_ne_one hAR
  have hA0 : A ≠ 0 := fun h => by rw [h, zero_mul] at hAR; exact zero_ne_one hAR
  have hRinv : R 0 0 = A⁻¹ := eq_inv_of_mul_eq_one_right hAR
  have hterm : ∀ k, neumannTerm (-R * !![fX]) (!![gs] + !![gx] * !![x]) (R * !![r]) k 0 0 =
      (-(R 0 0 * fX) * (gs + gx * x)) ^ k * (R 0 0 * r) := by
    intro k
    induction k with
    | zero => simp [neumannTerm, Matrix.mul_apply]
    | succ k ih =>
      rw [← neumannTerm_succ, Matrix.mul_apply, Fin.sum_univ_one, Matrix.mul_apply, Fin.sum_univ_one, ih]
      simp only [Matrix.mul_apply, Fin.sum_univ_one, Matrix.neg_apply, Matrix.add_apply, Matrix.of_apply,
        Matrix.cons_val', Matrix.cons_val_fin_one]
      ring
  have hmx : ∀ k, arrMaxE (neumannTerm (-R * !![fX]) (!![gs] + !![gx] * !![x]) (R * !![r]) k) =
      .ok ((-(R 0 0 * fX) * (gs + gx * x)) ^ k * (R 0 0 * r)) := by
    intro k
    rw [← hterm k]
    simp [arrMaxE, pyMax, List.finRange_succ]
  have hq : -(R 0 0 * fX) * (gs + gx * x) ≠ 0 := mul_ne_zero (neg_ne_zero.2 (mul_ne_zero hR0 hX)) hC
  have h999 : (-(R 0 0 * fX) * (gs + gx * x)) ^ 999 * (R 0 0 * r) ≠ 0 :=
    mul_ne_zero (pow_ne_zero _ hq) (mul_ne_zero hR0 hr)
  rw [spectralRadius_eq hn hR _ hmx h999]
  congr 1
  rw [ratio_pow _ _ hq (mul_ne_zero hR0 hr) 999, hRinv, neg_mul, abs_neg]
  congr 1
  field_simp

private theorem sign_witness (a b : ℚ) (ha : 0 < a) (hb : 0 < b) (m : ℕ) (hm : Even m)
    (hab : b ≤ 2 ^ (m + 2) * a) :
    max (a * (-(1 / 2)) ^ (m + 1)) (b * (1 / 4) ^ (m + 1)) = b * (1 / 4) ^ (m + 1) ∧
    max (a * (-(1 / 2)) ^ (m + 2)) (b * (1 / 4) ^ (m + 2)) = a * (1 / 2) ^ (m + 2) ∧
    |a * (1 / 2) ^ (m + 2)| / |b * (1 / 4) ^ (m + 1)| = 2 ^ m * (a / b) := by
  have h2 : ∀ k : ℕ, (0 : ℚ) < (1 / 2) ^ k := fun k => pow_pos (by norm_num) _
  have h4 : ∀ k : ℕ, (1 / 4 : ℚ) ^ k = (1 / 2) ^ k * (1 / 2) ^ k := fun k => by
    rw [← mul_pow]; norm_num
  have hinv : ∀ k : ℕ, (2 : ℚ) ^ k * (1 / 2) ^ k = 1 := fun k => by rw [← mul_pow]; norm_num
  refine ⟨?_, ?_, ?_⟩
  · apply max_eq_right
    rw [Odd.neg_pow hm.add_one, mul_neg]
    have h1 : 0 ≤ a * (1 / 2) ^ (m + 1) := mul_nonneg ha.le (h2 _).le
    have h3 : 0 ≤ b * (1 / 4) ^ (m + 1) := mul_nonneg hb.le (pow_nonneg (by norm_num) _)
    exact (neg_nonpos.2 h1).trans h3
  · rw [Even.neg_pow (hm.add (by decide))]
    apply max_eq_left
    rw [h4, ← mul_assoc]
    refine mul_le_mul_of_nonneg_right ?_ (h2 _).le
    calc b * (1 / 2) ^ (m + 2) ≤ 2 ^ (m + 2) * a * (1 / 2) ^ (m + 2) :=
          mul_le_mul_of_nonneg_right hab (h2 _).le
      _ = 2 ^ (m + 2) * (1 / 2) ^ (m + 2) * a := by ring
      _ = a := by rw [hinv, one_mul]
  · have p1 : 0 < a * (1 / 2) ^ (m + 2) := mul_pos ha (h2 _)
    have p2 : 0 < b * (1 / 4) ^ (m + 1) := mul_pos hb (pow_pos (by norm_num) _)
    rw [abs_of_pos p1, abs_of_pos p2, div_eq_iff p2.ne', h4]
    have : (2 : ℚ) ^ m * (1 / 2) ^ m = 1 := hinv m
    rw [show 2 ^ m * (a / b) * (b * ((1 / 2 : ℚ) ^ (m + 1) * (1 / 2) ^ (m + 1))) =
      (2 ^ m * (1 / 2) ^ m) * (b / b) * (a * (1 / 2) ^ (m + 2)) by ring, this, div_self hb.ne']
    ring

private theorem sign_ratio (a b : ℚ) (ha : 0 < a) (hb : 0 < b) (m n n' : ℕ) (hm : Even m) (hn : n = m + 2)
    (hn' : n' = m + 1) (hab : b ≤ 2 ^ n * a) (mx : ℕ → ℚ)
    (hmx : ∀ k, mx k = max (a * (-(1 / 2)) ^ k) (b * (1 / 4) ^ k)) :
    mx n' ≠ 0 ∧ |mx n| / |mx n'| = 2 ^ m * (a / b) := by
  subst hn hn'
  obtain ⟨e1, e2, e3⟩ := sign_witness a b ha hb m hm hab
  rw [hmx, hmx, e1, e2, e3]
  exact ⟨mul_ne_zero hb.ne' (pow_ne_zero _ (by norm_num)), rfl⟩

private theorem sign_terms (a b : ℚ) (n : ℕ) :
    neumannTerm (1 : Matrix (Fin 1) (Fin 1) ℚ) !![-(1 / 2 : ℚ), 0; 0, 1 / 4] !![a, b] n =
      !![a * (-(1 / 2)) ^ n, b * (1 / 4) ^ n] := by
  induction n with
  | zero => simp [neumannTerm]
  | succ n ih =>
    rw [← neumannTerm_succ, ih]
    ext i j
    fin_cases i
    fin_cases j <;> simp [Matrix.mul_apply, Fin.sum_univ_two, pow_succ, mul_assoc]

private theorem sign_max (a b : ℚ) (k : ℕ) : arrMaxE (neumannTerm (-1 * -1 : Matrix (Fin 1) (Fin 1) ℚ)
      (!![-(1 / 2 : ℚ), 0; 0, 1 / 4] + (0 : Matrix (Fin 2) (Fin 1) ℚ) * (0 : Matrix (Fin 1) (Fin 2) ℚ))
      ((1 : Matrix (Fin 1) (Fin 1) ℚ) * !![a, b]) k) =
      .ok (max (a * (-(1 / 2)) ^ k) (b * (1 / 4) ^ k)) := by
  rw [neg_mul_neg, Matrix.one_mul (!![a, b]), Matrix.one_mul, Matrix.zero_mul, add_zero, sign_terms]
  simp [arrMaxE, pyMax, List.finRange_succ]

private theorem sign_inv :
    exactInv 1 ((1 : Matrix (Fin 1) (Fin 1) ℚ) + (0 : Matrix (Fin 1) (Fin 2) ℚ) * (0 : Matrix (Fin 2) (Fin 1) ℚ)
      + (-1 : Matrix (Fin 1) (Fin 1) ℚ) * (0 : Matrix (Fin 1) (Fin 2) ℚ) * (0 : Matrix (Fin 2) (Fin 1) ℚ)) = .ok 1 := by
  unfold exactInv
  rw [if_pos (by simp)]
  simp

private theorem sign_value (a b v : ℚ) (mx : ℕ → ℚ)
    (hmx : ∀ k, mx k = max (a * (-(1 / 2)) ^ k) (b * (1 / 4) ^ k)) (h999 : mx 999 ≠ 0)
    (hv : |mx 1000| / |mx 999| = v) :
    spectralRadiusBf (ns := 2) (nx := 1) !![-(1 / 2 : ℚ), 0; 0, 1 / 4] 0 1 0 (-1) ⟨true, true⟩ exactInv
      !![a, b] (some 0) = .ok v := by
  rw [← hv]
  exact spectralRadius_eq (g_s := !![-(1 / 2 : ℚ), 0; 0, 1 / 4]) (g_x := 0) (f_x := 1) (f_S := 0)
    (f_X := -1) (names := ⟨true, true⟩) rfl (inv := exactInv) (res := !![a, b]) (X := 0) sign_inv mx
    (fun k => by rw [hmx]; exact sign_max a b k) h999

/-- **C117** (spectral radius, sign).  With the names defined, `abs(ddx.max())` in place of
`abs(ddx).max()` makes the number returned meaningless as soon as terms are negative: with two states,
`s' = diag(-1/2, 1/4) s` and `f = x - x'`, the terms shrink by the factor 1/2, and the number returned is
`2^998` times the ratio of the two positive random draws, unless they differ by a factor of `2^1000` (in
floating-point arithmetic the denominator underflows and the number is infinite). -/
theorem C117_radius_sign_fails (a b : ℚ) (ha : 0 < a) (hb : 0 < b) (hab : b ≤ 2 ^ 1000 * a) :
    spectralRadiusBf (ns := 2) (nx := 1) !![-(1 / 2 : ℚ), 0; 0, 1 / 4] 0 1 0 (-1) ⟨true, true⟩ exactInv
      !![a, b] (some 0) = .ok (2 ^ 998 * (a / b)) ∧
    ∀ n, ∃ T : Matrix (Fin 1) (Fin 2) ℚ,
      T = neumannTerm 1 !![-(1 / 2 : ℚ), 0; 0, 1 / 4] !![a, b] n ∧
      T = !![a * (-(1 / 2)) ^ n, b * (1 / 4) ^ n] := by
  obtain ⟨h999, hrat⟩ := sign_ratio a b ha hb 998 1000 999 ⟨499, rfl⟩ rfl rfl hab
    (fun k => max (a * (-(1 / 2)) ^ k) (b * (1 / 4) ^ k)) fun _ => rfl
  exact ⟨sign_value a b _ _ (fun _ => rfl) h999 hrat, fun n => ⟨_, rfl, sign_terms a b n⟩⟩

/-! ## Non-vacuity -/

/-- `f = 2 s + x`: the names defined, `newtonator` returns the rule `-2`. -/
example : newtonator (ns := 1) (nx := 1) (1 : Matrix _ _ ℚ) 0 !![2] 1 0 0 ⟨true, true⟩ exactInv =
    .ok !![(-2 : ℚ)] := by
  have h0 : simpleMax (0 : Matrix (Fin 1) (Fin 1) ℚ) = 0 := by simp [simpleMax, List.finRange_succ]
  have hinv1 : exactInv 1 (1 : Matrix (Fin 1) (Fin 1) ℚ) = .ok 1 := by
    unfold exactInv
    rw [if_pos (by simp), inv_one]
  have hres : ∀ X : Matrix (Fin 1) (Fin 1) ℚ, newtonatorRes 1 0 !![2] 1 0 0 X = !![2] + X := by
    intro X; rw [newtonatorRes_eq]; unfold modelGap; simp
  have hstep : newtonatorStep 1 0 1 0 0 exactInv (0 : Matrix (Fin 1) (Fin 1) ℚ) (!![2] + 0) = .ok !![-2] := by
    have hin : ∀ (n : ℕ) (D C : Matrix (Fin 1) (Fin 1) ℚ),
        newtonatorInner 0 C (1 / 10 ^ 12) (n + 1) D D = D := by
      intro n D C
      simp only [newtonatorInner, Matrix.zero_mul, h0]
      rw [if_pos (by norm_num), add_zero]
    unfold newtonatorStep
    simp only [Matrix.mul_zero, add_zero, hinv1, bind, Except.bind]
    rw [hin 999]
    congr 1
    ext i j; fin_cases i; fin_cases j; simp
  have hz : !![(2 : ℚ)] + !![-2] = 0 := by ext i j; fin_cases i; fin_cases j; norm_num
  unfold newtonator
  rw [if_pos rfl, hres, newtonatorLoop, if_pos (by norm_num), hstep]
  simp only [bind, Except.bind, hres, hz, absMaxE, h0]
  rw [if_neg (by simp)]
  simp only
  rw [newtonatorLoop, if_neg (by norm_num)]

/-- `f = x - x'/2`, `s' = s/2`: the hypotheses of `C117_radius_scalar_partial`, and the number `1/4`. -/
example : spectralRadiusBf !![(1 / 2 : ℚ)] !![0] !![1] !![0] !![-(1 / 2)] ⟨true, true⟩ exactInv !![1 / 3]
    (some !![0]) = .ok (1 / 4) := by
  have hR : exactInv 1 (!![(1 : ℚ)] + !![0] * !![0] + !![-(1 / 2)] * !![0] * !![0]) = .ok 1 := by
    have : (!![(1 : ℚ)] + !![0] * !![0] + !![-(1 / 2)] * !![0] * !![0]) = (1 : Matrix (Fin 1) (Fin 1) ℚ) := by
      ext i j; fin_cases i; fin_cases j; simp
    rw [this]
    unfold exactInv
    rw [if_pos (by simp), inv_one]
  rw [C117_radius_scalar_partial (1 / 2) 0 1 0 (-(1 / 2)) 0 (1 / 3) rfl exactInv_correct hR (by norm_num)
    (by norm_num) (by norm_num)]
  congr 1
  norm_num [abs_of_neg, abs_div]

/-- A model with one state and no control. -/
example : newtonator (ns := 1) (nx := 0) (1 : Matrix _ _ ℚ) 0 0 1 0 0 ⟨true, true⟩ exactInv = .error .valueError :=
  C117_no_entries_fails _ _ (.inl rfl) rfl fun A => by
    refine ⟨A⁻¹, ?_⟩
    unfold exactInv
    rw [if_pos (by simp)]

end Dolo
