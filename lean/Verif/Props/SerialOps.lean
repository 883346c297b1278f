import Mathlib.Algebra.BigOperators.Ring.Finset
import Mathlib.Algebra.Order.BigOperators.Group.Finset
import Mathlib.Data.List.GetD
import Mathlib.Data.Rat.Defs
import Mathlib.Tactic.Ring
import Mathlib.Tactic.NormNum
import Mathlib.Tactic.Linarith
import Mathlib.Tactic.Positivity
import Verif.Model.SerialOps
import Verif.Lemmas.DecisionRule
import Verif.Props.SparseTensor
import Verif.Props.Sylvester

/-!
# C118: point-by-point linear algebra and the stacked Jacobian

Specification: each operation on arrays of points is the operation of linear algebra at every point, and
the stacked matrices act on stacked vectors as the derivatives act point by point.
-/

set_option linter.unusedSectionVars false

namespace Dolo

open Finset

variable {K : Type} [Field K]

/-- `numpy.linalg.solve` returns only solutions. -/
def VecSolver.Correct (solve : VecSolver K) : Prop :=
  ∀ n A b x, solve n A b = .ok x → ∀ i < n, ∑ j ∈ range n, A i j * x j = b i

/-! ## serial_multiplication -/

theorem dotLoop_eq (a b : ℕ → K) (n : ℕ) : dotLoop a b (List.range n) 0 = ∑ j ∈ range n, a j * b j := by
  have key : ∀ (l : List ℕ) (v : K), dotLoop a b l v = v + (l.map fun j => a j * b j).sum := by
    intro l
    induction l with
    | nil => intro v; simp [dotLoop]
    | cons j l ih => intro v; rw [dotLoop, ih, List.map_cons, List.sum_cons, add_assoc]
  rw [key, zero_add]
  induction n with
  | zero => simp
  | succ n ih => rw [List.range_succ, List.map_append, List.sum_append, ih, sum_range_succ]; simp

/-- **C118** (multiplication).  For three-dimensional arrays of matching shapes the entry `[n, i, k]` is
the entry `(i, k)` of the product of the `n`-th matrices; other shapes are refused.  Two-dimensional arrays
are multiplied as matrices. -/
theorem C118_multiplication (A B : Arr3 K) (A' B' : Arr2 K) :
    ((B.m = A.l ∧ B.n = A.n) → ∃ R : Arr3 K, serialMultiplication (.three A) (.three B) = .ok (.three R) ∧
      R.n = A.n ∧ R.m = A.m ∧ R.l = B.l ∧
      ∀ n i k, R.val n i k = ∑ j ∈ range A.l, A.val n i j * B.val n j k) ∧
    (¬ (B.m = A.l ∧ B.n = A.n) →
      serialMultiplication (.three A) (.three B) = .error .assertionError) ∧
    (A'.m ≠ B'.n → serialMultiplication (.two A') (.two B') = .error .valueError) ∧
    (A'.m = B'.n → ∃ R : Arr2 K, serialMultiplication (.two A') (.two B') = .ok (.two R) ∧
      R.n = A'.n ∧ R.m = B'.m ∧ ∀ i k, R.val i k = ∑ j ∈ range A'.m, A'.val i j * B'.val j k) ∧
    serialMultiplication (.two A') (.three B) = .error .indexError ∧
    serialMultiplication (.three A) (.two B') = .error .indexError := by
  refine ⟨?_, ?_, fun h => if_neg h, ?_, rfl, rfl⟩
  · rintro ⟨h1, h2⟩
    refine ⟨⟨A.n, A.m, B.l, fun n i k => dotLoop (fun j => A.val n i j) (fun j => B.val n j k)
      (List.range A.l) 0⟩, by simp only [serialMultiplication, h1, h2, ne_eq, not_true_eq_false, if_false],
      rfl, rfl, rfl, ?_⟩
    intro n i k
    exact dotLoop_eq _ _ _
  · intro h
    simp only [serialMultiplication]
    split_ifs with h1 h2
    · rfl
    · rfl
    · exact absurd ⟨not_not.1 h1, not_not.1 h2⟩ h
  · intro h
    refine ⟨⟨A'.n, B'.m, fun i k => dotLoop (fun j => A'.val i j) (fun j => B'.val j k)
      (List.range A'.m) 0⟩, by simp only [serialMultiplication, h, if_true], rfl, rfl, ?_⟩
    intro i k
    exact dotLoop_eq _ _ _

/-! ## serial_solve -/

theorem solveLoop_ok (solve : VecSolver K) (n : ℕ) (A : List (ℕ → ℕ → K)) (B : List (ℕ → K))
    (i : ℕ) (sol : List (ℕ → K)) :
    serialSolveLoop solve n i A B = .ok sol ↔ B.length ≤ A.length ∧ sol.length = B.length ∧
      ∀ (p : ℕ) J x s, A[p]? = some J → B[p]? = some x → sol[p]? = some s → solve n J x = .ok s := by
  induction B generalizing A i sol with
  | nil =>
    cases A <;> simp only [serialSolveLoop, Except.ok.injEq] <;> constructor
    all_goals first
      | (rintro rfl; simp)
      | (rintro ⟨-, h, -⟩; exact (List.eq_nil_of_length_eq_zero h).symm)
  | cons x B ih =>
    cases A with
    | nil => simp [serialSolveLoop]
    | cons J A =>
      simp only [serialSolveLoop]
      cases hs : solve n J x with
      | error e =>
        simp only [reduceCtorEq, false_iff, not_and]
        intro _ hl h
        cases sol with
        | nil => simp at hl
        | cons s sol =>
          have := h 0 J x s rfl rfl rfl
          rw [hs] at this; cases this
      | ok s0 =>
        cases hr : serialSolveLoop solve n (i + 1) A B with
        | error e =>
          simp only [reduceCtorEq, false_iff, not_and]
          intro hl hl2 h
          cases sol with
          | nil => simp at hl2
          | cons s sol =>
            have := (ih A (i + 1) sol).2 ⟨by simpa using hl, by simpa using hl2, fun p J' x' s' h1 h2 h3 =>
              h (p + 1) J' x' s' (by simpa using h1) (by simpa using h2) (by simpa using h3)⟩
            rw [hr] at this; cases this
        | ok rest =>
          simp only [Except.ok.injEq]
          obtain ⟨k1, k2, k3⟩ := (ih A (i + 1) rest).1 hr
          constructor
          · rintro rfl
            refine ⟨by simpa using k1, by simpa using k2, ?_⟩
            intro p J' x' s' h1 h2 h3
            rcases p with _ | p
            · simp only [List.getElem?_cons_zero, Option.some.injEq] at h1 h2 h3
              rw [← h1, ← h2, ← h3, hs]
            · exact k3 p J' x' s' (by simpa using h1) (by simpa using h2) (by simpa using h3)
          · rintro ⟨hl, hl2, h⟩
            cases sol with
            | nil => simp at hl2
            | cons s sol =>
              have h0 := h 0 J x s rfl rfl rfl
              rw [hs] at h0
              have := (ih A (i + 1) sol).2 ⟨by simpa using hl, by simpa using hl2,
                fun p J' x' s' h1 h2 h3 =>
                h (p + 1) J' x' s' (by simpa using h1) (by simpa using h2) (by simpa using h3)⟩
              rw [hr] at this
              simp only [Except.ok.injEq] at h0 this
              rw [h0, this]

private theorem solveLoop_point (solve : VecSolver K) (n : ℕ) (A : List (ℕ → ℕ → K)) (B : List (ℕ → K))
    (i q : ℕ) (x : ℕ → K) (J : ℕ → ℕ → K)
    (h : serialSolveLoop solve n i A B = .error (.point q x J)) :
    ∃ p, q = i + p ∧ A[p]? = some J ∧ B[p]? = some x ∧ (∃ e, solve n J x = .error e) ∧
      ∀ p' < p, ∃ J' x' s, A[p']? = some J' ∧ B[p']? = some x' ∧ solve n J' x' = .ok s := by
  induction B generalizing A i with
  | nil => cases A <;> simp [serialSolveLoop] at h
  | cons x0 B ih =>
    cases A with
    | nil => simp [serialSolveLoop] at h
    | cons J0 A =>
      simp only [serialSolveLoop] at h
      cases hs : solve n J0 x0 with
      | error e =>
        simp only [hs, Except.error.injEq, SolveErr.point.injEq] at h
        obtain ⟨rfl, rfl, rfl⟩ := h
        exact ⟨0, rfl, rfl, rfl, ⟨e, hs⟩, by simp⟩
      | ok s =>
        simp only [hs] at h
        cases hr : serialSolveLoop solve n (i + 1) A B with
        | ok rest => simp [hr] at h
        | error e =>
          simp only [hr, Except.error.injEq] at h
          subst h
          obtain ⟨p, p1, p2, p3, p4, p5⟩ := ih A (i + 1) hr
          refine ⟨p + 1, by omega, by simpa using p2, by simpa using p3, p4, ?_⟩
          intro p' hp'
          rcases p' with _ | p'
          · exact ⟨J0, x0, s, rfl, rfl, hs⟩
          · simpa using p5 p' (by omega)

/-- **C118** (solve).  `serial_solve(A, B)` returns exactly if there are at least as many matrices as
right-hand sides and every system can be solved, and then the solution of every system, in order.  If it
raises `Error solving point i`, the attributes are those of the first system that cannot be solved. -/
theorem C118_solve (solve : VecSolver K) (hsolve : solve.Correct) (n : ℕ) (A : List (ℕ → ℕ → K))
    (B : List (ℕ → K)) :
    (∀ sol, serialSolveDiagnose solve n A B = .ok sol → sol.length = B.length ∧
      ∀ (p : ℕ) J x s, A[p]? = some J → B[p]? = some x → sol[p]? = some s →
        ∀ i < n, ∑ j ∈ range n, J i j * s j = x i) ∧
    ((∃ sol, serialSolveDiagnose solve n A B = .ok sol) ↔ B.length ≤ A.length ∧
      ∀ (p : ℕ) J x, A[p]? = some J → B[p]? = some x → ∃ s, solve n J x = .ok s) ∧
    (∀ q x J, serialSolveDiagnose solve n A B = .error (.point q x J) →
      A[q]? = some J ∧ B[q]? = some x ∧ (∃ e, solve n J x = .error e) ∧
      ∀ p < q, ∃ J' x' s, A[p]? = some J' ∧ B[p]? = some x' ∧ solve n J' x' = .ok s) := by
  refine ⟨?_, ?_, ?_⟩
  · intro sol h
    obtain ⟨-, h2, h3⟩ := (solveLoop_ok solve n A B 0 sol).1 h
    exact ⟨h2, fun p J x s a b c => hsolve n J x s (h3 p J x s a b c)⟩
  · constructor
    · rintro ⟨sol, h⟩
      obtain ⟨h1, h2, h3⟩ := (solveLoop_ok solve n A B 0 sol).1 h
      refine ⟨h1, ?_⟩
      intro p J x a b
      have hp : p < sol.length := by
        rw [h2]
        exact (List.getElem?_eq_some_iff.1 b).1
      exact ⟨sol[p], h3 p J x _ a b (List.getElem?_eq_getElem hp)⟩
    · rintro ⟨h1, h2⟩
      have : ∃ sol : List (ℕ → K), sol.length = B.length ∧ ∀ (p : ℕ) J x s, A[p]? = some J → B[p]? = some x →
          sol[p]? = some s → solve n J x = .ok s := by
        clear hsolve
        induction B generalizing A with
        | nil => exact ⟨[], rfl, by simp⟩
        | cons x B ih =>
          cases A with
          | nil => simp at h1
          | cons J A =>
            obtain ⟨s, hs⟩ := h2 0 J x rfl rfl
            obtain ⟨sol, k1, k2⟩ := ih A (by simpa using h1) fun p J' x' a b =>
              h2 (p + 1) J' x' (by simpa using a) (by simpa using b)
            refine ⟨s :: sol, by simp [k1], ?_⟩
            intro p J' x' s' a b c
            rcases p with _ | p
            · simp only [List.getElem?_cons_zero, Option.some.injEq] at a b c
              rw [← a, ← b, ← c, hs]
            · exact k2 p J' x' s' (by simpa using a) (by simpa using b) (by simpa using c)
      obtain ⟨sol, k1, k2⟩ := this
      exact ⟨sol, (solveLoop_ok solve n A B 0 sol).2 ⟨h1, k1, k2⟩⟩
  · intro q x J h
    obtain ⟨p, rfl, p2, p3, p4, p5⟩ := solveLoop_point solve n A B 0 q x J h
    rw [Nat.zero_add]
    exact ⟨p2, p3, p4, p5⟩

/-! ## mult_AB -/

private theorem plain_ok (solve : VecSolver K) (n N : ℕ) (A : ℕ → ℕ → ℕ → K) (B : ℕ → ℕ → K)
    (s : List (ℕ → K)) (h : serialSolvePlain solve n N A B = .ok s) (p : ℕ) (hp : p < N) :
    solve n (A p) (B p) = .ok (s.getD p fun _ => 0) := by
  unfold serialSolvePlain at h
  rw [mapM_ok_iff] at h
  have hl := h.length_eq
  rw [List.length_range] at hl
  have := (List.forall₂_iff_get.1 h).2 p (by simpa using hp) (by omega)
  rw [List.getD_eq_getElem _ _ (by omega)]
  simpa using this

private theorem multABLoop_ok (solve : VecSolver K) (N nx : ℕ) (dres : ℕ → ℕ → ℕ → ℕ → K) (jres : Arr5 K)
    (l : List (ℕ × ℕ × ℕ)) (out R : Arr5 K) (h : multABLoop solve N nx dres jres l out = .ok R)
    (i j v : ℕ) (p : ℕ) (hp : p < N)
    (hmem : (i, j, v) ∈ l ∨ solve nx (dres i p) (fun k => jres i p k j v) = .ok (fun k => out i p k j v)) :
    solve nx (dres i p) (fun k => jres i p k j v) = .ok (fun k => R i p k j v) := by
  induction l generalizing out with
  | nil =>
    simp only [multABLoop, Except.ok.injEq] at h
    subst h
    simpa using hmem
  | cons t l ih =>
    obtain ⟨a, b, w⟩ := t
    simp only [multABLoop, bind, Except.bind] at h
    cases hs : serialSolvePlain solve nx N (dres a) (fun p k => jres a p k b w) with
    | error e => simp [hs] at h
    | ok s =>
      simp only [hs] at h
      refine ih _ h ?_
      by_cases heq : i = a ∧ j = b ∧ v = w
      · obtain ⟨rfl, rfl, rfl⟩ := heq
        right
        have := plain_ok solve nx N _ _ s hs p hp
        simpa using this
      · rcases hmem with hmem | hmem
        · rcases List.mem_cons.1 hmem with h' | h'
          · simp only [Prod.mk.injEq] at h'
            exact absurd h' heq
          · exact .inl h'
        · right
          simpa only [heq, if_false] using hmem

theorem mem_triples (n m l i j v : ℕ) : (i, j, v) ∈ triples n m l ↔ i < n ∧ j < m ∧ v < l := by
  simp only [triples, List.mem_flatMap, List.mem_map, List.mem_range, Prod.mk.injEq]
  constructor
  · rintro ⟨a, ha, b, hb, c, hc, rfl, rfl, rfl⟩; exact ⟨ha, hb, hc⟩
  · rintro ⟨h1, h2, h3⟩; exact ⟨i, h1, j, h2, v, h3, rfl, rfl, rfl⟩

private theorem multABLoop_exists (solve : VecSolver K) (N nx : ℕ) (dres : ℕ → ℕ → ℕ → ℕ → K) (jres : Arr5 K)
    (l : List (ℕ × ℕ × ℕ)) (out : Arr5 K)
    (h : ∀ i j v, (i, j, v) ∈ l → ∀ p < N, ∃ s, solve nx (dres i p) (fun k => jres i p k j v) = .ok s) :
    ∃ R, multABLoop solve N nx dres jres l out = .ok R := by
  induction l generalizing out with
  | nil => exact ⟨out, rfl⟩
  | cons t l ih =>
    obtain ⟨a, b, w⟩ := t
    have hs : ∃ s, serialSolvePlain solve nx N (dres a) (fun p k => jres a p k b w) = .ok s := by
      unfold serialSolvePlain
      have h0 : ∀ p ∈ List.range N, ∃ s, solve nx (dres a p) (fun k => jres a p k b w) = .ok s :=
        fun p hp => h a b w (List.mem_cons_self ..) p (List.mem_range.1 hp)
      generalize List.range N = L at h0
      induction L with
      | nil => exact ⟨[], rfl⟩
      | cons p L ihL =>
        obtain ⟨s, hs⟩ := h0 p (List.mem_cons_self ..)
        obtain ⟨rest, hr⟩ := ihL fun q hq => h0 q (List.mem_cons_of_mem _ hq)
        exact ⟨s :: rest, by simp [List.mapM_cons, hs, hr, bind, Except.bind, pure, Except.pure]⟩
    obtain ⟨s, hs⟩ := hs
    simp only [multABLoop, hs, bind, Except.bind]
    exact ih _ fun i j v hm => h i j v (List.mem_cons_of_mem _ hm)

/-- **C118** (mult_AB).  It returns if every system can be solved.  When it returns, every column of every block of the result solves the system of
its own point: `dres[i, p] out[i, p, :, j, v] = jres[i, p, :, j, v]`.  Another shape is refused. -/
theorem C118_mult_AB (solve : VecSolver K) (hsolve : solve.Correct) (nm N nx : ℕ)
    (dres : ℕ → ℕ → ℕ → ℕ → K) (jshape : List ℕ) (jres : Arr5 K) :
    (jshape ≠ [nm, N, nx, nm, nx] → multAB solve nm N nx dres jshape jres = .error .assertionError) ∧
    (jshape = [nm, N, nx, nm, nx] →
      (∀ i < nm, ∀ p < N, ∀ b, ∃ s, solve nx (dres i p) b = .ok s) →
      ∃ out, multAB solve nm N nx dres jshape jres = .ok out) ∧
    ∀ out, multAB solve nm N nx dres jshape jres = .ok out →
      ∀ i < nm, ∀ p < N, ∀ j < nm, ∀ v < nx, ∀ k < nx,
        ∑ m ∈ range nx, dres i p k m * out i p m j v = jres i p k j v := by
  refine ⟨fun h => if_pos h, ?_, ?_⟩
  · intro h hex
    unfold multAB
    rw [if_neg (by simpa using h)]
    exact multABLoop_exists solve N nx dres jres _ _ fun i j v hm p hp =>
      hex i ((mem_triples _ _ _ _ _ _).1 hm).1 p hp _
  intro out h i hi p hp j hj v hv k hk
  unfold multAB at h
  split_ifs at h
  have := multABLoop_ok solve N nx dres jres _ _ _ h i j v p hp
    (.inl ((mem_triples _ _ _ _ _ _).2 ⟨hi, hj, hv⟩))
  exact hsolve _ _ _ _ this k hk

/-! ## Stacked matrices -/

theorem j2ALoop_eq (jres : Arr5 K) (l : List ℕ) (T : Arr6 K) (a b c a' b' c' : ℕ) :
    j2ALoop jres l T a b c a' b' c' =
      if b ∈ l ∧ b' = b then jres a b c a' c' else T a b c a' b' c' := by
  induction l generalizing T with
  | nil => simp [j2ALoop]
  | cons n l ih =>
    rw [j2ALoop, ih]
    by_cases hb : b' = b
    · subst hb
      by_cases h1 : b' ∈ l
      · simp [h1]
      · by_cases h2 : b' = n
        · subst h2; simp
        · simp [h1, h2]
    · by_cases h2 : b = n ∧ b' = n
      · exact absurd (h2.2.trans h2.1.symm) hb
      · simp [hb, h2]

/-- The position of an entry in the stacked vector. -/
def stackPos (N nx i n k : ℕ) : ℕ := (i * N + n) * nx + k

theorem stackPos_parts (N nx i n k : ℕ) (hn : n < N) (hk : k < nx) :
    stackPos N nx i n k / nx / N = i ∧ stackPos N nx i n k / nx % N = n ∧ stackPos N nx i n k % nx = k := by
  have h1 : stackPos N nx i n k / nx = i * N + n := by
    unfold stackPos
    rw [Nat.add_comm, Nat.add_mul_div_right _ _ (by omega), Nat.div_eq_of_lt hk, Nat.zero_add]
  rw [h1]
  refine ⟨?_, ?_, ?_⟩
  · rw [Nat.add_comm, Nat.add_mul_div_right _ _ (by omega), Nat.div_eq_of_lt hn, Nat.zero_add]
  · rw [Nat.add_comm, Nat.add_mul_mod_self_right, Nat.mod_eq_of_lt hn]
  · unfold stackPos
    rw [Nat.add_comm, Nat.add_mul_mod_self_right, Nat.mod_eq_of_lt hk]

/-- The stacked vector of an array. -/
def stackVec (N nx : ℕ) (v : ℕ → ℕ → ℕ → K) (c : ℕ) : K := v (c / nx / N) (c / nx % N) (c % nx)

theorem sum_stack (nm N nx : ℕ) (f : ℕ → ℕ → ℕ → K) :
    ∑ c ∈ range (nm * N * nx), f (c / nx / N) (c / nx % N) (c % nx) =
      ∑ i ∈ range nm, ∑ n ∈ range N, ∑ k ∈ range nx, f i n k := by
  rw [sum_range_mul (nm * N) nx fun q k => f (q / N) (q % N) k,
    sum_range_mul nm N fun i n => ∑ k ∈ range nx, f i n k]

theorem jac1_val (nm N nx : ℕ) (dres : ℕ → ℕ → ℕ → ℕ → K) (i n k : ℕ) (hi : i < nm) (hn : n < N)
    (hk : k < nx) (c : ℕ) :
    (jac1 nm N nx dres).val (stackPos N nx i n k) c =
      if c / nx / N = i ∧ c / nx % N = n then dres i n k (c % nx) else 0 := by
  obtain ⟨e1, e2, e3⟩ := stackPos_parts N nx i n k hn hk
  simp only [jac1, jac1Loop_eq, e1, e2, e3]
  have hmem : (n, i) ∈ ((List.range N).flatMap fun n => (List.range nm).map fun i => (n, i)) := by
    simp only [List.mem_flatMap, List.mem_map, List.mem_range]
    exact ⟨_, hn, _, hi, rfl⟩
  simp only [hmem, true_and]

/-- **C118** (jac_1).  The stacked matrix acts on a stacked vector as `dres` acts point by point. -/
theorem C118_jac1 (nm N nx : ℕ) (dres : ℕ → ℕ → ℕ → ℕ → K) (v : ℕ → ℕ → ℕ → K) (i n k : ℕ) (hi : i < nm)
    (hn : n < N) (hk : k < nx) :
    ∑ c ∈ range (nm * N * nx), (jac1 nm N nx dres).val (stackPos N nx i n k) c * stackVec N nx v c =
      ∑ m ∈ range nx, dres i n k m * v i n m := by
  have h : ∀ c, (jac1 nm N nx dres).val (stackPos N nx i n k) c * stackVec N nx v c =
      (fun a b m => if a = i ∧ b = n then dres i n k m * v a b m else 0) (c / nx / N) (c / nx % N) (c % nx) := by
    intro c
    rw [jac1_val nm N nx dres i n k hi hn hk]
    simp only [stackVec, ite_mul, zero_mul]
  rw [sum_congr rfl fun c _ => h c,
    sum_stack nm N nx fun a b m => if a = i ∧ b = n then dres i n k m * v a b m else 0,
    sum_eq_single_of_mem i (mem_range.2 hi), sum_eq_single_of_mem n (mem_range.2 hn)]
  · simp
  · intro b _ hb; simp [hb]
  · intro a _ ha; simp [ha]

/-- **C118** (j2_A).  The stacked matrix acts on a stacked vector as `jres` acts point by point: the row
`(i, n)` sees the values at the same grid point `n` in all the exogenous states `j`. -/
theorem C118_j2A (nm N nx : ℕ) (jres : Arr5 K) (v : ℕ → ℕ → ℕ → K) (i n k : ℕ) (hn : n < N)
    (hk : k < nx) :
    ∑ c ∈ range (nm * N * nx), (j2A nm N nx jres).val (stackPos N nx i n k) c * stackVec N nx v c =
      ∑ j ∈ range nm, ∑ m ∈ range nx, jres i n k j m * v j n m := by
  obtain ⟨e1, e2, e3⟩ := stackPos_parts N nx i n k hn hk
  have h : ∀ c, (j2A nm N nx jres).val (stackPos N nx i n k) c * stackVec N nx v c =
      (fun a b m => if b = n then jres i n k a m * v a b m else 0) (c / nx / N) (c / nx % N) (c % nx) := by
    intro c
    simp only [j2A, j2ALoop_eq, e1, e2, e3, List.mem_range, hn, true_and, stackVec, ite_mul, zero_mul]
  rw [sum_congr rfl fun c _ => h c,
    sum_stack nm N nx fun a b m => if b = n then jres i n k a m * v a b m else 0]
  refine sum_congr rfl fun j _ => ?_
  rw [sum_eq_single_of_mem n (mem_range.2 hn)]
  · simp
  · intro b _ hb; simp [hb]

/-- **C118** (mult_AB, stacked).  The stacked matrix of `mult_AB(dres, jres)` solves
`jac_1 · X = j2_A(jres)`. -/
theorem C118_stacked_solution (solve : VecSolver K) (hsolve : solve.Correct) (nm N nx : ℕ)
    (dres : ℕ → ℕ → ℕ → ℕ → K) (jres out : Arr5 K)
    (h : multAB solve nm N nx dres [nm, N, nx, nm, nx] jres = .ok out)
    (r c : ℕ) (hr : r < nm * N * nx) (hc : c < nm * N * nx) :
    ∑ t ∈ range (nm * N * nx), (jac1 nm N nx dres).val r t * (j2A nm N nx out).val t c =
      (j2A nm N nx jres).val r c := by
  have hpos : 0 < nm ∧ 0 < N ∧ 0 < nx := by
    refine ⟨?_, ?_, ?_⟩ <;> (apply Nat.pos_of_ne_zero; rintro rfl; simp at hr)
  obtain ⟨-, hN, hx⟩ := hpos
  have split : ∀ r, r < nm * N * nx → r / nx / N < nm ∧ r / nx % N < N ∧ r % nx < nx ∧
      r = stackPos N nx (r / nx / N) (r / nx % N) (r % nx) := by
    intro r hr
    refine ⟨?_, Nat.mod_lt _ hN, Nat.mod_lt _ hx, ?_⟩
    · rw [Nat.div_lt_iff_lt_mul hN, Nat.div_lt_iff_lt_mul hx]
      exact hr
    · unfold stackPos
      have e1 : r / nx / N * N + r / nx % N = r / nx := by
        rw [Nat.mul_comm]; exact Nat.div_add_mod _ _
      rw [e1, Nat.mul_comm]
      exact (Nat.div_add_mod _ _).symm
  obtain ⟨r1, r2, r3, r4⟩ := split r hr
  obtain ⟨c1, c2, c3, -⟩ := split c hc
  set i := r / nx / N
  set n := r / nx % N
  set k := r % nx
  have hval : ∀ t, (j2A nm N nx out).val t c =
      stackVec N nx (fun a b m => if b ∈ List.range N ∧ c / nx % N = b then out a b m (c / nx / N) (c % nx)
        else 0) t := by
    intro t
    simp only [j2A, j2ALoop_eq, stackVec]
  rw [r4, sum_congr rfl fun t _ => by rw [hval t], C118_jac1 nm N nx dres _ i n k r1 r2 r3]
  obtain ⟨e1, e2, e3⟩ := stackPos_parts N nx i n k r2 r3
  simp only [j2A, j2ALoop_eq, e1, e2, e3, List.mem_range, r2, true_and]
  by_cases hcn : c / nx % N = n
  · simp only [hcn, if_true]
    exact (C118_mult_AB solve hsolve nm N nx dres _ jres).2.2 out h i r1 n r2 _ c1 _ c3 k r3
  · simp [hcn]

/-! ## jac_2 -/

section
variable [LinearOrder K] [IsStrictOrderedRing K]

theorem fillXX_eq (X : ℕ → ℕ → K) (l : List ℕ) (T : ℕ → ℕ → ℕ → ℕ → K) (a b c d : ℕ) :
    fillXX X l T a b c d = if b ∈ l ∧ d = b then X a c else T a b c d := by
  induction l generalizing T with
  | nil => simp [fillXX]
  | cons i l ih =>
    rw [fillXX, ih]
    by_cases hd : d = b
    · subst hd
      by_cases h1 : d ∈ l
      · simp [h1]
      · by_cases h2 : d = i
        · subst h2; simp
        · simp [h1, h2]
    · by_cases h2 : b = i ∧ d = i
      · exact absurd (h2.2.trans h2.1.symm) hd
      · simp [hd, h2]

theorem fillFF_eq (ff : ℕ → ℕ → ℕ → K) (l : List ℕ) (T : ℕ → ℕ → ℕ → ℕ → K) (a b c d : ℕ) :
    fillFF ff l T a b c d = if a ∈ l ∧ c = a then ff a b d else T a b c d := by
  induction l generalizing T with
  | nil => simp [fillFF]
  | cons i l ih =>
    rw [fillFF, ih]
    by_cases hd : c = a
    · subst hd
      by_cases h1 : c ∈ l
      · simp [h1]
      · by_cases h2 : c = i
        · subst h2; simp
        · simp [h1, h2]
    · by_cases h2 : a = i ∧ c = i
      · exact absurd (h2.2.trans h2.1.symm) hd
      · simp [hd, h2]

theorem jac2Block_eq (N nx : ℕ) (X : ℕ → ℕ → K) (ff : ℕ → ℕ → ℕ → K) (n k q y : ℕ) (hn : n < N)
    (hk : k < nx) (hy : y < nx) : jac2Block N nx X ff n k q y = ff n k y * X n q := by
  have d : ∀ a b, b < nx → (a * nx + b) / nx = a ∧ (a * nx + b) % nx = b := by
    intro a b hb
    constructor
    · rw [Nat.add_comm, Nat.add_mul_div_right _ _ (by omega), Nat.div_eq_of_lt hb, Nat.zero_add]
    · rw [Nat.add_comm, Nat.add_mul_mod_self_right, Nat.mod_eq_of_lt hb]
  simp only [jac2Block, SqMat.mul, reshape4, fillXX_eq, fillFF_eq, (d n k hk).1, (d n k hk).2,
    (d q y hy).1, (d q y hy).2, List.mem_range, hn, true_and]
  have hsum : ∀ (M : ℕ) (f : ℕ → K), ((List.range M).map f).sum = ∑ t ∈ range M, f t := by
    intro M f
    induction M with
    | zero => simp
    | succ M ih => rw [List.range_succ, List.map_append, List.sum_append, ih, sum_range_succ]; simp
  rw [hsum, sum_range_mul N nx fun a b => (if a = n then ff n k b else 0) *
    if b < nx ∧ y = b then X a q else 0]
  rw [sum_eq_single_of_mem n (mem_range.2 hn), sum_eq_single_of_mem y (mem_range.2 hy)]
  · simp [hy]
  · intro b _ hb; simp [Ne.symm hb]
  · intro a _ ha; simp [ha]

/-- **C118** (jac_2 raises).  As the module stands `jac_2`, `jac`, `solve`, `solve_sp` and `solve_smart` raise
`NameError` for every Jacobian, and so does `j2_B` if there is something to compute. -/
theorem C118_raises (solve : VecSolver K) (nm N nx : ℕ) (dres : ℕ → ℕ → ℕ → ℕ → K)
    (W : ℕ → ℕ → ℕ → ℕ → K) (jres : Arr5 K) (rr : ℕ → ℕ → ℕ → K) :
    jac2 false nm N nx W jres = .error .nameError ∧
    smartJac false nm N nx dres W jres = .error .nameError ∧
    smartSolve solve false nm N nx dres W jres rr = .error .nameError ∧
    solveSmart rr = .error .nameError ∧
    (0 < nx → 0 < nm → j2B (K := K) nm N nx = .error .nameError) := by
  refine ⟨rfl, rfl, rfl, rfl, ?_⟩
  intro h1 h2
  unfold j2B
  rw [if_neg (by omega)]

/-- **C118** (jac_2).  With the spline names defined, the entry of `jac_2` between `(i, n, k)` and
`(j, q, y)` is the derivative `jres[i, n, k, j, y]` times the weight of the grid point `q` in the value
interpolated at `fut_S[i, n, j]`, if this product is at least `1e-6` in absolute value, and zero otherwise. -/
theorem C118_jac2_partial (nm N nx : ℕ) (W : ℕ → ℕ → ℕ → ℕ → K) (jres : Arr5 K) :
    ∃ J, jac2 true nm N nx W jres = .ok J ∧ J.rows = nm * N * nx ∧ J.cols = nm * N * nx ∧
      ∀ i n k j q y, n < N → k < nx → q < N → y < nx →
        (1 / 10 ^ 6 ≤ |jres i n k j y * W i j n q| →
          J.val (stackPos N nx i n k) (stackPos N nx j q y) = jres i n k j y * W i j n q) ∧
        (|jres i n k j y * W i j n q| < 1 / 10 ^ 6 →
          J.val (stackPos N nx i n k) (stackPos N nx j q y) = 0) := by
  refine ⟨_, if_pos rfl, rfl, rfl, ?_⟩
  intro i n k j q y hn hk hq hy
  obtain ⟨e1, e2, e3⟩ := stackPos_parts N nx i n k hn hk
  obtain ⟨f1, f2, f3⟩ := stackPos_parts N nx j q y hq hy
  simp only [e1, e2, e3, f1, f2, f3, jac2Block_eq N nx _ _ n k q y hn hk hy]
  constructor
  · intro h; rw [if_neg (not_lt.2 h)]
  · intro h; rw [if_pos h]

/-- **C118** (Jacobian).  With the spline names defined, if no product of a derivative and a weight is
positive but smaller than `1e-6` in absolute value, the matrix `jac` acts on a stacked vector `v` as the
derivative of the residuals with respect to the values on the grid: the direct effect, and the effect of the
values interpolated at the future states. -/
theorem C118_jac_partial (nm N nx : ℕ) (dres : ℕ → ℕ → ℕ → ℕ → K) (W : ℕ → ℕ → ℕ → ℕ → K) (jres : Arr5 K)
    (hbig : ∀ i n k j q y, jres i n k j y * W i j n q = 0 ∨ 1 / 10 ^ 6 ≤ |jres i n k j y * W i j n q|) :
    ∃ J, smartJac true nm N nx dres W jres = .ok J ∧ J.rows = nm * N * nx ∧ J.cols = nm * N * nx ∧
      ∀ (v : ℕ → ℕ → ℕ → K) (i n k : ℕ), i < nm → n < N → k < nx →
        ∑ c ∈ range (nm * N * nx), J.val (stackPos N nx i n k) c * stackVec N nx v c =
          ∑ m ∈ range nx, dres i n k m * v i n m +
          ∑ j ∈ range nm, ∑ y ∈ range nx, jres i n k j y * ∑ q ∈ range N, W i j n q * v j q y := by
  refine ⟨_, rfl, rfl, rfl, ?_⟩
  intro v i n k hi hn hk
  obtain ⟨e1, e2, e3⟩ := stackPos_parts N nx i n k hn hk
  simp only [add_mul, sum_add_distrib]
  rw [C118_jac1 nm N nx dres v i n k hi hn hk]
  congr 1
  have hx : 0 < nx := by omega
  have h : ∀ c, (if |jac2Block N nx (W (stackPos N nx i n k / nx / N) (c / nx / N))
        (fun n' k' m => jres (stackPos N nx i n k / nx / N) n' k' (c / nx / N) m)
        (stackPos N nx i n k / nx % N) (stackPos N nx i n k % nx) (c / nx % N) (c % nx)| < 1 / 10 ^ 6 then 0
      else jac2Block N nx (W (stackPos N nx i n k / nx / N) (c / nx / N))
        (fun n' k' m => jres (stackPos N nx i n k / nx / N) n' k' (c / nx / N) m)
        (stackPos N nx i n k / nx % N) (stackPos N nx i n k % nx) (c / nx % N) (c % nx)) * stackVec N nx v c =
      (fun a b m => jres i n k a m * (W i a n b * v a b m)) (c / nx / N) (c / nx % N) (c % nx) := by
    intro c
    rw [e1, e2, e3, jac2Block_eq N nx _ _ n k _ _ hn hk (Nat.mod_lt _ hx)]
    simp only [stackVec]
    rw [← mul_assoc]
    congr 1
    rcases hbig i n k (c / nx / N) (c / nx % N) (c % nx) with h0 | h0
    · rw [h0]; simp
    · rw [if_neg (not_lt.2 h0)]
  rw [sum_congr rfl fun c _ => h c, sum_stack nm N nx fun a b m => jres i n k a m * (W i a n b * v a b m)]
  refine sum_congr rfl fun j _ => ?_
  rw [sum_comm]
  refine sum_congr rfl fun y _ => ?_
  rw [mul_sum]

/-- **C118** (solve, solve_sp).  With the spline names defined and no small products, the array returned
solves the linearised model: at every point the direct effect plus the effect of the interpolated future
values is the right-hand side given. -/
theorem C118_smart_solve_partial (solve : VecSolver K) (hsolve : solve.Correct) (nm N nx : ℕ)
    (dres : ℕ → ℕ → ℕ → ℕ → K) (W : ℕ → ℕ → ℕ → ℕ → K) (jres : Arr5 K)
    (hbig : ∀ i n k j q y, jres i n k j y * W i j n q = 0 ∨ 1 / 10 ^ 6 ≤ |jres i n k j y * W i j n q|)
    (rr x : ℕ → ℕ → ℕ → K) (h : smartSolve solve true nm N nx dres W jres rr = .ok x)
    (i n k : ℕ) (hi : i < nm) (hn : n < N) (hk : k < nx) :
    ∑ m ∈ range nx, dres i n k m * x i n m +
      ∑ j ∈ range nm, ∑ y ∈ range nx, jres i n k j y * ∑ q ∈ range N, W i j n q * x j q y = rr i n k := by
  obtain ⟨J, h1, h2, -, h4⟩ := C118_jac_partial nm N nx dres W jres hbig
  obtain ⟨e1, e2, e3⟩ := stackPos_parts N nx i n k hn hk
  simp only [smartSolve, h1, bind, Except.bind] at h
  cases hs : solve J.rows J.val fun r => rr (r / nx / N) (r / nx % N) (r % nx) with
  | error e => simp [hs] at h
  | ok z =>
    simp only [hs, Except.ok.injEq] at h
    subst h
    rw [← h4 (fun i n k => z ((i * N + n) * nx + k)) i n k hi hn hk]
    have hlt : stackPos N nx i n k < nm * N * nx := by
      unfold stackPos
      calc (i * N + n) * nx + k < (i * N + n) * nx + nx := by omega
        _ = (i * N + n + 1) * nx := by ring
        _ ≤ nm * N * nx := Nat.mul_le_mul_right _ (by
            calc i * N + n + 1 ≤ i * N + N := by omega
              _ = (i + 1) * N := by ring
              _ ≤ nm * N := Nat.mul_le_mul_right _ hi)
    have := hsolve _ _ _ _ hs (stackPos N nx i n k) (by rw [h2]; exact hlt)
    rw [h2] at this
    simp only [e1, e2, e3] at this
    rw [← this]
    refine sum_congr rfl fun c _ => ?_
    congr 1
    simp only [stackVec]
    congr 1
    have e4 : c / nx / N * N + c / nx % N = c / nx := by rw [Nat.mul_comm]; exact Nat.div_add_mod _ _
    rw [e4, Nat.mul_comm]
    exact Nat.div_add_mod _ _

end

/-- **C118** (small entries).  With the spline names defined, derivatives below `1e-6` are dropped whatever
the scale of the model: for one point and one control with `jres = 1e-7` and weight one the matrix `jac_2` is
zero, and `jac` with `dres = 1e-7` is `1e-7` in place of `2e-7`. -/
theorem C118_small_entries_fails :
    (jac2 true 1 1 1 (fun _ _ _ _ => (1 : ℚ)) (fun _ _ _ _ _ => 1 / 10 ^ 7)).map (fun J => J.val 0 0) =
      .ok 0 ∧
    (smartJac true 1 1 1 (fun _ _ _ _ => 1 / 10 ^ 7) (fun _ _ _ _ => (1 : ℚ))
      (fun _ _ _ _ _ => 1 / 10 ^ 7)).map (fun J => J.val 0 0) = .ok (1 / 10 ^ 7) := by
  constructor <;> decide +kernel

/-! ## Non-vacuity -/

/-- Two points with `1 × 2` and `2 × 1` matrices. -/
example : ∃ R : Arr3 ℚ, serialMultiplication (.three ⟨2, 1, 2, fun n _ j => (n + j : ℚ)⟩)
    (.three ⟨2, 2, 1, fun n j _ => (n * 10 + j : ℚ)⟩) = .ok (.three R) ∧ R.val 1 0 0 = 32 := by
  refine ⟨_, rfl, ?_⟩
  decide +kernel

/-- A solver for one equation. -/
def oneSolver : VecSolver ℚ := fun n A b =>
  if n = 1 then (if A 0 0 = 0 then .error .linAlgError else .ok fun _ => b 0 / A 0 0) else .error .linAlgError

theorem oneSolver_correct : VecSolver.Correct oneSolver := by
  intro n A b x h i hi
  unfold oneSolver at h
  split_ifs at h with h1 h2
  subst h1
  simp only [Except.ok.injEq] at h
  have : i = 0 := by omega
  subst this
  rw [← h, sum_range_one]
  field_simp

/-- Two points of which the second cannot be solved: the exception names it. -/
example : ∃ x J, serialSolveDiagnose oneSolver 1 [fun _ _ => 2, fun _ _ => 0] [fun _ => 6, fun _ => 1] =
    .error (.point 1 x J) := ⟨_, _, rfl⟩

/-- Two points that can be solved. -/
example : ∃ sol, serialSolveDiagnose oneSolver 1 [fun _ _ => 2, fun _ _ => 4] [fun _ => 6, fun _ => 1] =
    .ok sol ∧ sol.map (· 0) = [3, 1 / 4] := by
  refine ⟨_, rfl, ?_⟩
  decide +kernel

/-- One point: `2 x + 3 x = 10`. -/
example : ∃ x, smartSolve oneSolver true 1 1 1 (fun _ _ _ _ => 2) (fun _ _ _ _ => 1) (fun _ _ _ _ _ => 3)
    (fun _ _ _ => 10) = .ok x ∧ x 0 0 0 = 2 := by
  have h : (smartSolve oneSolver true 1 1 1 (fun _ _ _ _ => 2) (fun _ _ _ _ => 1) (fun _ _ _ _ _ => 3)
      (fun _ _ _ => 10)).map (fun x => x 0 0 0) = .ok 2 := by decide +kernel
  cases hm : smartSolve oneSolver true 1 1 1 (fun _ _ _ _ => 2) (fun _ _ _ _ => 1) (fun _ _ _ _ _ => 3)
      (fun _ _ _ => 10) with
  | error e => rw [hm] at h; cases h
  | ok x =>
    rw [hm] at h
    simp only [Except.map, Except.ok.injEq] at h
    exact ⟨x, rfl, h⟩

/-- Two exogenous states and two points, one control. -/
example : ∃ out, multAB oneSolver 2 2 1 (fun i p _ _ => 1 + i + p) [2, 2, 1, 2, 1]
    (fun i p _ j _ => 6 * (i + p + j)) = .ok out ∧ out 1 1 0 1 0 = 6 := by
  have h : (multAB oneSolver 2 2 1 (fun i p _ _ => 1 + i + p) [2, 2, 1, 2, 1]
      (fun i p _ j _ => 6 * (i + p + j))).map (fun out => out 1 1 0 1 0) = .ok 6 := by decide +kernel
  cases hm : multAB oneSolver 2 2 1 (fun i p _ _ => 1 + i + p) [2, 2, 1, 2, 1]
      (fun i p _ j _ => 6 * (i + p + j)) with
  | error e => rw [hm] at h; cases h
  | ok out =>
    rw [hm] at h
    simp only [Except.map, Except.ok.injEq] at h
    exact ⟨out, rfl, h⟩

end Dolo
