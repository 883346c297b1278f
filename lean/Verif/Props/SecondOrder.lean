import Mathlib.LinearAlgebra.Matrix.NonsingularInverse
import Mathlib.LinearAlgebra.Matrix.SchurComplement
import Mathlib.Tactic.NoncommRing
import Mathlib.Tactic.FinCases
import Mathlib.Tactic.NormNum
import Mathlib.Tactic.Linarith
import Verif.Model.SecondOrder
import Verif.Props.Perturbation

/-!
# C100: the quadratic matrix equation
-/

set_option linter.unusedSectionVars false
set_option linter.unusedSimpArgs false

namespace Dolo

open Matrix

variable {K : Type} [Field K] [LinearOrder K] [IsStrictOrderedRing K] {n : ℕ}

theorem secondOrder_ok {solve : MatSolver K} (hsolve : solve.Correct)
    {qz : Matrix (Fin n ⊕ Fin n) (Fin n ⊕ Fin n) K → Matrix (Fin n ⊕ Fin n) (Fin n ⊕ Fin n) K → K →
      QZ (Fin n ⊕ Fin n) K} {F G H P : Matrix (Fin n) (Fin n) K} {c : K} {ev : List (WithTop K)}
    (h : secondOrderSolver solve qz F G H c = .ok (ev, P)) :
    let d := qz (deltaMat F) (xiMat G H) 1
    ev = eigList d ∧ d.Z.toBlocks₁₂ᵀ * P + d.Z.toBlocks₂₂ᵀ = 0 := by
  intro d
  unfold secondOrderSolver at h
  rcases hx : solve n n d.Zᵀ.toBlocks₂₁ d.Zᵀ.toBlocks₂₂ with e | X
  · simp only [bind, Except.bind] at h
    rw [hx] at h
    simp at h
  · simp only [bind, Except.bind] at h
    rw [hx] at h
    simp only [pure, Except.pure, Except.ok.injEq, Prod.mk.injEq] at h
    obtain ⟨-, h2⟩ := hsolve _ _ _ _ _ hx
    refine ⟨h.1.symm, ?_⟩
    have e1 : d.Zᵀ.toBlocks₂₁ = d.Z.toBlocks₁₂ᵀ := rfl
    have e2 : d.Zᵀ.toBlocks₂₂ = d.Z.toBlocks₂₂ᵀ := rfl
    rw [e1, e2] at h2
    rw [← h.2, Matrix.mul_neg, h2, neg_add_cancel]

/-- The blocks: with `W = Z₁₁ᵀ P + Z₂₁ᵀ`, the solution is `Z₁₁ W` and `Z₂₁ W` is the identity, and the
first diagonal block of `S` is invertible. -/
theorem secondOrder_blocks {d : QZ (Fin n ⊕ Fin n) K} {F G H P : Matrix (Fin n) (Fin n) K}
    (hd : d.Correct (deltaMat F) (xiMat G H)) (hS : d.S.toBlocks₂₁ = 0) (hT : d.T.toBlocks₂₁ = 0)
    (hP : d.Z.toBlocks₁₂ᵀ * P + d.Z.toBlocks₂₂ᵀ = 0) :
    ∃ W, d.Z.toBlocks₁₁ * W = P ∧ d.Z.toBlocks₂₁ * W = 1 ∧ W * d.Z.toBlocks₂₁ = 1 ∧
      d.Q.toBlocks₂₁ * d.S.toBlocks₁₁ * W = 1 ∧
      F * P = d.Q.toBlocks₁₁ * d.S.toBlocks₁₁ * W ∧
      -(G * P) - H = d.Q.toBlocks₁₁ * d.T.toBlocks₁₁ * W ∧
      P = d.Q.toBlocks₂₁ * d.T.toBlocks₁₁ * W := by
  have hZ' : d.Z * d.Zᵀ = 1 := mul_eq_one_comm.1 hd.hZ
  have eA : deltaMat F * d.Z = d.Q * d.S := by
    rw [hd.hA, Matrix.mul_assoc, hd.hZ, Matrix.mul_one]
  have eB : xiMat G H * d.Z = d.Q * d.T := by
    rw [hd.hB, Matrix.mul_assoc, hd.hZ, Matrix.mul_one]
  rw [← fromBlocks_toBlocks d.Z, ← fromBlocks_toBlocks d.Q, ← fromBlocks_toBlocks d.S, deltaMat,
    fromBlocks_multiply, fromBlocks_multiply, fromBlocks_inj, hS] at eA
  rw [← fromBlocks_toBlocks d.Z, ← fromBlocks_toBlocks d.Q, ← fromBlocks_toBlocks d.T, xiMat,
    fromBlocks_multiply, fromBlocks_multiply, fromBlocks_inj, hT] at eB
  rw [← fromBlocks_toBlocks d.Z, fromBlocks_transpose, fromBlocks_multiply, ← fromBlocks_one,
    fromBlocks_inj] at hZ'
  obtain ⟨a1, -, a2, -⟩ := eA
  obtain ⟨b1, -, b2, -⟩ := eB
  obtain ⟨z11, z12, z21, z22⟩ := hZ'
  simp only [Matrix.mul_zero, add_zero, Matrix.one_mul, Matrix.zero_mul, zero_add] at a1 a2 b1 b2
  set Z11 := d.Z.toBlocks₁₁
  set Z12 := d.Z.toBlocks₁₂
  set Z21 := d.Z.toBlocks₂₁
  set Z22 := d.Z.toBlocks₂₂
  refine ⟨Z11ᵀ * P + Z21ᵀ, ?_⟩
  have w1 : Z11 * (Z11ᵀ * P + Z21ᵀ) = P := by
    have : Z11 * (Z11ᵀ * P + Z21ᵀ) = (Z11 * Z11ᵀ + Z12 * Z12ᵀ) * P + (Z11 * Z21ᵀ + Z12 * Z22ᵀ)
        - Z12 * (Z12ᵀ * P + Z22ᵀ) := by noncomm_ring
    rw [this, z11, z12, hP]
    simp
  have w2 : Z21 * (Z11ᵀ * P + Z21ᵀ) = 1 := by
    have : Z21 * (Z11ᵀ * P + Z21ᵀ) = (Z21 * Z11ᵀ + Z22 * Z12ᵀ) * P + (Z21 * Z21ᵀ + Z22 * Z22ᵀ)
        - Z22 * (Z12ᵀ * P + Z22ᵀ) := by noncomm_ring
    rw [this, z21, z22, hP]
    simp
  refine ⟨w1, w2, mul_eq_one_comm.1 w2, ?_, ?_, ?_, ?_⟩
  · rw [← a2, w2]
  · rw [← a1, Matrix.mul_assoc, w1]
  · rw [← b1, Matrix.add_mul, Matrix.mul_assoc, Matrix.mul_assoc, w1, w2, Matrix.neg_mul,
      Matrix.mul_one, sub_eq_add_neg]
  · rw [← b2, w1]

/-- **C100, solution.**  Whenever `second_order_solver` returns, and the ordered decomposition has no
block across the middle, the matrix `P` it returns satisfies `F P² + G P + H = 0`. -/
theorem C100_solution {solve : MatSolver K} (hsolve : solve.Correct)
    {qz : Matrix (Fin n ⊕ Fin n) (Fin n ⊕ Fin n) K → Matrix (Fin n ⊕ Fin n) (Fin n ⊕ Fin n) K → K →
      QZ (Fin n ⊕ Fin n) K} (F G H P : Matrix (Fin n) (Fin n) K) (c : K) (ev : List (WithTop K))
    (hqz : (qz (deltaMat F) (xiMat G H) 1).Correct (deltaMat F) (xiMat G H))
    (hS : (qz (deltaMat F) (xiMat G H) 1).S.toBlocks₂₁ = 0)
    (hT : (qz (deltaMat F) (xiMat G H) 1).T.toBlocks₂₁ = 0)
    (h : secondOrderSolver solve qz F G H c = .ok (ev, P)) : F * P * P + G * P + H = 0 := by
  obtain ⟨-, hP⟩ := secondOrder_ok hsolve h
  obtain ⟨W, -, w2, w2', s1, s2, t1, t2⟩ := secondOrder_blocks hqz hS hT hP
  set d := qz (deltaMat F) (xiMat G H) 1
  set U1 := d.Q.toBlocks₁₁
  set U2 := d.Q.toBlocks₂₁
  set S := d.S.toBlocks₁₁
  set T := d.T.toBlocks₁₁
  -- `W (U2 S)` is the identity
  have s1' : W * (U2 * S) = 1 := mul_eq_one_comm.1 s1
  have s1'' : S * W * U2 = 1 := by
    have : U2 * (S * W) = 1 := by rw [← Matrix.mul_assoc]; exact s1
    exact mul_eq_one_comm.1 this
  have : F * P * P = U1 * T * W := by
    calc F * P * P = U1 * S * W * (U2 * T * W) := by rw [s2, ← t2]
      _ = U1 * (S * W * U2) * (T * W) := by simp only [Matrix.mul_assoc]
      _ = U1 * T * W := by rw [s1'', Matrix.mul_one, Matrix.mul_assoc]
  rw [this, ← t1]
  abel

/-- **C100, eigenvalues.**  `P` has the eigenvalues of the first half of the decomposition: `x` is an
eigenvalue of `P` if and only if it is a root of `det (x S₁₁ - T₁₁)`. -/
theorem C100_eigenvalues {solve : MatSolver K} (hsolve : solve.Correct)
    {qz : Matrix (Fin n ⊕ Fin n) (Fin n ⊕ Fin n) K → Matrix (Fin n ⊕ Fin n) (Fin n ⊕ Fin n) K → K →
      QZ (Fin n ⊕ Fin n) K} (F G H P : Matrix (Fin n) (Fin n) K) (c : K) (ev : List (WithTop K))
    (hqz : (qz (deltaMat F) (xiMat G H) 1).Correct (deltaMat F) (xiMat G H))
    (hS : (qz (deltaMat F) (xiMat G H) 1).S.toBlocks₂₁ = 0)
    (hT : (qz (deltaMat F) (xiMat G H) 1).T.toBlocks₂₁ = 0)
    (h : secondOrderSolver solve qz F G H c = .ok (ev, P)) (x : K) :
    (x • (1 : Matrix (Fin n) (Fin n) K) - P).det = 0 ↔
      (x • (qz (deltaMat F) (xiMat G H) 1).S.toBlocks₁₁
        - (qz (deltaMat F) (xiMat G H) 1).T.toBlocks₁₁).det = 0 := by
  obtain ⟨-, hP⟩ := secondOrder_ok hsolve h
  obtain ⟨W, -, w2, w2', s1, s2, t1, t2⟩ := secondOrder_blocks hqz hS hT hP
  set d := qz (deltaMat F) (xiMat G H) 1
  have e : x • (1 : Matrix (Fin n) (Fin n) K) - P
      = d.Q.toBlocks₂₁ * (x • d.S.toBlocks₁₁ - d.T.toBlocks₁₁) * W := by
    rw [Matrix.mul_sub, Matrix.sub_mul, ← t2, Matrix.mul_smul, Matrix.smul_mul, s1]
  have hU : (d.Q.toBlocks₂₁).det ≠ 0 := by
    have := congrArg Matrix.det s1
    rw [det_mul, det_mul, det_one] at this
    intro h0
    rw [h0] at this
    simp at this
  have hW : W.det ≠ 0 := by
    have := congrArg Matrix.det s1
    rw [det_mul, det_one] at this
    intro h0
    rw [h0] at this
    simp at this
  rw [e, det_mul, det_mul, mul_eq_zero, mul_eq_zero]
  simp [hU, hW]

/-- **C100, stability** (partial: the function does not look at the eigenvalues).  If the reported
generalised eigenvalues of the first half are all larger than one, every eigenvalue of `P` is smaller than
one in absolute value. -/
theorem C100_stable_partial {solve : MatSolver K} (hsolve : solve.Correct)
    {qz : Matrix (Fin n ⊕ Fin n) (Fin n ⊕ Fin n) K → Matrix (Fin n ⊕ Fin n) (Fin n ⊕ Fin n) K → K →
      QZ (Fin n ⊕ Fin n) K} (F G H P : Matrix (Fin n) (Fin n) K) (c : K) (ev : List (WithTop K))
    (hqz : (qz (deltaMat F) (xiMat G H) 1).Correct (deltaMat F) (xiMat G H))
    (htri : (qz (deltaMat F) (xiMat G H) 1).Triangular)
    (h : secondOrderSolver solve qz F G H c = .ok (ev, P))
    (hev : ∀ a ∈ ev.take n, 1 < a) (x : K)
    (hx : (x • (1 : Matrix (Fin n) (Fin n) K) - P).det = 0) : |x| < 1 := by
  have hS : (qz (deltaMat F) (xiMat G H) 1).S.toBlocks₂₁ = 0 := by
    ext i j; exact htri.S21 i j
  have hT : (qz (deltaMat F) (xiMat G H) 1).T.toBlocks₂₁ = 0 := by
    ext i j; exact htri.T21 i j
  have h0 := (C100_eigenvalues hsolve F G H P c ev hqz hS hT h x).1 hx
  obtain ⟨hevd, hP⟩ := secondOrder_ok hsolve h
  obtain ⟨W, -, -, -, s1, -, -, -⟩ := secondOrder_blocks hqz hS hT hP
  set d := qz (deltaMat F) (xiMat G H) 1
  have hSdet : d.S.toBlocks₁₁.det ≠ 0 := by
    have := congrArg Matrix.det s1
    rw [det_mul, det_mul, det_one] at this
    intro h0
    rw [h0] at this
    simp at this
  have hSt : d.S.toBlocks₁₁.BlockTriangular id := fun i j hij => htri.S11 i j hij
  rw [det_of_isUpperTriangular hSt, Finset.prod_ne_zero_iff] at hSdet
  have hXt : (x • d.S.toBlocks₁₁ - d.T.toBlocks₁₁).BlockTriangular id := by
    intro i j hij
    have h1 := htri.S11 i j hij
    have h2 := htri.T11 i j hij
    show x • d.S (.inl i) (.inl j) - d.T (.inl i) (.inl j) = 0
    rw [h1, h2]
    simp
  rw [det_of_isUpperTriangular hXt, Finset.prod_eq_zero_iff] at h0
  obtain ⟨i, -, hi⟩ := h0
  have hi' : x * d.S (.inl i) (.inl i) = d.T (.inl i) (.inl i) := sub_eq_zero.1 hi
  have hSi : d.S (.inl i) (.inl i) ≠ 0 := hSdet i (Finset.mem_univ i)
  have hmem : genEig d (.inl i) ∈ ev.take n := by
    rw [hevd, eigList, List.take_left' (by simp)]
    exact List.mem_ofFn.2 ⟨i, rfl⟩
  have hgt := hev _ hmem
  unfold genEig at hgt
  by_cases hTi : d.T (.inl i) (.inl i) = 0
  · rw [hTi] at hi'
    rcases mul_eq_zero.1 hi' with h | h
    · rw [h, abs_zero]; exact one_pos
    · exact absurd h hSi
  · rw [if_neg hTi] at hgt
    have hgt : (1 : K) < |d.S (.inl i) (.inl i) / d.T (.inl i) (.inl i)| := by exact_mod_cast hgt
    rw [abs_div, one_lt_div (abs_pos.2 hTi)] at hgt
    have hx' : |x| * |d.S (.inl i) (.inl i)| = |d.T (.inl i) (.inl i)| := by rw [← abs_mul, hi']
    by_contra hcon
    push Not at hcon
    have := mul_le_mul_of_nonneg_right hcon (abs_nonneg (d.S (.inl i) (.inl i)))
    linarith

/-- A decomposition with `S` the identity, for a problem with one variable. -/
private def scalarQZ (a b t11 t12 t22 : ℚ) : QZ (Fin 1 ⊕ Fin 1) ℚ :=
  ⟨1, fromBlocks !![t11] !![t12] !![0] !![t22], fromBlocks !![a] !![-b] !![b] !![a],
    fromBlocks !![a] !![-b] !![b] !![a]⟩

private theorem fin1_ext (A B : Matrix (Fin 1) (Fin 1) ℚ) (h : A 0 0 = B 0 0) : A = B := by
  ext i j
  rw [Subsingleton.elim i 0, Subsingleton.elim j 0, h]

private theorem scalarQZ_correct (a b t11 t12 t22 g h : ℚ) (hab : a * a + b * b = 1)
    (h1 : -g = a * t11 * a + (a * t12 - b * t22) * -b)
    (h2 : -h = a * t11 * b + (a * t12 - b * t22) * a)
    (h3 : 1 = b * t11 * a + (b * t12 + a * t22) * -b)
    (h4 : 0 = b * t11 * b + (b * t12 + a * t22) * a) :
    (scalarQZ a b t11 t12 t22).Correct (deltaMat !![1]) (xiMat !![g] !![h]) := by
  refine ⟨?_, ?_, ?_, ?_⟩
  · simp only [scalarQZ, deltaMat, Matrix.mul_one, fromBlocks_transpose, fromBlocks_multiply,
      fromBlocks_inj]
    refine ⟨fin1_ext _ _ ?_, fin1_ext _ _ ?_, fin1_ext _ _ ?_, fin1_ext _ _ ?_⟩ <;>
      simp [Matrix.mul_apply, Matrix.vecMul, dotProduct] <;> linarith
  · simp only [scalarQZ, xiMat, fromBlocks_transpose, fromBlocks_multiply, fromBlocks_inj]
    refine ⟨fin1_ext _ _ ?_, fin1_ext _ _ ?_, fin1_ext _ _ ?_, fin1_ext _ _ ?_⟩ <;>
      simp [Matrix.mul_apply, Matrix.vecMul, dotProduct] <;> linarith
  · simp only [scalarQZ, fromBlocks_transpose, fromBlocks_multiply]
    rw [← fromBlocks_one, fromBlocks_inj]
    refine ⟨fin1_ext _ _ ?_, fin1_ext _ _ ?_, fin1_ext _ _ ?_, fin1_ext _ _ ?_⟩ <;>
      simp [Matrix.mul_apply, Matrix.vecMul, dotProduct] <;> linarith
  · simp only [scalarQZ, fromBlocks_transpose, fromBlocks_multiply]
    rw [← fromBlocks_one, fromBlocks_inj]
    refine ⟨fin1_ext _ _ ?_, fin1_ext _ _ ?_, fin1_ext _ _ ?_, fin1_ext _ _ ?_⟩ <;>
      simp [Matrix.mul_apply, Matrix.vecMul, dotProduct] <;> linarith

private theorem scalarQZ_triangular (a b t11 t12 t22 : ℚ) : (scalarQZ a b t11 t12 t22).Triangular := by
  refine ⟨?_, ?_, ?_, ?_, ?_, ?_⟩
  · intro i j; simp [scalarQZ]
  · intro i j; simp [scalarQZ]
  all_goals
    intro i j hij
    exact absurd hij (by rw [Subsingleton.elim i j]; exact lt_irrefl _)

private theorem scalarQZ_returns (a b t11 t12 t22 : ℚ) (hb : b ≠ 0) (F G H : Matrix (Fin 1) (Fin 1) ℚ)
    (c : ℚ) : ∃ P, secondOrderSolver exactSolver (fun _ _ _ => scalarQZ a b t11 t12 t22) F G H c
      = .ok (eigList (scalarQZ a b t11 t12 t22), P) := by
  unfold secondOrderSolver exactSolver
  have : IsUnit ((scalarQZ a b t11 t12 t22).Zᵀ.toBlocks₂₁).det := by
    simp [scalarQZ, fromBlocks_transpose, hb]
  simp only [bind, Except.bind, if_pos this]
  exact ⟨_, rfl⟩

/-- **C100 fails** for stability: `eigmax` is not used and the eigenvalues are not looked at.  The
equation `P² - 10/3 P + 8/3 = 0` has the roots `4/3` and `2`; the function returns an explosive solution,
without any error, whatever `eigmax`. -/
theorem C100_unstable_fails (eigmax : ℚ) : ∃ (d : QZ (Fin 1 ⊕ Fin 1) ℚ) (ev : List (WithTop ℚ))
    (P : Matrix (Fin 1) (Fin 1) ℚ),
    d.Correct (deltaMat !![1]) (xiMat !![-10 / 3] !![8 / 3]) ∧ d.Triangular ∧
    (∀ a ∈ ev, a < 1) ∧
    secondOrderSolver exactSolver (fun _ _ _ => d) !![1] !![-10 / 3] !![8 / 3] eigmax = .ok (ev, P) ∧
    ((4 / 3 : ℚ) • (1 : Matrix (Fin 1) (Fin 1) ℚ) - P).det = 0 := by
  have hc := scalarQZ_correct (4 / 5) (3 / 5) (4 / 3) (-11 / 3) 2 (-10 / 3) (8 / 3) (by norm_num)
    (by norm_num) (by norm_num) (by norm_num) (by norm_num)
  have ht := scalarQZ_triangular (4 / 5) (3 / 5) (4 / 3) (-11 / 3) 2
  obtain ⟨P, hP⟩ := scalarQZ_returns (4 / 5) (3 / 5) (4 / 3) (-11 / 3) 2 (by norm_num) !![1] !![-10 / 3]
    !![8 / 3] eigmax
  refine ⟨_, _, P, hc, ht, ?_, hP, ?_⟩
  · intro a ha
    have hm : a = ((3 / 4 : ℚ) : WithTop ℚ) ∨ a = ((1 / 2 : ℚ) : WithTop ℚ) := by
      have e1 : |(3 : ℚ) / 4| = 3 / 4 := abs_of_pos (by norm_num)
      have e2 : |(1 : ℚ) / 2| = 1 / 2 := abs_of_pos (by norm_num)
      simp only [eigList, List.ofFn_succ, List.ofFn_zero, List.cons_append, List.nil_append,
        List.mem_cons, List.not_mem_nil, or_false] at ha
      rcases ha with rfl | rfl
      · left
        norm_num [genEig, scalarQZ, e1]
      · right
        norm_num [genEig, scalarQZ, e2]
    rcases hm with rfl | rfl
    · exact_mod_cast (by norm_num : (3 / 4 : ℚ) < 1)
    · exact_mod_cast (by norm_num : (1 / 2 : ℚ) < 1)
  · rw [C100_eigenvalues exactSolver_correct _ _ _ P eigmax _ hc (by ext i j; exact ht.S21 i j)
      (by ext i j; exact ht.T21 i j) hP]
    simp [scalarQZ, toBlocks₁₁]

/-- **C100 fails** when a pair of complex eigenvalues lies across the middle of the decomposition (a two by
two block of `S`, as real decompositions have).  The equation `P² + 1 = 0` has no real solution; a matrix is
returned all the same. -/
theorem C100_complex_fails (eigmax : ℚ) : ∃ (d : QZ (Fin 1 ⊕ Fin 1) ℚ) (ev : List (WithTop ℚ))
    (P : Matrix (Fin 1) (Fin 1) ℚ), d.Correct (deltaMat !![1]) (xiMat !![0] !![1]) ∧
    secondOrderSolver exactSolver (fun _ _ _ => d) !![1] !![0] !![1] eigmax = .ok (ev, P) ∧
    !![1] * P * P + !![0] * P + !![1] ≠ 0 := by
  let d : QZ (Fin 1 ⊕ Fin 1) ℚ := ⟨fromBlocks !![0] !![1] !![-1] !![0], 1,
    fromBlocks !![-4 / 5] !![-3 / 5] !![3 / 5] !![-4 / 5],
    fromBlocks !![3 / 5] !![-4 / 5] !![4 / 5] !![3 / 5]⟩
  have hu : IsUnit (d.Zᵀ.toBlocks₂₁).det := by simp [d, fromBlocks_transpose]
  obtain ⟨P, hP⟩ : ∃ P, secondOrderSolver exactSolver (fun _ _ _ => d) !![1] !![0] !![1] eigmax
      = .ok (eigList d, P) := by
    unfold secondOrderSolver exactSolver
    simp only [bind, Except.bind, if_pos hu]
    exact ⟨_, rfl⟩
  refine ⟨d, _, P, ⟨?_, ?_, ?_, ?_⟩, hP, ?_⟩
  · simp only [d, deltaMat, fromBlocks_transpose, fromBlocks_multiply, fromBlocks_inj]
    refine ⟨fin1_ext _ _ ?_, fin1_ext _ _ ?_, fin1_ext _ _ ?_, fin1_ext _ _ ?_⟩ <;>
      norm_num [Matrix.mul_apply, Matrix.vecMul, dotProduct]
  · simp only [d, xiMat, Matrix.mul_one, fromBlocks_transpose, fromBlocks_multiply, fromBlocks_inj]
    refine ⟨fin1_ext _ _ ?_, fin1_ext _ _ ?_, fin1_ext _ _ ?_, fin1_ext _ _ ?_⟩ <;>
      norm_num [Matrix.mul_apply, Matrix.vecMul, dotProduct]
  · simp only [d, fromBlocks_transpose, fromBlocks_multiply]
    rw [← fromBlocks_one, fromBlocks_inj]
    refine ⟨fin1_ext _ _ ?_, fin1_ext _ _ ?_, fin1_ext _ _ ?_, fin1_ext _ _ ?_⟩ <;>
      norm_num [Matrix.mul_apply, Matrix.vecMul, dotProduct]
  · simp only [d, fromBlocks_transpose, fromBlocks_multiply]
    rw [← fromBlocks_one, fromBlocks_inj]
    refine ⟨fin1_ext _ _ ?_, fin1_ext _ _ ?_, fin1_ext _ _ ?_, fin1_ext _ _ ?_⟩ <;>
      norm_num [Matrix.mul_apply, Matrix.vecMul, dotProduct]
  · intro h0
    have := congrFun (congrFun h0 0) 0
    simp [Matrix.mul_apply, Matrix.vecMul, dotProduct] at this
    nlinarith [mul_self_nonneg (P 0 0)]

/-- Non-vacuity of `C100_solution` and `C100_stable_partial`: roots `3/4` and `2`. -/
example : ∃ (d : QZ (Fin 1 ⊕ Fin 1) ℚ) (ev : List (WithTop ℚ)) (P : Matrix (Fin 1) (Fin 1) ℚ),
    d.Correct (deltaMat !![1]) (xiMat !![-11 / 4] !![3 / 2]) ∧ d.Triangular ∧
    (∀ a ∈ ev.take 1, 1 < a) ∧
    secondOrderSolver exactSolver (fun _ _ _ => d) !![1] !![-11 / 4] !![3 / 2] 1 = .ok (ev, P) := by
  have hc := scalarQZ_correct (3 / 5) (4 / 5) (3 / 4) (-5 / 2) 2 (-11 / 4) (3 / 2) (by norm_num)
    (by norm_num) (by norm_num) (by norm_num) (by norm_num)
  have ht := scalarQZ_triangular (3 / 5) (4 / 5) (3 / 4) (-5 / 2) 2
  obtain ⟨P, hP⟩ := scalarQZ_returns (3 / 5) (4 / 5) (3 / 4) (-5 / 2) 2 (by norm_num) !![1] !![-11 / 4]
    !![3 / 2] 1
  refine ⟨_, _, P, hc, ht, ?_, hP⟩
  intro a ha
  have e1 : |(4 : ℚ) / 3| = 4 / 3 := abs_of_pos (by norm_num)
  simp only [eigList, List.ofFn_succ, List.ofFn_zero, List.cons_append, List.nil_append,
    List.take_succ_cons, List.take_zero, List.mem_cons, List.not_mem_nil, or_false] at ha
  have hm : a = ((4 / 3 : ℚ) : WithTop ℚ) := by
    rw [ha]
    norm_num [genEig, scalarQZ, e1]
  rw [hm]
  exact_mod_cast (by norm_num : (1 : ℚ) < 4 / 3)

end Dolo
