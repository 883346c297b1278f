import Mathlib.Algebra.Order.BigOperators.Ring.Finset
import Mathlib.Tactic.Linarith
import Mathlib.Tactic.Positivity
import Mathlib.Tactic.FieldSimp
import Mathlib.Tactic.LinearCombination
import Mathlib.Tactic.FinCases
import Verif.Lemmas.SpectralRadius
import Verif.Model.RadiusJac

/-!
# C119: the convergence factors of improved time iteration

Specification: `A` is the matrix of the operator (C103), `‖·‖₂` the Euclidean norm, eigenvalues are complex
numbers `z` with `A v = z v` for some nonzero `v`.
-/

set_option linter.unusedSectionVars false

namespace Dolo

open Matrix

attribute [local instance] Matrix.linftyOpNormedRing Matrix.linftyOpNormedAlgebra

variable {n : ℕ}

/-! ## Norms -/

theorem norm2_sq (v : Fin n → ℝ) : norm2 v ^ 2 = ∑ i, v i ^ 2 := by
  unfold norm2
  rw [List.sum_ofFn, Real.sq_sqrt]
  exact Finset.sum_nonneg fun i _ => sq_nonneg _

theorem norm2_nonneg (v : Fin n → ℝ) : 0 ≤ norm2 v := Real.sqrt_nonneg _

theorem norm2_eq_zero (v : Fin n → ℝ) : norm2 v = 0 ↔ v = 0 := by
  constructor
  · intro h
    have h2 : ∑ i, v i ^ 2 = 0 := by rw [← norm2_sq, h]; ring
    rw [Finset.sum_eq_zero_iff_of_nonneg fun i _ => sq_nonneg _] at h2
    funext i
    simpa using h2 i (Finset.mem_univ i)
  · rintro rfl
    have : norm2 (0 : Fin n → ℝ) ^ 2 = 0 := by rw [norm2_sq]; simp
    exact pow_eq_zero_iff (two_ne_zero) |>.1 this

theorem norm2_smul (c : ℝ) (v : Fin n → ℝ) : norm2 (c • v) = |c| * norm2 v := by
  have h : norm2 (c • v) ^ 2 = (|c| * norm2 v) ^ 2 := by
    rw [norm2_sq, mul_pow, norm2_sq, sq_abs, Finset.mul_sum]
    refine Finset.sum_congr rfl fun i _ => ?_
    simp only [Pi.smul_apply, smul_eq_mul]
    ring
  exact (sq_eq_sq₀ (norm2_nonneg _) (mul_nonneg (abs_nonneg _) (norm2_nonneg _))).1 h

theorem norm2_le_sup (v : Fin n → ℝ) : norm2 v ≤ n * ‖v‖ := by
  have h : norm2 v ^ 2 ≤ (n * ‖v‖) ^ 2 := by
    rw [norm2_sq]
    calc ∑ i, v i ^ 2 ≤ ∑ _i : Fin n, ‖v‖ ^ 2 := by
          refine Finset.sum_le_sum fun i _ => ?_
          rw [← sq_abs]
          exact pow_le_pow_left₀ (abs_nonneg _) (norm_le_pi_norm v i) 2
      _ = n * ‖v‖ ^ 2 := by simp
      _ ≤ n * (n * ‖v‖ ^ 2) := by
          rcases Nat.eq_zero_or_pos n with rfl | hn
          · simp
          · have : (1 : ℝ) ≤ n := by exact_mod_cast hn
            have h3 : 0 ≤ ‖v‖ ^ 2 := by positivity
            nlinarith [mul_nonneg (show (0 : ℝ) ≤ n by positivity) h3]
      _ = (n * ‖v‖) ^ 2 := by ring
  exact (sq_le_sq₀ (norm2_nonneg _) (by positivity)).1 h

theorem sup_le_norm2 (v : Fin n → ℝ) : ‖v‖ ≤ norm2 v := by
  rw [pi_norm_le_iff_of_nonneg (norm2_nonneg _)]
  intro i
  rw [Real.norm_eq_abs, ← sq_le_sq₀ (abs_nonneg _) (norm2_nonneg _), sq_abs, norm2_sq]
  exact Finset.single_le_sum (f := fun i => v i ^ 2) (fun i _ => sq_nonneg _) (Finset.mem_univ i)

theorem supAbs_eq (v : Fin n → ℝ) : supAbs v = ‖v‖ := by
  have key : ∀ (l : List ℝ) (a : ℝ), a ≤ l.foldl max a ∧ (∀ x ∈ l, x ≤ l.foldl max a) ∧
      (l.foldl max a = a ∨ l.foldl max a ∈ l) := by
    intro l
    induction l with
    | nil => intro a; simp
    | cons b l ih =>
      intro a
      obtain ⟨h1, h2, h3⟩ := ih (max a b)
      rw [List.foldl_cons]
      refine ⟨(le_max_left _ _).trans h1, ?_, ?_⟩
      · intro x hx
        rcases List.mem_cons.1 hx with rfl | hx
        · exact (le_max_right _ _).trans h1
        · exact h2 x hx
      · rcases h3 with h3 | h3
        · rcases max_choice a b with hm | hm
          · left; rw [h3, hm]
          · right; rw [h3, hm]; exact List.mem_cons_self ..
        · right; exact List.mem_cons_of_mem _ h3
  obtain ⟨h1, h2, h3⟩ := key (List.ofFn fun i => |v i|) 0
  unfold supAbs
  apply le_antisymm
  · rcases h3 with h3 | h3
    · rw [h3]; exact norm_nonneg _
    · rw [List.mem_ofFn] at h3
      obtain ⟨i, hi⟩ := h3
      rw [← hi]
      exact norm_le_pi_norm v i
  · rw [pi_norm_le_iff_of_nonneg h1]
    intro i
    exact h2 _ (by rw [List.mem_ofFn]; exact ⟨i, rfl⟩)

/-! ## invert_jac -/

private theorem invertLamLoop_spec (A : Matrix (Fin n) (Fin n) ℝ) (tol : ℝ) (d : Fin n → ℝ) (k : ℕ) :
    ∀ (nn : ℕ) (last : Option (InvertRes n)) (R : InvertRes n),
      (0 < k ∨ ∀ R', last = some R' → False) →
      invertLamLoop (fun v => A *ᵥ v) tol k nn (A ^ nn *ᵥ d)
        (∑ j ∈ Finset.range (nn + 1), A ^ j *ᵥ d) ‖A ^ nn *ᵥ d‖ last = some R →
      nn ≤ R.nn ∧ R.nn < nn + k ∧ R.tot = ∑ j ∈ Finset.range (R.nn + 2), A ^ j *ᵥ d ∧
      R.lam = (if A ^ R.nn *ᵥ d = 0 then none else some (‖A ^ (R.nn + 1) *ᵥ d‖ / ‖A ^ R.nn *ᵥ d‖)) ∧
      (∀ j, nn ≤ j → j < R.nn → tol ≤ ‖A ^ (j + 1) *ᵥ d‖) ∧
      (‖A ^ (R.nn + 1) *ᵥ d‖ < tol ∨ R.nn + 1 = nn + k) := by
  induction k with
  | zero =>
    intro nn last R h h'
    simp only [invertLamLoop] at h'
    exact (h.resolve_left (lt_irrefl _) R h').elim
  | succ k ih =>
    intro nn last R _ h
    have hstep : A *ᵥ (A ^ nn *ᵥ d) = A ^ (nn + 1) *ᵥ d := by
      rw [mulVec_mulVec, ← pow_succ']
    simp only [invertLamLoop, hstep, supAbs_eq, ← Finset.sum_range_succ, norm_eq_zero] at h
    have hres : ∀ R : InvertRes n, some (⟨∑ j ∈ Finset.range (nn + 1 + 1), A ^ j *ᵥ d, nn,
        if A ^ nn *ᵥ d = 0 then none else some (‖A ^ (nn + 1) *ᵥ d‖ / ‖A ^ nn *ᵥ d‖)⟩ : InvertRes n) = some R →
        R.nn = nn ∧ R.tot = ∑ j ∈ Finset.range (R.nn + 2), A ^ j *ᵥ d ∧
        R.lam = (if A ^ R.nn *ᵥ d = 0 then none else some (‖A ^ (R.nn + 1) *ᵥ d‖ / ‖A ^ R.nn *ᵥ d‖)) := by
      rintro R ⟨⟩
      exact ⟨rfl, rfl, rfl⟩
    split_ifs at h with hz hz' hz'
    all_goals first
      | (obtain ⟨h1, h2, h3⟩ := hres R (by simpa [hz, hz'] using h)
         exact ⟨h1.ge, by omega, h2, h3, fun j hj hj' => by omega, .inl (by rw [h1]; assumption)⟩)
      | (have h0 := h
         rcases Nat.eq_zero_or_pos k with rfl | hk
         · simp only [invertLamLoop] at h0
           obtain ⟨h1, h2, h3⟩ := hres R (by simpa [hz, hz'] using h0)
           exact ⟨h1.ge, by omega, h2, h3, fun j hj hj' => by omega, .inr (by omega)⟩
         · obtain ⟨h1, h2, h3, h4, h5, h6⟩ := ih (nn + 1) _ R (.inl hk) h0
           refine ⟨by omega, by omega, h3, h4, ?_, ?_⟩
           · intro j hj hj'
             rcases Nat.lt_or_ge nn j with hlt | hge
             · exact h5 j hlt hj'
             · have : j = nn := by omega
               subst this
               exact not_lt.1 (by assumption)
           · rcases h6 with h6 | h6
             · exact .inl h6
             · exact .inr (by omega))

/-- **C119** (inversion).  `invert_jac` returns the partial sum of the Neumann series up to the first term
smaller than `tol`, or up to `maxit` terms, and the ratio of the sizes of the last two terms (`nan` if they
vanish), which is at most the norm of the operator.  It raises only if no pass is allowed. -/
theorem C119_invert (A : Matrix (Fin n) (Fin n) ℝ) (tol : ℝ) (maxit : ℕ) (d : Fin n → ℝ) :
    (maxit = 0 → invertJacLam (fun v => A *ᵥ v) tol maxit d = .error .nameError) ∧
    (0 < maxit → ∃ R, invertJacLam (fun v => A *ᵥ v) tol maxit d = .ok R ∧ R.nn < maxit ∧
      R.tot = ∑ j ∈ Finset.range (R.nn + 2), A ^ j *ᵥ d ∧
      (A ^ R.nn *ᵥ d = 0 → R.lam = none) ∧
      (A ^ R.nn *ᵥ d ≠ 0 → R.lam = some (‖A ^ (R.nn + 1) *ᵥ d‖ / ‖A ^ R.nn *ᵥ d‖)) ∧
      (∀ l, R.lam = some l → l ≤ ‖A‖) ∧
      (∀ j < R.nn, tol ≤ ‖A ^ (j + 1) *ᵥ d‖) ∧
      (‖A ^ (R.nn + 1) *ᵥ d‖ < tol ∨ R.nn + 1 = maxit)) := by
  have hstart : invertLamLoop (fun v => A *ᵥ v) tol maxit 0 d d (supAbs d) none =
      invertLamLoop (fun v => A *ᵥ v) tol maxit 0 (A ^ 0 *ᵥ d)
        (∑ j ∈ Finset.range (0 + 1), A ^ j *ᵥ d) ‖A ^ 0 *ᵥ d‖ none := by
    simp [supAbs_eq]
  constructor
  · rintro rfl
    rfl
  · intro hm
    unfold invertJacLam
    have hex : ∀ k nn (v t : Fin n → ℝ) e (last : Option (InvertRes n)), (0 < k ∨ last.isSome) →
        (invertLamLoop (fun v => A *ᵥ v) tol k nn v t e last).isSome := by
      intro k
      induction k with
      | zero => intro nn v t e last h; simpa [invertLamLoop] using h
      | succ k ih =>
        intro nn v t e last _
        simp only [invertLamLoop]
        split_ifs
        all_goals first
          | rfl
          | exact ih _ _ _ _ _ (.inr rfl)
    obtain ⟨R, hR⟩ := Option.isSome_iff_exists.1 (hex maxit 0 d d (supAbs d) none (.inl hm))
    refine ⟨R, by rw [hR], ?_⟩
    rw [hstart] at hR
    obtain ⟨-, h2, h3, h4, h5, h6⟩ := invertLamLoop_spec A tol d maxit 0 none R (.inl hm) hR
    refine ⟨by omega, h3, fun h => by rw [h4, if_pos h], fun h => by rw [h4, if_neg h], ?_,
      fun j hj => h5 j (Nat.zero_le _) hj, by simpa using h6⟩
    intro l hl
    rw [h4] at hl
    split_ifs at hl with hz
    simp only [Option.some.injEq] at hl
    rw [← hl, div_le_iff₀ (norm_pos_iff.2 hz), pow_succ', ← mulVec_mulVec]
    exact Matrix.linfty_opNorm_mulVec _ _

/-! ## radius_jac -/

/-- The ratio of the lengths of the terms `k + 1` and `k` of `r, A r, A² r, …`. -/
noncomputable def growth (A : Matrix (Fin n) (Fin n) ℝ) (r : Fin n → ℝ) (k : ℕ) : ℝ :=
  norm2 (A ^ (k + 1) *ᵥ r) / norm2 (A ^ k *ᵥ r)

open Classical in
/-- `growth`, or `nan` once the term `k` vanishes. -/
noncomputable def growthN (A : Matrix (Fin n) (Fin n) ℝ) (r : Fin n → ℝ) (k : ℕ) : Option ℝ :=
  if A ^ k *ᵥ r = 0 then none else some (growth A r k)

private theorem radiusLoop_spec (A : Matrix (Fin n) (Fin n) ℝ) (r : Fin n → ℝ) (k : ℕ) :
    ∀ (j : ℕ) (π : Option (Fin n → ℝ)) (lam : Option ℝ) (mx : ℝ) (ls : List (Option ℝ)),
      (π.bind fun v => lam.bind fun l => divScalar v l) =
        (if A ^ j *ᵥ r = 0 then none else some ((norm2 (A ^ j *ᵥ r))⁻¹ • (A ^ j *ᵥ r))) →
      let R := radiusLoop (fun v => A *ᵥ v) k π lam mx ls
      R.lambdas = ls ++ (List.range k).map (fun i => growthN A r (j + i)) ∧
      R.lam = (if k = 0 then lam else growthN A r (j + k - 1)) ∧
      mx ≤ R.lamMax ∧ (∀ i < k, ∀ l, growthN A r (j + i) = some l → l ≤ R.lamMax) ∧
      (R.lamMax = mx ∨ ∃ i < k, growthN A r (j + i) = some R.lamMax) := by
  induction k with
  | zero => intro j π lam mx ls _; simp [radiusLoop]
  | succ k ih =>
    intro j π lam mx ls hπ
    simp only [radiusLoop]
    rw [hπ]
    set π' := (if A ^ j *ᵥ r = 0 then none else some ((norm2 (A ^ j *ᵥ r))⁻¹ • (A ^ j *ᵥ r)) :
      Option (Fin n → ℝ)).map fun v => A *ᵥ v with hπ'
    have hlam : π'.map norm2 = growthN A r j := by
      rw [hπ']
      unfold growthN growth
      split_ifs with h
      · rfl
      · simp only [Option.map_some, mulVec_smul, mulVec_mulVec, ← pow_succ', norm2_smul]
        congr 1
        rw [abs_of_nonneg (inv_nonneg.2 (norm2_nonneg _))]
        ring
    have hnext : (π'.bind fun v => (π'.map norm2).bind fun l => divScalar v l) =
        (if A ^ (j + 1) *ᵥ r = 0 then none
          else some ((norm2 (A ^ (j + 1) *ᵥ r))⁻¹ • (A ^ (j + 1) *ᵥ r))) := by
      rw [hπ']
      by_cases h : A ^ j *ᵥ r = 0
      · have h1 : A ^ (j + 1) *ᵥ r = 0 := by rw [pow_succ', ← mulVec_mulVec, h, mulVec_zero]
        simp [h, h1]
      · have hn : norm2 (A ^ j *ᵥ r) ≠ 0 := fun hc => h ((norm2_eq_zero _).1 hc)
        simp only [h, if_false, Option.map_some, Option.bind_some, mulVec_smul, mulVec_mulVec, ← pow_succ',
          norm2_smul, divScalar]
        rw [abs_of_nonneg (inv_nonneg.2 (norm2_nonneg _))]
        by_cases h1 : A ^ (j + 1) *ᵥ r = 0
        · simp [h1, (norm2_eq_zero (0 : Fin n → ℝ)).2 rfl]
        · have hn1 : norm2 (A ^ (j + 1) *ᵥ r) ≠ 0 := fun hc => h1 ((norm2_eq_zero _).1 hc)
          rw [if_neg (mul_ne_zero (inv_ne_zero hn) hn1), if_neg h1]
          congr 1
          funext i
          simp only [Pi.smul_apply, smul_eq_mul]
          field_simp
    rw [hlam] at hnext ⊢
    obtain ⟨h1, h2, h3, h4, h5⟩ := ih (j + 1) π' (growthN A r j)
      ((growthN A r j).elim mx (max mx)) (ls ++ [growthN A r j]) hnext
    set R := radiusLoop (fun v => A *ᵥ v) k π' (growthN A r j)
      ((growthN A r j).elim mx (max mx)) (ls ++ [growthN A r j])
    refine ⟨?_, ?_, ?_, ?_, ?_⟩
    · rw [h1, List.range_succ_eq_map, List.map_cons, List.map_map, List.append_assoc, List.singleton_append]
      congr 2
      refine List.map_congr_left fun i _ => ?_
      simp only [Function.comp_apply]
      congr 1
      omega
    · rw [h2]
      rcases Nat.eq_zero_or_pos k with rfl | hk
      · simp
      · rw [if_neg (by omega), if_neg (by omega)]
        congr 1
        omega
    · refine le_trans ?_ h3
      cases growthN A r j <;> simp
    · intro i hi l hl
      rcases i with _ | i
      · refine le_trans ?_ h3
        rw [Nat.add_zero] at hl
        rw [hl]; exact le_max_right _ _
      · exact h4 i (by omega) l (by rw [← hl]; congr 1; omega)
    · rcases h5 with h5 | ⟨i, hi, h5⟩
      · cases hg : growthN A r j with
        | none => left; rw [h5, hg]; rfl
        | some l =>
          rw [hg] at h5
          rcases max_choice mx l with hm | hm
          · left; rw [h5]; exact hm
          · right; exact ⟨0, by omega, by rw [Nat.add_zero, hg, h5]; exact congrArg some hm.symm⟩
      · right; exact ⟨i + 1, by omega, by rw [← h5]; congr 1; omega⟩

/-- **C119** (factors).  `radius_jac` returns the growth factors of `r, A r, A² r, …` for the array `r` drawn
(`nan` from the first term that vanishes), the last of them, and the largest one. -/
theorem C119_factors (A : Matrix (Fin n) (Fin n) ℝ) (maxit : ℕ) (r : Fin n → ℝ) (hr : r ≠ 0) :
    let R := radiusJac (fun v => A *ᵥ v) maxit r
    R.lambdas.length = maxit ∧
    (∀ k < maxit, A ^ k *ᵥ r ≠ 0 →
      R.lambdas[k]? = some (some (norm2 (A ^ (k + 1) *ᵥ r) / norm2 (A ^ k *ᵥ r)))) ∧
    (∀ k < maxit, A ^ k *ᵥ r = 0 → R.lambdas[k]? = some none) ∧
    (0 < maxit → R.lambdas.getLast? = some R.lam) ∧ (maxit = 0 → R.lam = some 1) ∧
    (∀ l, some l ∈ R.lambdas → l ≤ R.lamMax) ∧
    (R.lamMax = 0 ∨ some R.lamMax ∈ R.lambdas) ∧ 0 ≤ R.lamMax := by
  intro R
  have hn : norm2 r ≠ 0 := fun hc => hr ((norm2_eq_zero _).1 hc)
  have hstart : ((divScalar r (norm2 r)).bind fun v => (some (1 : ℝ)).bind fun l => divScalar v l) =
      (if A ^ 0 *ᵥ r = 0 then none else some ((norm2 (A ^ 0 *ᵥ r))⁻¹ • (A ^ 0 *ᵥ r))) := by
    simp only [divScalar, hn, if_false, Option.bind_some, one_ne_zero, div_one, pow_zero, one_mulVec, hr]
    congr 1
    funext i
    simp only [Pi.smul_apply, smul_eq_mul]
    ring
  obtain ⟨h1, h2, h3, h4, h5⟩ := radiusLoop_spec A r maxit 0 _ (some 1) 0 [] hstart
  change R.lambdas = _ at h1
  change R.lam = _ at h2
  change 0 ≤ R.lamMax at h3
  simp only [List.nil_append, Nat.zero_add] at h1
  have hget : ∀ k < maxit, R.lambdas[k]? = some (growthN A r k) := by
    intro k hk
    rw [h1]
    simp [hk]
  refine ⟨by rw [h1]; simp, ?_, ?_, ?_, ?_, ?_, ?_, h3⟩
  · intro k hk hz
    rw [hget k hk]
    unfold growthN growth
    rw [if_neg hz]
  · intro k hk hz
    rw [hget k hk]
    unfold growthN
    rw [if_pos hz]
  · intro hm
    rw [List.getLast?_eq_getElem?, show R.lambdas.length = maxit by rw [h1]; simp, hget _ (by omega), h2,
      if_neg (by omega), Nat.zero_add]
  · rintro rfl
    rw [h2]; rfl
  · intro l hl
    rw [h1, List.mem_map] at hl
    obtain ⟨i, hi, hil⟩ := hl
    exact h4 i (List.mem_range.1 hi) l (by rw [Nat.zero_add]; exact hil)
  · rcases h5 with h5 | ⟨i, hi, h5⟩
    · exact .inl h5
    · right
      rw [h1, List.mem_map]
      exact ⟨i, List.mem_range.2 hi, by rw [Nat.zero_add] at h5; exact h5⟩

/-- **C119** (bound).  No factor is above a bound on how much the operator stretches arrays. -/
theorem C119_bound (A : Matrix (Fin n) (Fin n) ℝ) (maxit : ℕ) (r : Fin n → ℝ) (hr : r ≠ 0) (c : ℝ)
    (hc : 0 ≤ c) (hA : ∀ v, norm2 (A *ᵥ v) ≤ c * norm2 v) :
    (radiusJac (fun v => A *ᵥ v) maxit r).lamMax ≤ c := by
  obtain ⟨hl, h1, h2, -, -, -, h6, -⟩ := C119_factors A maxit r hr
  rcases h6 with h6 | h6
  · rw [h6]; exact hc
  · obtain ⟨k, hk, hk2⟩ := List.mem_iff_getElem.1 h6
    have hkm : k < maxit := by rw [← hl]; exact hk
    have hk3 : (radiusJac (fun v => A *ᵥ v) maxit r).lambdas[k]? =
        some (some (radiusJac (fun v => A *ᵥ v) maxit r).lamMax) := by
      rw [List.getElem?_eq_getElem hk, hk2]
    by_cases hz : A ^ k *ᵥ r = 0
    · rw [h2 k hkm hz] at hk3
      simp at hk3
    · rw [h1 k hkm hz] at hk3
      simp only [Option.some.injEq] at hk3
      rw [← hk3, div_le_iff₀ (lt_of_le_of_ne (norm2_nonneg _) fun h => hz ((norm2_eq_zero _).1 h.symm)),
        pow_succ', ← mulVec_mulVec]
      exact hA _

private theorem powers_bounded (B : Matrix (Fin n) (Fin n) ℝ) (k : ℕ) (hk : 1 ≤ k) (h : ‖B ^ k‖ < 1) :
    ∃ C > 0, ∀ m, ‖B ^ m‖ ≤ C := by
  refine ⟨∑ s ∈ Finset.range k, ‖B ^ s‖ + 1, by positivity, ?_⟩
  intro m
  have hone : ∀ q s, s < k → ‖B ^ (k * q + s)‖ ≤ ‖B ^ s‖ := by
    intro q s _
    induction q with
    | zero => simp
    | succ q ih =>
      have : k * (q + 1) + s = k + (k * q + s) := by ring
      rw [this, pow_add]
      refine (norm_mul_le _ _).trans ((mul_le_of_le_one_left (norm_nonneg _) h.le).trans ih)
  have hm := hone (m / k) (m % k) (Nat.mod_lt _ hk)
  rw [Nat.div_add_mod] at hm
  refine hm.trans ?_
  have := Finset.single_le_sum (f := fun s => ‖B ^ s‖) (fun s _ => norm_nonneg _)
    (Finset.mem_range.2 (Nat.mod_lt m hk))
  linarith

private theorem isEigenvalue_smul (A : Matrix (Fin n) (Fin n) ℝ) (c : ℝ) (hc : c ≠ 0) (z : ℂ)
    (h : IsEigenvalue (c⁻¹ • A) z) : IsEigenvalue A (c * z) := by
  obtain ⟨v, hv, hz⟩ := h
  refine ⟨v, hv, ?_⟩
  have hmap : A.map Complex.ofReal = (c : ℂ) • ((c⁻¹ • A).map Complex.ofReal) := by
    ext i j
    simp only [Matrix.map_apply, Matrix.smul_apply, smul_eq_mul]
    push_cast
    rw [← mul_assoc, mul_inv_cancel₀ (by exact_mod_cast hc), one_mul]
  rw [hmap, Matrix.smul_mulVec, hz, smul_smul]

/-- **C119** (rate).  If all eigenvalues of the operator are below `ρ` in modulus, the factors are on average at
most `ρ`: up to a constant that depends on the operator only, the product of the first `k` factors, which is
the growth of the array drawn, is at most `ρ ^ k`. -/
theorem C119_rate (A : Matrix (Fin n) (Fin n) ℝ) (ρ : ℝ) (hρ : 0 < ρ)
    (heig : ∀ z, IsEigenvalue A z → ‖z‖ < ρ) :
    ∃ C > 0, ∀ (maxit : ℕ) (r : Fin n → ℝ), r ≠ 0 → (∀ k ≤ maxit, A ^ k *ᵥ r ≠ 0) →
      ((radiusJac (fun v => A *ᵥ v) maxit r).lambdas.map fun l => l.getD 0).prod ≤ C * ρ ^ maxit := by
  rcases Nat.eq_zero_or_pos n with rfl | hn
  · exact ⟨1, one_pos, fun _ r hr => (hr (Subsingleton.elim _ _)).elim⟩
  have : Nonempty (Fin n) := ⟨⟨0, hn⟩⟩
  have hB : ∀ z, IsEigenvalue (ρ⁻¹ • A) z → ‖z‖ < 1 := by
    intro z hz
    have := heig _ (isEigenvalue_smul A ρ hρ.ne' z hz)
    rw [norm_mul, Complex.norm_real, Real.norm_eq_abs, abs_of_pos hρ] at this
    have h2 : ρ * ‖z‖ < ρ * 1 := by rw [mul_one]; exact this
    exact lt_of_mul_lt_mul_left h2 hρ.le
  obtain ⟨k, hk, hk1⟩ := exists_pow_norm_lt_one _ hB
  obtain ⟨C, hC, hpow⟩ := powers_bounded _ k hk hk1
  refine ⟨n * C, by positivity, ?_⟩
  intro maxit r hr hnz
  have hprod : ((radiusJac (fun v => A *ᵥ v) maxit r).lambdas.map fun l => l.getD 0).prod =
      norm2 (A ^ maxit *ᵥ r) / norm2 r := by
    have hn0 : ∀ k ≤ maxit, norm2 (A ^ k *ᵥ r) ≠ 0 := fun k hk hc => hnz k hk ((norm2_eq_zero _).1 hc)
    obtain ⟨hl, h1, -⟩ := C119_factors A maxit r hr
    have heq : (radiusJac (fun v => A *ᵥ v) maxit r).lambdas.map (fun l => l.getD 0) =
        (List.range maxit).map (growth A r) := by
      apply List.ext_getElem?
      intro i
      rcases Nat.lt_or_ge i maxit with hi | hi
      · rw [List.getElem?_map, h1 i hi (hnz i hi.le)]
        simp [hi, growth]
      · rw [List.getElem?_eq_none (by rw [List.length_map, hl]; exact hi),
          List.getElem?_eq_none (by simpa using hi)]
    rw [heq]
    clear heq h1 hl
    induction maxit with
    | zero =>
      have := hn0 0 le_rfl
      rw [pow_zero, one_mulVec] at this
      simp [div_self this]
    | succ m ih =>
      rw [List.range_succ, List.map_append, List.prod_append,
        ih (fun k hk => hnz k (by omega)) (fun k hk => hn0 k (by omega))]
      have := hn0 m (by omega)
      simp only [List.map_cons, List.map_nil, List.prod_cons, List.prod_nil, mul_one, growth]
      field_simp
  rw [hprod, div_le_iff₀ (lt_of_le_of_ne (norm2_nonneg _) fun h => hr ((norm2_eq_zero _).1 h.symm))]
  have hA : A ^ maxit *ᵥ r = ρ ^ maxit • ((ρ⁻¹ • A) ^ maxit *ᵥ r) := by
    rw [smul_pow, smul_mulVec, smul_smul, inv_pow, mul_inv_cancel₀ (pow_ne_zero _ hρ.ne'), one_smul]
  rw [hA, norm2_smul, abs_of_pos (pow_pos hρ _)]
  have h3 : norm2 ((ρ⁻¹ • A) ^ maxit *ᵥ r) ≤ n * (C * norm2 r) := by
    refine (norm2_le_sup _).trans (mul_le_mul_of_nonneg_left ?_ (by positivity))
    refine (Matrix.linfty_opNorm_mulVec _ _).trans ?_
    exact mul_le_mul (hpow _) (sup_le_norm2 _) (norm_nonneg _) hC.le
  calc ρ ^ maxit * norm2 ((ρ⁻¹ • A) ^ maxit *ᵥ r) ≤ ρ ^ maxit * (n * (C * norm2 r)) :=
        mul_le_mul_of_nonneg_left h3 (pow_pos hρ _).le
    _ = n * C * ρ ^ maxit * norm2 r := by ring

/-- **C119** (eigenvector).  If the array drawn is an eigenvector all factors are the modulus of its
eigenvalue. -/
theorem C119_eigenvector (A : Matrix (Fin n) (Fin n) ℝ) (maxit : ℕ) (r : Fin n → ℝ) (hr : r ≠ 0) (z : ℝ)
    (hz : z ≠ 0) (h : A *ᵥ r = z • r) :
    ∀ l ∈ (radiusJac (fun v => A *ᵥ v) maxit r).lambdas, l = some |z| := by
  have hpow : ∀ k, A ^ k *ᵥ r = z ^ k • r := by
    intro k
    induction k with
    | zero => simp
    | succ k ih => rw [pow_succ', ← mulVec_mulVec, ih, mulVec_smul, h, smul_smul, ← pow_succ]
  have hn : norm2 r ≠ 0 := fun hc => hr ((norm2_eq_zero _).1 hc)
  obtain ⟨hl, h1, -⟩ := C119_factors A maxit r hr
  intro l hlm
  obtain ⟨k, hk, hk2⟩ := List.mem_iff_getElem.1 hlm
  have hkm : k < maxit := by rw [← hl]; exact hk
  have hnz : A ^ k *ᵥ r ≠ 0 := by rw [hpow]; exact smul_ne_zero (pow_ne_zero _ hz) hr
  have h3 := h1 k hkm hnz
  rw [List.getElem?_eq_getElem hk, hk2, Option.some.injEq] at h3
  rw [h3, hpow, hpow, norm2_smul, norm2_smul, pow_succ, abs_mul]
  have : |z ^ k| ≠ 0 := abs_ne_zero.2 (pow_ne_zero _ hz)
  congr 1
  field_simp

/-- **C119** (symmetric operators).  For a symmetric operator the factors never fall, so that the last one is
the largest. -/
theorem C119_symmetric_partial (A : Matrix (Fin n) (Fin n) ℝ) (hA : Aᵀ = A) (maxit : ℕ) (hm : 0 < maxit)
    (r : Fin n → ℝ) (hr : r ≠ 0) (hnz : ∀ k ≤ maxit, A ^ k *ᵥ r ≠ 0) :
    (radiusJac (fun v => A *ᵥ v) maxit r).lam = some (radiusJac (fun v => A *ᵥ v) maxit r).lamMax := by
  have hn0 : ∀ k ≤ maxit, 0 < norm2 (A ^ k *ᵥ r) := fun k hk =>
    lt_of_le_of_ne (norm2_nonneg _) fun h => hnz k hk ((norm2_eq_zero _).1 h.symm)
  have hstep : ∀ k, k + 2 ≤ maxit → growth A r k ≤ growth A r (k + 1) := by
    intro k hk
    unfold growth
    rw [div_le_div_iff₀ (hn0 k (by omega)) (hn0 (k + 1) (by omega))]
    set u := A ^ k *ᵥ r
    have e1 : A ^ (k + 1) *ᵥ r = A *ᵥ u := by rw [pow_succ', ← mulVec_mulVec]
    have e2 : A ^ (k + 1 + 1) *ᵥ r = A *ᵥ (A *ᵥ u) := by
      rw [pow_succ', ← mulVec_mulVec, e1]
    rw [e1, e2]
    have hin : norm2 (A *ᵥ u) ^ 2 = ∑ i, u i * (A *ᵥ (A *ᵥ u)) i := by
      rw [norm2_sq]
      have : (A *ᵥ u) ⬝ᵥ (A *ᵥ u) = u ⬝ᵥ (A *ᵥ (A *ᵥ u)) := by
        conv_lhs => rw [dotProduct_comm]
        rw [dotProduct_mulVec, ← mulVec_transpose, hA, dotProduct_comm]
      simpa [dotProduct, sq] using this
    have hcs := Finset.sum_mul_sq_le_sq_mul_sq Finset.univ u (A *ᵥ (A *ᵥ u))
    rw [← hin, ← norm2_sq, ← norm2_sq, ← mul_pow] at hcs
    have := (sq_le_sq₀ (sq_nonneg _) (mul_nonneg (norm2_nonneg u) (norm2_nonneg _))).1 hcs
    linarith
  have hmono : ∀ k, k < maxit → growth A r k ≤ growth A r (maxit - 1) := by
    intro k hk
    obtain ⟨d, hd⟩ : ∃ d, maxit - 1 = k + d := ⟨maxit - 1 - k, by omega⟩
    rw [hd]
    have : ∀ d, k + d < maxit → growth A r k ≤ growth A r (k + d) := by
      intro d
      induction d with
      | zero => intro _; exact le_rfl
      | succ d ih => intro hd'; exact (ih (by omega)).trans (hstep (k + d) (by omega))
    exact this d (by omega)
  obtain ⟨hl, h1, -, h4, -, h5, h6, h7⟩ := C119_factors A maxit r hr
  set R := radiusJac (fun v => A *ᵥ v) maxit r
  have hlast : R.lam = some (growth A r (maxit - 1)) := by
    have := h4 hm
    rw [List.getLast?_eq_getElem?, hl, h1 _ (by omega) (hnz _ (by omega))] at this
    simp only [Option.some.injEq] at this
    rw [← this]; rfl
  rw [hlast]
  congr 1
  apply le_antisymm
  · exact h5 _ (by
      have := h4 hm
      rw [hlast] at this
      exact List.mem_of_getLast? this)
  · rcases h6 with h6 | h6
    · rw [h6]
      exact div_nonneg (norm2_nonneg _) (norm2_nonneg _)
    · obtain ⟨k, hk, hk2⟩ := List.mem_iff_getElem.1 h6
      have hkm : k < maxit := by rw [← hl]; exact hk
      have h8 := h1 k hkm (hnz k hkm.le)
      rw [List.getElem?_eq_getElem hk, hk2] at h8
      simp only [Option.some.injEq] at h8
      rw [h8]
      exact hmono k hkm

/-! ## The last factor need not approach the spectral radius -/

/-- An operator with eigenvalues `2` and `-2`. -/
def swapOp : Matrix (Fin 2) (Fin 2) ℝ := !![0, 4; 1, 0]

private theorem swapOp_sq : swapOp ^ 2 = (4 : ℝ) • (1 : Matrix (Fin 2) (Fin 2) ℝ) := by
  rw [sq]
  ext i j
  fin_cases i <;> fin_cases j <;> simp [swapOp, Matrix.mul_apply, Fin.sum_univ_two]

private theorem swapOp_even (m : ℕ) (v : Fin 2 → ℝ) : swapOp ^ (2 * m) *ᵥ v = (4 : ℝ) ^ m • v := by
  rw [pow_mul, swapOp_sq, smul_pow, one_pow, smul_mulVec, one_mulVec]

/-- **C119** (oscillation).  All eigenvalues of `swapOp` have modulus two, but unless the array drawn lies on
one of two lines, the last factor is never two, however many passes are made. -/
theorem C119_oscillation_fails :
    (∀ z, IsEigenvalue swapOp z → ‖z‖ = 2) ∧
    ∀ (maxit : ℕ) (r : Fin 2 → ℝ), 0 < maxit → r 0 ^ 2 ≠ 4 * r 1 ^ 2 →
      ∃ l, (radiusJac (fun v => swapOp *ᵥ v) maxit r).lam = some l ∧ l ≠ 2 := by
  constructor
  · rintro z ⟨v, hv, hz⟩
    have h0 : 4 * v 1 = z * v 0 := by
      have := congrFun hz 0
      simpa [swapOp, mulVec, dotProduct, Fin.sum_univ_two] using this
    have h1 : v 0 = z * v 1 := by
      have := congrFun hz 1
      simpa [swapOp, mulVec, dotProduct, Fin.sum_univ_two] using this
    have hv1 : v 1 ≠ 0 := by
      intro h
      apply hv
      funext i
      fin_cases i
      · simp [h1, h]
      · exact h
    have hz2 : z * z = 4 := by
      have : (z * z - 4) * v 1 = 0 := by rw [h1] at h0; linear_combination -h0
      rcases mul_eq_zero.1 this with h | h
      · linear_combination h
      · exact absurd h hv1
    have hn : ‖z‖ * ‖z‖ = 4 := by rw [← norm_mul, hz2]; norm_num
    nlinarith [norm_nonneg z]
  · intro maxit r hm hr2
    have hr : r ≠ 0 := by
      rintro rfl
      simp at hr2
    have hz : ∀ v : Fin 2 → ℝ, v ≠ 0 → swapOp *ᵥ v ≠ 0 := by
      intro v hv h
      apply hv
      have h2 : swapOp ^ 2 *ᵥ v = 0 := by rw [sq, ← mulVec_mulVec, h, mulVec_zero]
      rw [swapOp_sq, smul_mulVec, one_mulVec] at h2
      exact (smul_eq_zero.1 h2).resolve_left (by norm_num)
    have hnz : ∀ k, swapOp ^ k *ᵥ r ≠ 0 := by
      intro k
      induction k with
      | zero => simpa using hr
      | succ k ih => rw [pow_succ', ← mulVec_mulVec]; exact hz _ ih
    obtain ⟨hl, h1, -, h4, -⟩ := C119_factors swapOp maxit r hr
    have hlast := h4 hm
    rw [List.getLast?_eq_getElem?, hl, h1 _ (by omega) (hnz _)] at hlast
    simp only [Option.some.injEq] at hlast
    refine ⟨_, hlast.symm, ?_⟩
    have p0 : 0 < norm2 r := lt_of_le_of_ne (norm2_nonneg _) fun h => hr ((norm2_eq_zero _).1 h.symm)
    have p1 : 0 < norm2 (swapOp *ᵥ r) :=
      lt_of_le_of_ne (norm2_nonneg _) fun h => hz r hr ((norm2_eq_zero _).1 h.symm)
    have hsq : norm2 (swapOp *ᵥ r) ^ 2 = 16 * r 1 ^ 2 + r 0 ^ 2 := by
      rw [norm2_sq]
      simp [swapOp, mulVec, dotProduct, Fin.sum_univ_two]
      ring
    have hsq0 : norm2 r ^ 2 = r 0 ^ 2 + r 1 ^ 2 := by rw [norm2_sq, Fin.sum_univ_two]
    have hne : norm2 (swapOp *ᵥ r) ≠ 2 * norm2 r := by
      intro h
      apply hr2
      have : norm2 (swapOp *ᵥ r) ^ 2 = 4 * norm2 r ^ 2 := by rw [h]; ring
      rw [hsq, hsq0] at this
      linarith
    have h4m : ∀ m : ℕ, (0 : ℝ) < 4 ^ m := fun m => by positivity
    rcases Nat.even_or_odd' (maxit - 1) with ⟨m, hm2 | hm2⟩
    · rw [hm2, pow_succ', ← mulVec_mulVec, swapOp_even, mulVec_smul, norm2_smul, norm2_smul,
        abs_of_pos (h4m m), mul_div_mul_left _ _ (h4m m).ne']
      intro h
      rw [div_eq_iff p0.ne'] at h
      exact hne h
    · have e1 : 2 * m + 1 + 1 = 2 * (m + 1) := by ring
      have e2 : swapOp ^ (2 * m + 1) *ᵥ r = (4 : ℝ) ^ m • (swapOp *ᵥ r) := by
        rw [pow_succ', ← mulVec_mulVec, swapOp_even, mulVec_smul]
      have e3 : (4 : ℝ) ^ (m + 1) = 4 ^ m * 4 := pow_succ _ _
      rw [hm2, e1, e2, swapOp_even, norm2_smul, norm2_smul, abs_of_pos (h4m m), abs_of_pos (h4m (m + 1)), e3,
        mul_assoc, mul_div_mul_left _ _ (h4m m).ne']
      intro h
      rw [div_eq_iff p1.ne'] at h
      apply hne
      linarith

/-! ## Non-vacuity -/

/-- The operator halving every entry: all factors are one half. -/
example : (∀ l ∈ (radiusJac (fun v => ((1 / 2 : ℝ) • (1 : Matrix (Fin 2) (Fin 2) ℝ)) *ᵥ v) 3
    (fun _ => 1)).lambdas, l = some (1 / 2 : ℝ)) := by
  have := C119_eigenvector ((1 / 2 : ℝ) • (1 : Matrix (Fin 2) (Fin 2) ℝ)) 3 (fun _ => 1)
    (fun h => by have := congrFun h 0; norm_num at this) (1 / 2) (by norm_num)
    (by rw [smul_mulVec, one_mulVec])
  simpa [abs_of_pos] using this

/-- The hypothesis of `C119_rate` holds for the operator halving every entry. -/
example : ∀ z, IsEigenvalue ((1 / 2 : ℝ) • (1 : Matrix (Fin 2) (Fin 2) ℝ)) z → ‖z‖ < 3 / 4 := by
  rintro z ⟨v, hv, hz⟩
  have hmap : ((1 / 2 : ℝ) • (1 : Matrix (Fin 2) (Fin 2) ℝ)).map Complex.ofReal =
      (1 / 2 : ℂ) • (1 : Matrix (Fin 2) (Fin 2) ℂ) := by
    ext i j
    by_cases h : i = j <;> simp [h]
  rw [hmap, smul_mulVec, one_mulVec] at hz
  have : ((1 / 2 : ℂ) - z) • v = 0 := by rw [sub_smul, hz, sub_self]
  rcases smul_eq_zero.1 this with h | h
  · rw [← sub_eq_zero.1 h]; norm_num
  · exact absurd h hv

end Dolo
