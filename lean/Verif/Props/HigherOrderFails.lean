import Verif.Props.HigherOrder

/-!
# C36: models for which the third-order solution is wrong
-/

set_option linter.unusedSectionVars false

namespace Dolo

open PowerSeries

/-- The model `x + s' = s`, `s' = s x + ε²/2` (with one shock), whose solution starts `x = s - s² + s³ - ...`. -/
private def modelA : Problem 1 1 1 ℚ where
  f1 := fun _ z => match z with
    | .inl (.inl _) => -1
    | .inl (.inr _) => 1
    | .inr (.inl _) => 1
    | .inr (.inr _) => 0
  f2 := fun _ _ _ => 0
  f3 := fun _ _ _ _ => 0
  g1 := fun _ _ => 0
  g2 := fun _ y z => match y, z with
    | .inl (.inl _), .inl (.inr _) => 1
    | .inl (.inr _), .inl (.inl _) => 1
    | .inr _, .inr _ => 1
    | _, _ => 0
  g3 := fun _ _ _ _ => 0
  sigma := fun _ _ => 1

def gaussLin : LinSolver ℚ := fun n A b => gaussSolve n (n + 1) fun i j => if j < n then A i j else b i

private theorem modelA_symm : modelA.Symmetric := by
  constructor <;> intros <;> try rfl
  rename_i a b
  rcases a with (a | a) | a <;> rcases b with (b | b) | b <;> rfl

private theorem modelA_first : modelA.FirstOrder (fun _ _ => 1) := by
  unfold Problem.FirstOrder
  ext i j
  simp [modelA, Problem.f_s, Problem.f_x, Problem.f_S, Problem.f_X, Problem.g_s, Problem.g_x, Matrix.mul_apply]

private theorem regular_simple {ns : ℕ} (nd : ℕ) (Cm : Fin ns → Fin ns → ℚ) :
    RegularN (nx := 1) nd (fun _ _ => (1 : ℚ)) (fun _ _ => 0) Cm := by
  intro X hX
  funext i j
  have := hX i j
  simp at this
  rw [Subsingleton.elim i 0, this]
  rfl

private theorem modelA_sylA : modelA.sylA (fun _ _ => 1) = fun _ _ => 1 := by
  funext i a
  simp [Problem.sylA, Problem.f_x, Problem.g_x, modelA, c1]

private theorem modelA_Ltt : Matrix.of (modelA.Ltt (fun _ _ => 1)) = 1 := by
  ext i a
  rw [Subsingleton.elim i a, Matrix.one_apply_eq]
  simp [Problem.Ltt, Problem.f_x, Problem.f_S, Problem.f_X, Problem.g_x, modelA, c1]

private theorem third_of_Xtt {ns nx ne : ℕ} (solve : MatSolver ℚ) (lsolve : LinSolver ℚ) (p : Problem ns nx ne ℚ)
    (X_s : Fin nx → Fin ns → ℚ) (t : Fin nx → ℚ) (h : p.Xtt X_s solve (p.Xss X_s lsolve) = .ok t) :
    let X_ss := p.Xss X_s lsolve
    let X_sss := p.Xsss X_s X_ss lsolve
    higherOrders solve lsolve p 3 X_s = .ok (.third X_s X_ss X_sss t (p.Xstt X_s X_ss X_sss t lsolve)) := by
  intro X_ss X_sss
  simp [higherOrders, h, bind, Except.bind, pure, Except.pure, X_ss, X_sss]

private theorem modelA_third : ∃ X_sss X_tt X_stt,
    higherOrders exactSolver gaussLin modelA 3 (fun _ _ => 1)
      = .ok (.third (fun _ _ => 1) (fun _ _ _ => -2) X_sss X_tt X_stt) := by
  have hss : modelA.Xss (fun _ _ => 1) gaussLin = fun _ _ _ => -2 := by
    have h := sylvester2_spec gaussLin C26_solver_exists (modelA.D2 (fun _ _ => 1))
      (A := modelA.sylA (fun _ _ => 1)) (B := modelA.f_X) (C := modelA.V1_3 (fun _ _ => 1))
      (by rw [modelA_sylA]; exact regular_simple 2 _) (fun _ => 1) (fun _ => 1)
    funext i a b
    have h' := congrFun h i
    simp [L1_apply, L2_apply, c1, c2, modelA_sylA, Problem.f_X, Problem.D2, Problem.fS, Problem.K2, Problem.f_S,
      Problem.g_ss, Problem.g_sx, Problem.g_xx] at h'
    simp [modelA] at h'
    rw [Subsingleton.elim a 0, Subsingleton.elim b 0, Subsingleton.elim i 0]
    unfold Problem.Xss
    rw [modelA_sylA]
    exact eq_neg_of_add_eq_zero_left h'
  have : modelA.Xtt (fun _ _ => 1) exactSolver (fun _ _ _ => -2)
      = .ok fun i => - modelA.Ktt (fun _ _ => 1) (fun _ _ _ => -2) i := by
    unfold Problem.Xtt exactSolver
    rw [modelA_Ltt]
    simp [bind, Except.bind, pure, Except.pure]
  have h3 := third_of_Xtt exactSolver gaussLin modelA (fun _ _ => 1) _ (by rw [hss]; exact this)
  rw [hss] at h3
  exact ⟨_, _, _, h3⟩

/-- **C36 fails at order three.**  In the model `x + s' = s`, `s' = s x + ε²/2`, the rule computed by
`state_perturb` does not solve the model up to third order, even without risk: for every functions with the
derivatives of the model and of the rule, the residual in the direction `s = t` has a term of order three. -/
theorem C36_third_fails :
    ∃ (p : Problem 1 1 1 ℚ) (solve : MatSolver ℚ) (lsolve : LinSolver ℚ) (X_s : Fin 1 → Fin 1 → ℚ)
      (X_ss : Fin 1 → Fin 1 → Fin 1 → ℚ) (X_sss : Fin 1 → Fin 1 → Fin 1 → Fin 1 → ℚ) (X_tt : Fin 1 → ℚ)
      (X_stt : Fin 1 → Fin 1 → ℚ), p.Symmetric ∧ solve.Correct ∧ lsolve.Correct ∧ p.FirstOrder X_s ∧
      (∀ nd, RegularN nd (p.sylA X_s) p.f_X (p.V1_3 X_s)) ∧
      higherOrders solve lsolve p 3 X_s = .ok (.third X_s X_ss X_sss X_tt X_stt) ∧
      ∀ F G φ, Taylor3 F p.f1 p.f2 p.f3 → Taylor3 G p.g1 p.g2 p.g3 →
        Taylor3 φ (ruleD1 X_s) (ruleD2 X_ss X_tt) (ruleD3 X_sss X_stt) →
        ¬ X ^ 4 ∣ pathResidual F G φ (fun _ => X) 0 (fun _ => 0) 0 := by
  obtain ⟨X_sss, X_tt, X_stt, h⟩ := modelA_third
  have hreg : ∀ nd, RegularN nd (modelA.sylA (fun _ _ => 1)) modelA.f_X (modelA.V1_3 (fun _ _ => 1)) := by
    intro nd
    rw [modelA_sylA]
    exact regular_simple nd _
  refine ⟨modelA, exactSolver, gaussLin, _, _, X_sss, X_tt, X_stt, modelA_symm, exactSolver_correct,
    C26_solver_exists, modelA_first, hreg, h, ?_⟩
  intro F G φ hF hG hφ hdvd
  have hs : Shocks (D := Bool) (fun _ => (1 / 2 : ℚ)) (fun d _ => if d then 1 else -1) modelA.sigma := by
    constructor
    · norm_num
    · intro e; norm_num
    · intro e e'; norm_num [modelA]
  have key := C36_third_order_partial modelA exactSolver (fun n m M R X hh => (exactSolver_correct n m M R X hh).2)
    gaussLin C26_solver_exists modelA_symm _ modelA_first (hreg 1) (hreg 2) (hreg 3) _ X_sss X_tt X_stt h F G φ hF hG
    hφ _ _ hs ⟨⟨not, not, Bool.not_not, Bool.not_not⟩, fun d => ⟨rfl, by funext k; cases d <;> simp⟩⟩ 1 0 0
  have e : ∑ d : Bool, C (1 / 2 : ℚ) * pathResidual F G φ (fun _ => C (1 : ℚ) * X) (C (0 : ℚ) * X)
      (fun k => C (0 * (if d then (1 : ℚ) else -1)) * X) 0 = pathResidual F G φ (fun _ => X) 0 (fun _ => 0) 0 := by
    simp only [Fintype.sum_bool, map_zero, zero_mul, map_one, one_mul]
    rw [← add_mul, ← map_add]
    norm_num
  rw [e] at key
  have h3 := (dvd_sub_right hdvd).1 key
  have h4 := X_pow_dvd_iff.1 h3 3 (by norm_num)
  rw [coeff_C_mul, coeff_X_pow] at h4
  simp [modelA, Problem.f_S, Problem.f_X, Problem.g_sx] at h4

/-- The model `x - s₀ + x' s₁ = 0`, `s₀' = s₁²/2`, `s₁' = 0`, with two states and no shock.  Its solution starts
`x = s₀ - s₁³/2`. -/
private def modelB : Problem 2 1 0 ℚ where
  f1 := fun _ z => match z with
    | .inl (.inl 0) => -1
    | .inl (.inr _) => 1
    | _ => 0
  f2 := fun _ y z => match y, z with
    | .inl (.inl 1), .inr (.inr _) => 1
    | .inr (.inr _), .inl (.inl 1) => 1
    | _, _ => 0
  f3 := fun _ _ _ _ => 0
  g1 := fun _ _ => 0
  g2 := fun i y z => match i, y, z with
    | 0, .inl (.inl 1), .inl (.inl 1) => 1
    | _, _, _ => 0
  g3 := fun _ _ _ _ => 0
  sigma := fun _ _ => 0

private def ruleB : Fin 1 → Fin 2 → ℚ := fun _ a => if a = 0 then 1 else 0

private theorem modelB_symm : modelB.Symmetric := by
  constructor <;> intros <;> try rfl
  · rename_i i a b
    rcases a with (a | a) | (a | a) <;> rcases b with (b | b) | (b | b) <;> fin_cases a <;> fin_cases b <;> rfl
  · rename_i i a b
    rcases a with (a | a) | a <;> rcases b with (b | b) | b <;> fin_cases i <;> fin_cases a <;> fin_cases b <;> rfl

private theorem modelB_first : modelB.FirstOrder ruleB := by
  unfold Problem.FirstOrder
  ext i j
  fin_cases i
  fin_cases j <;>
  simp [modelB, ruleB, Problem.f_s, Problem.f_x, Problem.f_S, Problem.f_X, Problem.g_s, Problem.g_x, Matrix.mul_apply]

private theorem modelB_sylA : modelB.sylA ruleB = fun _ _ => 1 := by
  funext i a
  simp [Problem.sylA, Problem.f_x, Problem.g_x, modelB, c1]

private theorem modelB_f_X : modelB.f_X = fun _ _ => 0 := by
  funext i a
  simp [Problem.f_X, modelB]

private theorem modelB_fS : modelB.fS ruleB = fun _ _ => 0 := by
  funext i a
  simp only [Problem.fS, modelB_f_X, c1, zero_mul, Finset.sum_const_zero, add_zero]
  simp [Problem.f_S, modelB]

private theorem modelB_V1_3 : modelB.V1_3 ruleB = fun _ _ => 0 := by
  funext i a
  simp [Problem.V1_3, Problem.g_s, Problem.g_x, modelB, c1]

private theorem modelB_D2 : modelB.D2 ruleB = fun _ _ _ => 0 := by
  funext i a b
  simp only [Problem.D2, modelB_fS, c1, c2, zero_mul, Finset.sum_const_zero, add_zero, Fintype.sum_sum_type,
    Problem.V1, modelB_V1_3]
  simp [modelB]

private theorem modelB_Xss : modelB.Xss ruleB gaussLin = fun _ _ _ => 0 := by
  have h := sylvester2_spec gaussLin C26_solver_exists (modelB.D2 ruleB)
      (A := modelB.sylA ruleB) (B := modelB.f_X) (C := modelB.V1_3 ruleB)
      (by rw [modelB_sylA, modelB_f_X]; exact regular_simple 2 _)
  funext i a b
  have h' := congrFun (h (Pi.single a 1) (Pi.single b 1)) i
  simp only [L2_single, L1_apply, c1, modelB_sylA, modelB_f_X, modelB_D2, Pi.add_apply, one_mul, zero_mul,
    Finset.sum_const_zero, add_zero, Finset.univ_unique, Finset.sum_singleton, Fin.default_eq_zero, Pi.zero_apply]
    at h'
  unfold Problem.Xss
  rw [Subsingleton.elim i 0, modelB_sylA, modelB_f_X, modelB_D2]
  exact h'

private theorem modelB_D3 : modelB.D3 ruleB (fun _ _ _ => 0) = fun _ _ _ _ => 0 := by
  funext i a b c
  have e : ∀ z, modelB.f3 i z = fun _ _ => 0 := fun z => rfl
  simp only [Problem.D3, modelB_fS, modelB_f_X, c1, c2, c3, e, zero_mul, Finset.sum_const_zero, add_zero, zero_add,
    Fintype.sum_sum_type, Problem.V1, Problem.V2, modelB_V1_3]
  simp [modelB, Problem.V2_3, Problem.K2, Problem.g_ss, Problem.g_sx, Problem.g_xx, c1, c2, ruleB]

private theorem modelB_Xsss : modelB.Xsss ruleB (fun _ _ _ => 0) gaussLin = fun _ _ _ _ => 0 := by
  have h := sylvester3_spec gaussLin C26_solver_exists (modelB.D3 ruleB (fun _ _ _ => 0))
      (A := modelB.sylA ruleB) (B := modelB.f_X) (C := modelB.V1_3 ruleB)
      (by rw [modelB_sylA, modelB_f_X]; exact regular_simple 3 _)
  funext i a b c
  have h' := h i a b c
  simp only [modelB_sylA, modelB_f_X, modelB_D3, one_mul, zero_mul,
    Finset.sum_const_zero, add_zero, Finset.univ_unique, Finset.sum_singleton, Fin.default_eq_zero]
    at h'
  unfold Problem.Xsss
  rw [Subsingleton.elim i 0, modelB_sylA, modelB_f_X, modelB_D3]
  exact h'

private theorem modelB_Xtt : modelB.Xtt ruleB exactSolver (fun _ _ _ => 0)
      = .ok fun i => - modelB.Ktt ruleB (fun _ _ _ => 0) i := by
  have e : Matrix.of (modelB.Ltt ruleB) = 1 := by
    ext i a
    rw [Subsingleton.elim i a, Matrix.one_apply_eq]
    change modelB.Ltt ruleB a a = 1
    simp only [Problem.Ltt, modelB_f_X, c1, zero_mul, Finset.sum_const_zero, add_zero]
    simp [Problem.f_x, Problem.f_S, modelB]
  unfold Problem.Xtt exactSolver
  rw [e]
  simp [bind, Except.bind, pure, Except.pure]

/-- **C36 fails at order three with several states.**  In the model `x - s₀ + x' s₁ = 0`, `s₀' = s₁²/2`, `s₁' = 0`
(where `g_sx = 0`, so the term of `C36_third_fails` is absent), the rule computed by `state_perturb` has no terms
beyond the first order, and its residual in the direction `(0, t)` is `t³/2`.  (`dot(X_s, V2_3)` on line 285
contracts the wrong dimension.) -/
theorem C36_third_fails_two_states :
    ∃ (p : Problem 2 1 0 ℚ) (solve : MatSolver ℚ) (lsolve : LinSolver ℚ) (X_s : Fin 1 → Fin 2 → ℚ)
      (X_ss : Fin 1 → Fin 2 → Fin 2 → ℚ) (X_sss : Fin 1 → Fin 2 → Fin 2 → Fin 2 → ℚ) (X_tt : Fin 1 → ℚ)
      (X_stt : Fin 1 → Fin 2 → ℚ), p.Symmetric ∧ solve.Correct ∧ lsolve.Correct ∧ p.FirstOrder X_s ∧
      (∀ nd, RegularN nd (p.sylA X_s) p.f_X (p.V1_3 X_s)) ∧
      higherOrders solve lsolve p 3 X_s = .ok (.third X_s X_ss X_sss X_tt X_stt) ∧ (∀ i a x, p.g_sx i a x = 0) ∧
      ∃ F G φ, Taylor3 F p.f1 p.f2 p.f3 ∧ Taylor3 G p.g1 p.g2 p.g3 ∧
        Taylor3 φ (ruleD1 X_s) (ruleD2 X_ss X_tt) (ruleD3 X_sss X_stt) ∧
        ¬ X ^ 4 ∣ pathResidual F G φ ![0, X] 0 ![] 0 := by
  have h3 := third_of_Xtt exactSolver gaussLin modelB ruleB _ (by rw [modelB_Xss]; exact modelB_Xtt)
  simp only [modelB_Xss, modelB_Xsss] at h3
  refine ⟨modelB, exactSolver, gaussLin, _, _, _, _, _, modelB_symm, exactSolver_correct,
    C26_solver_exists, modelB_first, ?_, h3, ?_, taylorPoly _ _ _, taylorPoly _ _ _, taylorPoly _ _ _,
    taylorPoly_spec _ _ _, taylorPoly_spec _ _ _, taylorPoly_spec _ _ _, ?_⟩
  · intro nd
    rw [modelB_sylA, modelB_f_X]
    exact regular_simple nd _
  · intro i a x
    simp [Problem.g_sx, modelB]
  · intro h4
    have e : ∀ z : Fin 2 → ℚ⟦X⟧, taylorPoly (ruleD1 ruleB)
        (ruleD2 (fun _ _ _ => 0) fun i => - modelB.Ktt ruleB (fun _ _ _ => 0) i)
        (ruleD3 (fun _ _ _ _ => 0) (modelB.Xstt ruleB (fun _ _ _ => 0) (fun _ _ _ _ => 0)
          (fun i => - modelB.Ktt ruleB (fun _ _ _ => 0) i) gaussLin)) (Sum.elim z fun _ => 0) = fun _ => z 0 := by
      intro z
      funext i
      simp [taylorPoly, ruleD1, ruleD2, ruleD3, ruleB]
    have hp : pathResidual (taylorPoly modelB.f1 modelB.f2 modelB.f3) (taylorPoly modelB.g1 modelB.g2 modelB.g3)
        (taylorPoly (ruleD1 ruleB)
        (ruleD2 (fun _ _ _ => 0) fun i => - modelB.Ktt ruleB (fun _ _ _ => 0) i)
        (ruleD3 (fun _ _ _ _ => 0) (modelB.Xstt ruleB (fun _ _ _ => 0) (fun _ _ _ _ => 0)
          (fun i => - modelB.Ktt ruleB (fun _ _ _ => 0) i) gaussLin))) ![0, X] 0 ![] 0 = C (1 / 2) * X ^ 3 := by
      unfold pathResidual
      simp only [e]
      simp [taylorPoly, modelB]
      have h2 : C (2⁻¹ : ℚ) + C 2⁻¹ = (1 : ℚ⟦X⟧) := by
        rw [← map_add, ← map_one (C (R := ℚ))]
        norm_num
      linear_combination (C (2⁻¹ : ℚ) * X ^ 3) * h2
    rw [hp] at h4
    have h5 := X_pow_dvd_iff.1 h4 3 (by norm_num)
    rw [coeff_C_mul, coeff_X_pow] at h5
    norm_num at h5

/-- The hypotheses of `C36_second_order` and `C36_third_order_partial` are met by a model with risk and
non-linear terms, and functions with its derivatives exist. -/
example : modelA.Symmetric ∧ modelA.FirstOrder (fun _ _ => 1) ∧
    (∀ nd, RegularN nd (modelA.sylA (fun _ _ => 1)) modelA.f_X (modelA.V1_3 (fun _ _ => 1))) ∧
    (∃ X_sss X_tt X_stt, higherOrders exactSolver gaussLin modelA 3 (fun _ _ => 1)
      = .ok (.third (fun _ _ => 1) (fun _ _ _ => -2) X_sss X_tt X_stt)) ∧
    (∃ F, Taylor3 F modelA.f1 modelA.f2 modelA.f3) ∧ (∃ G, Taylor3 G modelA.g1 modelA.g2 modelA.g3) ∧
    ∃ (w : Bool → ℚ) (ε : Bool → Fin 1 → ℚ), Shocks w ε modelA.sigma ∧ SymmetricShocks w ε :=
  ⟨modelA_symm, modelA_first, fun nd => by rw [modelA_sylA]; exact regular_simple nd _, modelA_third,
    ⟨_, taylorPoly_spec _ _ _⟩, ⟨_, taylorPoly_spec _ _ _⟩, fun _ => 1 / 2, fun d _ => if d then 1 else -1,
    ⟨by norm_num, fun e => by norm_num, fun e e' => by norm_num [modelA]⟩,
    ⟨not, not, Bool.not_not, Bool.not_not⟩, fun d => ⟨rfl, by funext k; cases d <;> simp⟩⟩

/-- `C36_second_unique` and `C36_certainty_equivalence`: the remaining hypothesis holds for the same model.  (By `C36_second_order` its rule solves the model
up to second order.) -/
example : ∀ v, (Matrix.of (modelA.Ltt (fun _ _ => 1))).mulVec v = 0 → v = 0 := by
  intro v h
  have h0 := congrFun h 0
  funext i
  rw [Subsingleton.elim i 0]
  simpa [Problem.Ltt, modelA, Matrix.mulVec, dotProduct, Problem.f_x, Problem.f_X, Problem.f_S, Problem.g_x, c1] using h0

/-- A model with a diagonal pencil: `x = x'/2 + ε-terms`, `s' = s/2 + ε²/2`, with variance `v`. -/
def modelC (v : ℚ) : Problem 1 1 1 ℚ where
  f1 := fun _ z => match z with
    | .inl (.inr _) => 1
    | .inr (.inr _) => -(1 / 2)
    | _ => 0
  f2 := fun _ _ _ => 1
  f3 := fun _ _ _ _ => 0
  g1 := fun _ z => match z with
    | .inl (.inl _) => 1 / 2
    | .inr _ => 1
    | _ => 0
  g2 := fun _ _ _ => 1
  g3 := fun _ _ _ _ => 0
  sigma := fun _ _ => v

/-- The hypotheses of `C36_state_perturb` are met by `modelC`, whatever the variance. -/
theorem modelC_perturb : ∃ (qz : Matrix (Fin 1 ⊕ Fin 1) (Fin 1 ⊕ Fin 1) ℚ → Matrix (Fin 1 ⊕ Fin 1) (Fin 1 ⊕ Fin 1) ℚ → ℚ →
      QZ (Fin 1 ⊕ Fin 1) ℚ) (X_s : Fin 1 → Fin 1 → ℚ), ∀ v, ∃ (X_ss : Fin 1 → Fin 1 → Fin 1 → ℚ) (X_tt : Fin 1 → ℚ),
    DecomposesPencil qz (modelC v) ∧ RegularN 2 ((modelC v).sylA X_s) (modelC v).f_X ((modelC v).V1_3 X_s) ∧
    statePerturb exactSolver gaussLin qz (fun _ _ => 0) (modelC v) 2 = .ok (.second X_s X_ss X_tt, false) := by
  set A := pencilA (Matrix.of (modelC 0).f_S) (Matrix.of (modelC 0).f_X) with hA
  set B := pencilB (Matrix.of (modelC 0).g_s) (Matrix.of (modelC 0).g_x) (Matrix.of (modelC 0).f_s) (Matrix.of (modelC 0).f_x) with hB
  let d : QZ (Fin 1 ⊕ Fin 1) ℚ := ⟨A, B, 1, 1⟩
  refine ⟨fun _ _ _ => d, fun _ _ => 0, fun v => ?_⟩
  have hsyl : (modelC v).sylA (fun _ _ => 0) = fun _ _ => 1 := by
    funext i a
    simp [Problem.sylA, Problem.f_x, Problem.g_x, modelC, c1]
  have hfX : (modelC v).f_X = fun _ _ => -(1 / 2) := by
    funext i a
    simp [Problem.f_X, modelC]
  have hV : (modelC v).V1_3 (fun _ _ => 0) = fun _ _ => 1 / 2 := by
    funext i a
    simp [Problem.V1_3, Problem.g_s, Problem.g_x, modelC, c1]
  refine ⟨(modelC v).Xss (fun _ _ => 0) gaussLin,
    fun i => ((Matrix.of ((modelC v).Ltt (fun _ _ => 0)))⁻¹ *
      Matrix.of fun i (_ : Fin 1) => - (modelC v).Ktt (fun _ _ => 0) ((modelC v).Xss (fun _ _ => 0) gaussLin) i) i 0,
    fun c => ⟨diagonal_correct A B, ?_, ?_⟩, ?_, ?_⟩
  · ext i j; simp [d, A, pencilA, Matrix.toBlocks₂₁, Problem.f_S, modelC]
  · ext i j; simp [d, B, pencilB, Matrix.toBlocks₂₁, Problem.f_s, modelC]
  · rw [hsyl, hfX, hV]
    intro X hX
    funext i j
    have := hX i j
    have hj : ∀ l : Fin 2 → Fin 1, l = j := fun l => Subsingleton.elim _ _
    have hu : (Finset.univ : Finset (Fin 2 → Fin 1)) = {j} := by
      ext l; simp only [Finset.mem_univ, Finset.mem_singleton, hj l]
    rw [hu] at this
    simp at this
    rw [Subsingleton.elim i 0]
    change X 0 j = 0
    linarith
  · have h1 : diagOk d = true := by
      simp [diagOk, d, A, B, pencilA, pencilB, Problem.f_X, Problem.g_s, Problem.f_x, modelC]
      norm_num
    have e1 : genEig d (.inl 0) = ((2 : ℚ) : WithTop ℚ) := by
      simp [genEig, d, A, B, pencilA, pencilB, Problem.g_s, modelC]
    have e2 : genEig d (.inr 0) = ((1 / 2 : ℚ) : WithTop ℚ) := by
      simp [genEig, d, A, B, pencilA, pencilB, Problem.f_x, Problem.f_X, modelC]
    have h2 : bkTest d = .ok true := by
      have h3 : (1 : WithTop ℚ) ≤ ((2 : ℚ) : WithTop ℚ) := by exact_mod_cast (by norm_num : (1 : ℚ) ≤ 2)
      have h4 : ((1 / 2 : ℚ) : WithTop ℚ) < 1 := by exact_mod_cast (by norm_num : (1 / 2 : ℚ) < 1)
      have e3 : eigList d = [((2 : ℚ) : WithTop ℚ), ((1 / 2 : ℚ) : WithTop ℚ)] := by
        simp [eigList, e1, e2]
      unfold bkTest
      rw [e3]
      simp only [List.take, List.drop, pyMax, pyMin, List.foldl_nil, bind, Except.bind, h3,
        if_true, pure, Except.pure, h4, decide_true]
    have hZ1 : d.Z.toBlocks₁₁ = 1 := by
      ext i j
      rw [Subsingleton.elim i j, Matrix.one_apply_eq]
      simp [d, Matrix.toBlocks₁₁]
    have hZ2 : d.Z.toBlocks₂₁ = 0 := by ext i j; simp [d, Matrix.toBlocks₂₁]
    have hS : d.S.toBlocks₁₁ = 1 := by ext i j; simp [d, A, pencilA, Matrix.toBlocks₁₁]
    have h3 : ruleFromQZ2 exactSolver d = .ok 0 := by
      unfold ruleFromQZ2 ruleFromQZ exactSolver
      rw [hZ1, hZ2, hS]
      simp [bind, Except.bind, pure, Except.pure]
    have hL : Matrix.of ((modelC v).Ltt (fun _ _ => 0)) = Matrix.of fun _ _ => (1 / 2 : ℚ) := by
      ext i a
      change (modelC v).Ltt (fun _ _ => 0) i a = _
      rw [Subsingleton.elim i 0, Subsingleton.elim a 0]
      simp [Problem.Ltt, Problem.f_x, Problem.f_S, Problem.f_X, Problem.g_x, modelC, c1]
      norm_num
    have hdet : IsUnit (Matrix.of ((modelC v).Ltt (fun _ _ => 0))).det := by
      rw [hL]
      simp
    have ht : (modelC v).Xtt (fun _ _ => 0) exactSolver ((modelC v).Xss (fun _ _ => 0) gaussLin) = .ok fun i =>
        ((Matrix.of ((modelC v).Ltt (fun _ _ => 0)))⁻¹ * Matrix.of fun i (_ : Fin 1) =>
          - (modelC v).Ktt (fun _ _ => 0) ((modelC v).Xss (fun _ _ => 0) gaussLin) i) i 0 := by
      unfold Problem.Xtt exactSolver
      rw [if_pos hdet]
      rfl
    unfold statePerturb selectRule2
    simp only [h1, h2, h3, bind, Except.bind, pure, Except.pure, higherOrders]
    simp only [Bool.not_true, if_true, Bool.false_eq_true, if_false]
    have hz : (0 : Matrix (Fin 1) (Fin 1) ℚ) = fun _ _ => 0 := rfl
    rw [hz, ht]
    simp

end Dolo
