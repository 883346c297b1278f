import Verif.Props.HigherOrder
import Verif.Props.HigherOrderFails
import Verif.Props.Taylor

/-!
# C149: how risk enters perturbation solutions
-/

set_option linter.unusedSectionVars false

namespace Dolo

variable {K : Type} [Field K] {ns nx ne : ℕ}

/-- The same model with another covariance matrix of the shocks. -/
def Problem.withRisk (p : Problem ns nx ne K) (sigma : Fin ne → Fin ne → K) : Problem ns nx ne K := { p with sigma := sigma }

/-! ### Linearity in the covariance matrix -/

private theorem expect_comb (p : Problem ns nx ne K) (s1 s2 : Fin ne → Fin ne → K) (a b : K) (T : Fin ne → Fin ne → K) :
    (p.withRisk fun i j => a * s1 i j + b * s2 i j).expect T = a * (p.withRisk s1).expect T + b * (p.withRisk s2).expect T := by
  simp only [Problem.expect, Problem.withRisk, Finset.mul_sum, ← Finset.sum_add_distrib]
  exact Finset.sum_congr rfl fun i _ => Finset.sum_congr rfl fun j _ => by ring

private theorem c1_comb {P : Type} [Fintype P] (T u v : P → K) (a b : K) :
    c1 T (fun i => a * u i + b * v i) = a * c1 T u + b * c1 T v := by
  simp only [c1, Finset.mul_sum, ← Finset.sum_add_distrib]
  exact Finset.sum_congr rfl fun i _ => by ring

private theorem c2_comb {P Q : Type} [Fintype P] [Fintype Q] (T : P → Q → K) (w : P → K) (u v : Q → K) (a b : K) :
    c2 T w (fun i => a * u i + b * v i) = a * c2 T w u + b * c2 T w v := by
  simp only [c2, Finset.mul_sum, ← Finset.sum_add_distrib]
  exact Finset.sum_congr rfl fun i _ => Finset.sum_congr rfl fun j _ => by ring

private theorem Ktt_comb (p : Problem ns nx ne K) (X_s : Fin nx → Fin ns → K) (X_ss : Fin nx → Fin ns → Fin ns → K)
    (s1 s2 : Fin ne → Fin ne → K) (a b : K) (i : Fin nx) :
    (p.withRisk fun i j => a * s1 i j + b * s2 i j).Ktt X_s X_ss i
      = a * (p.withRisk s1).Ktt X_s X_ss i + b * (p.withRisk s2).Ktt X_s X_ss i :=
  expect_comb p s1 s2 a b _

private theorem Dst_comb (p : Problem ns nx ne K) (X_s : Fin nx → Fin ns → K) (X_ss : Fin nx → Fin ns → Fin ns → K)
    (X_sss : Fin nx → Fin ns → Fin ns → Fin ns → K) (s1 s2 : Fin ne → Fin ne → K) (a b : K) (t1 t2 : Fin nx → K)
    (i : Fin nx) (k : Fin ns) :
    (p.withRisk fun i j => a * s1 i j + b * s2 i j).Dst X_s X_ss X_sss (fun i => a * t1 i + b * t2 i) i k
      = a * (p.withRisk s1).Dst X_s X_ss X_sss t1 i k + b * (p.withRisk s2).Dst X_s X_ss X_sss t2 i k := by
  have hW : ∀ z, (p.withRisk fun i j => a * s1 i j + b * s2 i j).DWll X_s (fun i => a * t1 i + b * t2 i) z
      = a * (p.withRisk s1).DWll X_s t1 z + b * (p.withRisk s2).DWll X_s t2 z := by
    intro z
    rcases z with (z | z) | (z | z)
    · simp [Problem.DWll]
    · rfl
    · exact c1_comb _ _ _ _ _
    · have : (fun k => c1 ((p.withRisk fun i j => a * s1 i j + b * s2 i j).g_x k) fun i => a * t1 i + b * t2 i)
          = fun k => a * c1 ((p.withRisk s1).g_x k) t1 + b * c1 ((p.withRisk s2).g_x k) t2 := by
        funext k
        exact c1_comb _ _ _ _ _
      simp only [Problem.DWll]
      rw [this, c1_comb]
      ring
  have hK : (p.withRisk fun i j => a * s1 i j + b * s2 i j).Kst X_s X_ss (fun i => a * t1 i + b * t2 i) i k
      = a * (p.withRisk s1).Kst X_s X_ss t1 i k + b * (p.withRisk s2).Kst X_s X_ss t2 i k := by
    unfold Problem.Kst
    rw [expect_comb, funext hW, c2_comb]
    simp only [mul_add]
    rw [add_add_add_comm]
    rfl
  have hL : ∀ l, (p.withRisk fun i j => a * s1 i j + b * s2 i j).Lst X_s (fun i => a * t1 i + b * t2 i) l k
      = a * (p.withRisk s1).Lst X_s t1 l k + b * (p.withRisk s2).Lst X_s t2 l k := by
    intro l
    unfold Problem.Lst
    rw [expect_comb, c1_comb, c2_comb]
    simp only [mul_add]
    have : ∀ A B C A' B' C' : K, A + A' + (B + B') + (C + C') = A + B + C + (A' + B' + C') := by intros; ring
    rw [this]
    rfl
  have hM : ∀ j, (p.withRisk fun i j => a * s1 i j + b * s2 i j).Mst X_s X_ss X_sss (fun i => a * t1 i + b * t2 i) j k
      = a * (p.withRisk s1).Mst X_s X_ss X_sss t1 j k + b * (p.withRisk s2).Mst X_s X_ss X_sss t2 j k := by
    intro j
    have h1 : (fun k => (p.withRisk fun i j => a * s1 i j + b * s2 i j).expect
          ((p.withRisk fun i j => a * s1 i j + b * s2 i j).g_ee k)
          + c1 ((p.withRisk fun i j => a * s1 i j + b * s2 i j).g_x k) fun i => a * t1 i + b * t2 i)
        = fun k => a * ((p.withRisk s1).expect ((p.withRisk s1).g_ee k) + c1 ((p.withRisk s1).g_x k) t1)
          + b * ((p.withRisk s2).expect ((p.withRisk s2).g_ee k) + c1 ((p.withRisk s2).g_x k) t2) := by
      funext k
      rw [expect_comb, c1_comb]
      simp only [mul_add]
      rw [add_add_add_comm]
      rfl
    unfold Problem.Mst
    rw [h1, expect_comb, c2_comb]
    simp only [mul_add]
    rw [add_add_add_comm]
    rfl
  unfold Problem.Dst
  rw [hK, funext hL, funext hM, c1_comb, c1_comb]
  simp only [mul_add]
  have : ∀ A B C A' B' C' : K, A + A' + (B + B') + (C + C') = A + B + C + (A' + B' + C') := by intros; ring
  rw [this]
  rfl

private theorem Xtt_comb (solve : MatSolver K) (hsolve : solve.Correct) (p : Problem ns nx ne K)
    (X_s : Fin nx → Fin ns → K) (X_ss : Fin nx → Fin ns → Fin ns → K) (s1 s2 : Fin ne → Fin ne → K) (a b : K)
    (t t1 t2 : Fin nx → K) (h1 : (p.withRisk s1).Xtt X_s solve X_ss = .ok t1)
    (h2 : (p.withRisk s2).Xtt X_s solve X_ss = .ok t2)
    (h : (p.withRisk fun i j => a * s1 i j + b * s2 i j).Xtt X_s solve X_ss = .ok t) :
    ∀ i, t i = a * t1 i + b * t2 i := by
  have key : ∀ (q : Problem ns nx ne K) (u : Fin nx → K), q.Xtt X_s solve X_ss = .ok u →
      IsUnit (Matrix.of (q.Ltt X_s)).det ∧ Matrix.mulVec (Matrix.of (q.Ltt X_s)) u = fun i => - q.Ktt X_s X_ss i := by
    intro q u hu
    unfold Problem.Xtt at hu
    rcases hX : solve nx 1 (Matrix.of (q.Ltt X_s)) (Matrix.of fun i _ => - q.Ktt X_s X_ss i) with e | X
    · rw [hX] at hu; cases hu
    · rw [hX] at hu
      cases hu
      obtain ⟨hdet, hs⟩ := hsolve _ _ _ _ _ hX
      refine ⟨hdet, ?_⟩
      funext i
      have := congrFun (congrFun hs i) 0
      simpa [Matrix.mul_apply, Matrix.mulVec, dotProduct] using this
  obtain ⟨hdet, e⟩ := key _ t h
  have e1 := (key _ t1 h1).2
  have e2 := (key _ t2 h2).2
  have hL : ∀ s, (p.withRisk s).Ltt X_s = p.Ltt X_s := fun s => rfl
  rw [hL] at e e1 e2 hdet
  have : Matrix.mulVec (Matrix.of (p.Ltt X_s)) t = Matrix.mulVec (Matrix.of (p.Ltt X_s)) (a • t1 + b • t2) := by
    rw [Matrix.mulVec_add, Matrix.mulVec_smul, Matrix.mulVec_smul, e, e1, e2]
    funext i
    rw [Ktt_comb]
    simp only [Pi.add_apply, Pi.smul_apply, smul_eq_mul]
    ring
  have := Matrix.mulVec_injective_of_isUnit ((Matrix.isUnit_iff_isUnit_det _).2 hdet) this
  intro i
  rw [this]
  rfl

private theorem Xstt_comb (lsolve : LinSolver K) (hlsolve : lsolve.Correct) (p : Problem ns nx ne K)
    (X_s : Fin nx → Fin ns → K) (hreg : RegularN 1 (p.sylA X_s) p.f_X (p.V1_3 X_s)) (X_ss : Fin nx → Fin ns → Fin ns → K)
    (X_sss : Fin nx → Fin ns → Fin ns → Fin ns → K) (s1 s2 : Fin ne → Fin ne → K) (a b : K) (t1 t2 : Fin nx → K)
    (i : Fin nx) (k : Fin ns) :
    (p.withRisk fun i j => a * s1 i j + b * s2 i j).Xstt X_s X_ss X_sss (fun i => a * t1 i + b * t2 i) lsolve i k
      = a * (p.withRisk s1).Xstt X_s X_ss X_sss t1 lsolve i k + b * (p.withRisk s2).Xstt X_s X_ss X_sss t2 lsolve i k := by
  have key : ∀ (D : Fin nx → Fin ns → K) (i : Fin nx) (k : Fin ns),
      ∑ l, p.sylA X_s i l * sylvester1 lsolve (p.sylA X_s) p.f_X (p.V1_3 X_s) D l k
        + ∑ l, p.f_X i l * ∑ m, sylvester1 lsolve (p.sylA X_s) p.f_X (p.V1_3 X_s) D l m * p.V1_3 X_s m k + D i k = 0 := by
    intro D i k
    have h := congrFun (congrFun (congrArg DFunLike.coe (sylvester1_spec lsolve hlsolve D hreg)) (Pi.single k 1)) i
    simpa [L1_single, L1_apply, c1] using h
  have hz := hreg (fun i l => (p.withRisk fun i j => a * s1 i j + b * s2 i j).Xstt X_s X_ss X_sss
      (fun i => a * t1 i + b * t2 i) lsolve i (l 0)
      - (a * (p.withRisk s1).Xstt X_s X_ss X_sss t1 lsolve i (l 0)
        + b * (p.withRisk s2).Xstt X_s X_ss X_sss t2 lsolve i (l 0))) ?_
  · have := congrFun (congrFun hz i) (fun _ => k)
    exact sub_eq_zero.1 this
  · intro i j
    have k0 : ∀ D, D = (p.withRisk fun i j => a * s1 i j + b * s2 i j).Dst X_s X_ss X_sss (fun i => a * t1 i + b * t2 i) → _ :=
      fun D _ => key D i (j 0)
    have k0 := k0 _ rfl
    have k1 := key ((p.withRisk s1).Dst X_s X_ss X_sss t1) i (j 0)
    have k2 := key ((p.withRisk s2).Dst X_s X_ss X_sss t2) i (j 0)
    rw [Dst_comb] at k0
    have e0 : sylvester1 lsolve (p.sylA X_s) p.f_X (p.V1_3 X_s)
        ((p.withRisk fun i j => a * s1 i j + b * s2 i j).Dst X_s X_ss X_sss (fun i => a * t1 i + b * t2 i))
        = (p.withRisk fun i j => a * s1 i j + b * s2 i j).Xstt X_s X_ss X_sss (fun i => a * t1 i + b * t2 i) lsolve := rfl
    have e1 : sylvester1 lsolve (p.sylA X_s) p.f_X (p.V1_3 X_s) ((p.withRisk s1).Dst X_s X_ss X_sss t1)
        = (p.withRisk s1).Xstt X_s X_ss X_sss t1 lsolve := rfl
    have e2 : sylvester1 lsolve (p.sylA X_s) p.f_X (p.V1_3 X_s) ((p.withRisk s2).Dst X_s X_ss X_sss t2)
        = (p.withRisk s2).Xstt X_s X_ss X_sss t2 lsolve := rfl
    rw [e0] at k0
    rw [e1] at k1
    rw [e2] at k2
    generalize (p.withRisk fun i j => a * s1 i j + b * s2 i j).Xstt X_s X_ss X_sss (fun i => a * t1 i + b * t2 i) lsolve
      = Y at k0 ⊢
    generalize (p.withRisk s1).Xstt X_s X_ss X_sss t1 lsolve = Y1 at k1 ⊢
    generalize (p.withRisk s2).Xstt X_s X_ss X_sss t2 lsolve = Y2 at k2 ⊢
    generalize (p.withRisk s1).Dst X_s X_ss X_sss t1 i (j 0) = d1 at k0 k1
    generalize (p.withRisk s2).Dst X_s X_ss X_sss t2 i (j 0) = d2 at k0 k2
    simp only [sum_arrow_succ, Fintype.sum_unique, Finset.univ_unique, Finset.prod_singleton, Finset.sum_singleton, Fin.default_eq_zero,
      Fin.cons_zero]
    have hs : ∀ l, ∑ m, (Y l m - (a * Y1 l m + b * Y2 l m)) * p.V1_3 X_s m (j 0)
        = ∑ m, Y l m * p.V1_3 X_s m (j 0) - (a * ∑ m, Y1 l m * p.V1_3 X_s m (j 0) + b * ∑ m, Y2 l m * p.V1_3 X_s m (j 0)) := by
      intro l
      simp only [Finset.mul_sum, ← Finset.sum_add_distrib, ← Finset.sum_sub_distrib]
      exact Finset.sum_congr rfl fun m _ => by ring
    have hc : ∀ (u v v1 v2 : Fin nx → K), ∑ l, u l * (v l - (a * v1 l + b * v2 l))
        = ∑ l, u l * v l - (a * ∑ l, u l * v1 l + b * ∑ l, u l * v2 l) := by
      intro u v v1 v2
      simp only [Finset.mul_sum, ← Finset.sum_add_distrib, ← Finset.sum_sub_distrib]
      exact Finset.sum_congr rfl fun m _ => by ring
    simp only [hs]
    rw [hc, hc (p.f_X i)]
    linear_combination k0 - a * k1 - b * k2

section orders

variable [LinearOrder K] (solve : MatSolver K) (lsolve : LinSolver K)
  (qz : Matrix (Fin ns ⊕ Fin nx) (Fin ns ⊕ Fin nx) K → Matrix (Fin ns ⊕ Fin nx) (Fin ns ⊕ Fin nx) K → K →
    QZ (Fin ns ⊕ Fin nx) K) (cut : WithTop K → WithTop K → K) (p : Problem ns nx ne K)

/-- **C149, certainty equivalence.**  The first-order solution does not depend on the covariance matrix of the shocks. -/
theorem C149_first_order (s1 s2 : Fin ne → Fin ne → K) :
    statePerturb solve lsolve qz cut (p.withRisk s1) 1 = statePerturb solve lsolve qz cut (p.withRisk s2) 1 := by
  simp only [statePerturb, higherOrders, one_ne_zero, if_false, if_true]
  rfl

theorem second_inv {order : ℕ} {p : Problem ns nx ne K} {X_s : Fin nx → Fin ns → K} {X_ss t w}
    (h : statePerturb solve lsolve qz cut p order = .ok (.second X_s X_ss t, w)) :
    ∃ C, selectRule2 solve (qz (pencilA (Matrix.of p.f_S) (Matrix.of p.f_X))
        (pencilB (Matrix.of p.g_s) (Matrix.of p.g_x) (Matrix.of p.f_s) (Matrix.of p.f_x)) (1 - 1 / 10 ^ 8))
        (qz (pencilA (Matrix.of p.f_S) (Matrix.of p.f_X))
          (pencilB (Matrix.of p.g_s) (Matrix.of p.g_x) (Matrix.of p.f_s) (Matrix.of p.f_x))) cut = .ok (C, w) ∧
      X_s = C ∧ X_ss = p.Xss C lsolve ∧ p.Xtt C solve (p.Xss C lsolve) = .ok t := by
  unfold statePerturb at h
  by_cases h0 : order = 0
  · rw [if_pos h0] at h; cases h
  rw [if_neg h0] at h
  rcases hC : selectRule2 solve (qz (pencilA (Matrix.of p.f_S) (Matrix.of p.f_X))
        (pencilB (Matrix.of p.g_s) (Matrix.of p.g_x) (Matrix.of p.f_s) (Matrix.of p.f_x)) (1 - 1 / 10 ^ 8))
        (qz (pencilA (Matrix.of p.f_S) (Matrix.of p.f_X))
          (pencilB (Matrix.of p.g_s) (Matrix.of p.g_x) (Matrix.of p.f_s) (Matrix.of p.f_x))) cut with e | ⟨C, w'⟩
  · simp only [hC] at h; cases h
  simp only [hC, bind, Except.bind, pure, Except.pure] at h
  unfold higherOrders at h
  by_cases h1 : order = 1
  · simp only [h1, if_true] at h; cases h
  simp only [h1, if_false, bind, Except.bind, pure, Except.pure] at h
  rcases hX : p.Xtt C solve (p.Xss C lsolve) with e | u
  · rw [hX] at h; cases h
  rw [hX] at h
  by_cases h2 : order = 2
  · simp only [h2, if_true] at h
    cases h
    exact ⟨_, rfl, rfl, rfl, hX⟩
  simp only [h2, if_false] at h
  by_cases h3 : order = 3
  · simp only [h3, if_true] at h; cases h
  · simp only [h3, if_false] at h; cases h

private theorem third_inv {order : ℕ} {p : Problem ns nx ne K} {X_s : Fin nx → Fin ns → K} {X_ss X_sss t r w}
    (h : statePerturb solve lsolve qz cut p order = .ok (.third X_s X_ss X_sss t r, w)) :
    ∃ C, selectRule2 solve (qz (pencilA (Matrix.of p.f_S) (Matrix.of p.f_X))
        (pencilB (Matrix.of p.g_s) (Matrix.of p.g_x) (Matrix.of p.f_s) (Matrix.of p.f_x)) (1 - 1 / 10 ^ 8))
        (qz (pencilA (Matrix.of p.f_S) (Matrix.of p.f_X))
          (pencilB (Matrix.of p.g_s) (Matrix.of p.g_x) (Matrix.of p.f_s) (Matrix.of p.f_x))) cut = .ok (C, w) ∧
      X_s = C ∧ X_ss = p.Xss C lsolve ∧ p.Xtt C solve (p.Xss C lsolve) = .ok t ∧
      X_sss = p.Xsss C (p.Xss C lsolve) lsolve ∧ r = p.Xstt C (p.Xss C lsolve) (p.Xsss C (p.Xss C lsolve) lsolve) t lsolve := by
  unfold statePerturb at h
  by_cases h0 : order = 0
  · rw [if_pos h0] at h; cases h
  rw [if_neg h0] at h
  rcases hC : selectRule2 solve (qz (pencilA (Matrix.of p.f_S) (Matrix.of p.f_X))
        (pencilB (Matrix.of p.g_s) (Matrix.of p.g_x) (Matrix.of p.f_s) (Matrix.of p.f_x)) (1 - 1 / 10 ^ 8))
        (qz (pencilA (Matrix.of p.f_S) (Matrix.of p.f_X))
          (pencilB (Matrix.of p.g_s) (Matrix.of p.g_x) (Matrix.of p.f_s) (Matrix.of p.f_x))) cut with e | ⟨C, w'⟩
  · simp only [hC] at h; cases h
  simp only [hC, bind, Except.bind, pure, Except.pure] at h
  unfold higherOrders at h
  by_cases h1 : order = 1
  · simp only [h1, if_true] at h; cases h
  simp only [h1, if_false, bind, Except.bind, pure, Except.pure] at h
  rcases hX : p.Xtt C solve (p.Xss C lsolve) with e | u
  · rw [hX] at h; cases h
  rw [hX] at h
  by_cases h2 : order = 2
  · simp only [h2, if_true] at h; cases h
  simp only [h2, if_false] at h
  by_cases h3 : order = 3
  · simp only [h3, if_true] at h
    cases h
    exact ⟨_, rfl, rfl, rfl, hX, rfl, rfl⟩
  · simp only [h3, if_false] at h; cases h

/-- **C149, second order.**  The coefficients of the states and the warning do not depend on the covariance matrix; the
correction for risk is a constant, linear in the covariance matrix. -/
theorem C149_second_order (hsolve : solve.Correct) (s1 s2 : Fin ne → Fin ne → K) (a b : K)
    (X_s X_s1 X_s2 : Fin nx → Fin ns → K) (X_ss X_ss1 X_ss2 : Fin nx → Fin ns → Fin ns → K) (t t1 t2 : Fin nx → K)
    (w w1 w2 : Bool)
    (h1 : statePerturb solve lsolve qz cut (p.withRisk s1) 2 = .ok (.second X_s1 X_ss1 t1, w1))
    (h2 : statePerturb solve lsolve qz cut (p.withRisk s2) 2 = .ok (.second X_s2 X_ss2 t2, w2))
    (h : statePerturb solve lsolve qz cut (p.withRisk fun i j => a * s1 i j + b * s2 i j) 2 = .ok (.second X_s X_ss t, w)) :
    X_s1 = X_s2 ∧ X_s = X_s1 ∧ X_ss1 = X_ss2 ∧ X_ss = X_ss1 ∧ w1 = w2 ∧ w = w1 ∧ ∀ i, t i = a * t1 i + b * t2 i := by
  obtain ⟨C, hC, rfl, rfl, hX⟩ := second_inv solve lsolve qz cut h
  obtain ⟨C1, hC1, rfl, rfl, hX1⟩ := second_inv solve lsolve qz cut h1
  obtain ⟨C2, hC2, rfl, rfl, hX2⟩ := second_inv solve lsolve qz cut h2
  have e1 := hC.symm.trans hC1
  have e2 := hC.symm.trans hC2
  simp only [Except.ok.injEq, Prod.mk.injEq] at e1 e2
  obtain ⟨rfl, rfl⟩ := e1
  obtain ⟨rfl, rfl⟩ := e2
  exact ⟨rfl, rfl, rfl, rfl, rfl, rfl, Xtt_comb solve hsolve p _ _ s1 s2 a b t t1 t2 hX1 hX2 hX⟩

/-- **C149, third order.**  As at the second order, and the correction of the coefficients of the states is linear in the
covariance matrix, too. -/
theorem C149_third_order (hsolve : solve.Correct) (hlsolve : lsolve.Correct) (s1 s2 : Fin ne → Fin ne → K) (a b : K)
    (X_s X_s1 X_s2 : Fin nx → Fin ns → K) (X_ss X_ss1 X_ss2 : Fin nx → Fin ns → Fin ns → K)
    (X_sss X_sss1 X_sss2 : Fin nx → Fin ns → Fin ns → Fin ns → K) (t t1 t2 : Fin nx → K) (r r1 r2 : Fin nx → Fin ns → K)
    (w w1 w2 : Bool) (hreg : RegularN 1 (p.sylA X_s) p.f_X (p.V1_3 X_s))
    (h1 : statePerturb solve lsolve qz cut (p.withRisk s1) 3 = .ok (.third X_s1 X_ss1 X_sss1 t1 r1, w1))
    (h2 : statePerturb solve lsolve qz cut (p.withRisk s2) 3 = .ok (.third X_s2 X_ss2 X_sss2 t2 r2, w2))
    (h : statePerturb solve lsolve qz cut (p.withRisk fun i j => a * s1 i j + b * s2 i j) 3
      = .ok (.third X_s X_ss X_sss t r, w)) :
    (X_s1 = X_s2 ∧ X_s = X_s1 ∧ X_ss1 = X_ss2 ∧ X_ss = X_ss1 ∧ X_sss1 = X_sss2 ∧ X_sss = X_sss1 ∧ w1 = w2 ∧ w = w1) ∧
    (∀ i, t i = a * t1 i + b * t2 i) ∧ ∀ i k, r i k = a * r1 i k + b * r2 i k := by
  obtain ⟨C, hC, rfl, rfl, hX, rfl, rfl⟩ := third_inv solve lsolve qz cut h
  obtain ⟨C1, hC1, rfl, rfl, hX1, rfl, rfl⟩ := third_inv solve lsolve qz cut h1
  obtain ⟨C2, hC2, rfl, rfl, hX2, rfl, rfl⟩ := third_inv solve lsolve qz cut h2
  have e1 := hC.symm.trans hC1
  have e2 := hC.symm.trans hC2
  simp only [Except.ok.injEq, Prod.mk.injEq] at e1 e2
  obtain ⟨rfl, rfl⟩ := e1
  obtain ⟨rfl, rfl⟩ := e2
  have ht := Xtt_comb solve hsolve p _ _ s1 s2 a b t t1 t2 hX1 hX2 hX
  refine ⟨⟨rfl, rfl, rfl, rfl, rfl, rfl, rfl, rfl⟩, ht, fun i k => ?_⟩
  rw [funext ht]
  exact Xstt_comb lsolve hlsolve p _ hreg _ _ s1 s2 a b t1 t2 i k

/-- **C149, the orders are nested.**  If the model is solved at the second order then it is solved at the third order,
with the same coefficients of first and second order and the same correction for risk. -/
theorem C149_nested (X_s : Fin nx → Fin ns → K) (X_ss : Fin nx → Fin ns → Fin ns → K) (t : Fin nx → K) (w : Bool)
    (h : statePerturb solve lsolve qz cut p 2 = .ok (.second X_s X_ss t, w)) :
    statePerturb solve lsolve qz cut p 1 = .ok (.first X_s, w) ∧
    ∃ X_sss r, statePerturb solve lsolve qz cut p 3 = .ok (.third X_s X_ss X_sss t r, w) := by
  obtain ⟨C, hC, rfl, rfl, hX⟩ := second_inv solve lsolve qz cut h
  constructor
  · simp only [statePerturb, hC, higherOrders, one_ne_zero, if_false, if_true, bind, Except.bind, pure, Except.pure]
  · refine ⟨p.Xsss X_s (p.Xss X_s lsolve) lsolve, p.Xstt X_s (p.Xss X_s lsolve) (p.Xsss X_s (p.Xss X_s lsolve) lsolve) t lsolve, ?_⟩
    simp only [statePerturb, hC, higherOrders, hX, bind, Except.bind, pure, Except.pure]
    rfl

/-- **C149, the rule.**  The rules returned by `perturb` at the second order for two covariance matrices have the same
transition of states `A`, `B`, and differ by a constant: risk shifts decisions by the same amount in all states. -/
theorem C149_rule (nm : ℕ) (s1 s2 : Fin ne → Fin ne → K) (s_bar : Fin ns → K) (x_bar : Fin nx → K)
    (X_s1 X_s2 : Fin nx → Fin ns → K) (X_ss1 X_ss2 : Fin nx → Fin ns → Fin ns → K) (t1 t2 : Fin nx → K) (w1 w2 : Bool)
    (dr1 dr2 : TaylorExp ns nx K) (AB1 AB2 : Option ((Fin ns → Fin ns → K) × (Fin ns → Fin ne → K)))
    (h1 : statePerturb solve lsolve qz cut (p.withRisk s1) 2 = .ok (.second X_s1 X_ss1 t1, w1))
    (h2 : statePerturb solve lsolve qz cut (p.withRisk s2) 2 = .ok (.second X_s2 X_ss2 t2, w2))
    (hd1 : pertRule (p.withRisk s1) s_bar x_bar (.second X_s1 X_ss1 t1) = .ok (some (dr1, AB1)))
    (hd2 : pertRule (p.withRisk s2) s_bar x_bar (.second X_s2 X_ss2 t2) = .ok (some (dr2, AB2))) :
    AB1 = AB2 ∧ ∀ s, ∃ x, (dr1.ops nm).call1 (.vec s) = .ok (.vec x) ∧
      (dr2.ops nm).call1 (.vec s) = .ok (.vec fun i => x i + (t2 i - t1 i) / 2) := by
  obtain ⟨C1, hC1, rfl, rfl, -⟩ := second_inv solve lsolve qz cut h1
  obtain ⟨C2, hC2, rfl, rfl, -⟩ := second_inv solve lsolve qz cut h2
  have e2 := hC1.symm.trans hC2
  simp only [Except.ok.injEq, Prod.mk.injEq] at e2
  obtain ⟨rfl, rfl⟩ := e2
  cases hd1
  cases hd2
  refine ⟨rfl, fun s => ⟨_, ((C56_evaluates nm s_bar _ X_s1 (.two _)).1 _ rfl).1 s, ?_⟩⟩
  refine (((C56_evaluates nm s_bar _ X_s1 (.two _)).1 _ rfl).1 s).trans ?_
  congr 2
  funext i
  have hX : (p.withRisk s2).Xss X_s1 lsolve = (p.withRisk s1).Xss X_s1 lsolve := rfl
  rw [hX]
  simp only [taylorValue]
  ring

end orders

/-- The hypotheses of `C149_second_order`, `C149_third_order` and `C149_rule` are met: the same model is solved for all variances. -/
example : ∃ (qz : Matrix (Fin 1 ⊕ Fin 1) (Fin 1 ⊕ Fin 1) ℚ → Matrix (Fin 1 ⊕ Fin 1) (Fin 1 ⊕ Fin 1) ℚ → ℚ → QZ (Fin 1 ⊕ Fin 1) ℚ)
    (X_s : Fin 1 → Fin 1 → ℚ), ∀ v, ∃ X_ss X_tt,
    statePerturb exactSolver gaussLin qz (fun _ _ => 0) ((modelC 0).withRisk fun _ _ => v) 2
      = .ok (.second X_s X_ss X_tt, false) ∧
    (∃ X_sss r, statePerturb exactSolver gaussLin qz (fun _ _ => 0) ((modelC 0).withRisk fun _ _ => v) 3
      = .ok (.third X_s X_ss X_sss X_tt r, false)) ∧
    ∃ dr AB, pertRule ((modelC 0).withRisk fun _ _ => v) (fun _ => 1) (fun _ => 2) (.second X_s X_ss X_tt)
      = .ok (some (dr, AB)) := by
  obtain ⟨qz, X_s, h⟩ := modelC_perturb
  refine ⟨qz, X_s, fun v => ?_⟩
  obtain ⟨X_ss, X_tt, -, -, h3⟩ := h v
  exact ⟨X_ss, X_tt, h3, (C149_nested exactSolver gaussLin qz _ _ _ _ _ _ h3).2, _, _, rfl⟩

end Dolo
