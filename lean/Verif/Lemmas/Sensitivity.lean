import Mathlib.Analysis.Calculus.ImplicitContDiff
import Mathlib.Analysis.Calculus.ContDiff.Operations
import Mathlib.Analysis.Matrix.Normed
import Mathlib.Analysis.Calculus.LineDeriv.Basic
import Mathlib.Topology.Instances.Matrix
import Mathlib.Topology.Algebra.Module.FiniteDimension
import Verif.Props.BlanchardKahn

/-!
# Deflation of the pencil at a solution, and solutions of nearby models
-/

set_option linter.unusedSectionVars false

namespace Dolo

open Matrix Polynomial

section
variable {ns nx : ℕ} {g_s : Matrix (Fin ns) (Fin ns) ℝ} {g_x : Matrix (Fin ns) (Fin nx) ℝ}
  {f_s : Matrix (Fin nx) (Fin ns) ℝ} {f_x : Matrix (Fin nx) (Fin nx) ℝ}
  {f_S : Matrix (Fin nx) (Fin ns) ℝ} {f_X : Matrix (Fin nx) (Fin nx) ℝ} {C : Matrix (Fin nx) (Fin ns) ℝ}

/-- Reaction of the arbitrage equations to the controls of today, given the rule of tomorrow. -/
def deflated (g_x : Matrix (Fin ns) (Fin nx) ℝ) (f_x : Matrix (Fin nx) (Fin nx) ℝ) (f_S : Matrix (Fin nx) (Fin ns) ℝ)
    (f_X : Matrix (Fin nx) (Fin nx) ℝ) (C : Matrix (Fin nx) (Fin ns) ℝ) : Matrix (Fin nx) (Fin nx) ℝ :=
  f_x + (f_S + f_X * C) * g_x

theorem pencil_factor (hC : LinearSolution g_s g_x f_s f_x f_S f_X C) :
    pencilPoly (pencilA f_S f_X) (pencilB g_s g_x f_s f_x)
      = pencilPoly 1 (g_s + g_x * C) * pencilPoly (-f_X) (deflated g_x f_x f_S f_X C) := by
  set L : Matrix (Fin ns ⊕ Fin nx) (Fin ns ⊕ Fin nx) ℝ := fromBlocks 1 0 (f_S + f_X * C) 1 with hL
  set T : Matrix (Fin ns ⊕ Fin nx) (Fin ns ⊕ Fin nx) ℝ := fromBlocks 1 0 C 1 with hT
  have eA : L * pencilA f_S f_X * T = fromBlocks 1 0 0 (-f_X) := by
    simp only [hL, hT, pencilA, fromBlocks_multiply]
    congr 1 <;> simp
  have eB : L * pencilB g_s g_x f_s f_x * T = fromBlocks (g_s + g_x * C) g_x 0 (deflated g_x f_x f_S f_X C) := by
    simp only [hL, hT, pencilB, fromBlocks_multiply, deflated]
    congr 1
    · simp
    · simp
    · rw [← hC]; simp only [Matrix.one_mul, Matrix.mul_one, Matrix.add_mul, Matrix.mul_add, Matrix.mul_assoc]; abel
    · simp only [Matrix.one_mul, Matrix.mul_one, Matrix.mul_zero, zero_add]; abel
  have hm : ∀ M N : Matrix (Fin ns ⊕ Fin nx) (Fin ns ⊕ Fin nx) ℝ, cMat (M * N) = cMat M * cMat N := fun M N =>
    map_mul (Complex.ofRealHom.mapMatrix (m := Fin ns ⊕ Fin nx)) M N
  have cdet : ∀ {J : Type} [Fintype J] [DecidableEq J] (M : Matrix J J ℝ), (cMat M).det = ((M.det : ℝ) : ℂ) :=
    fun M => by rw [← Complex.ofRealHom_eq_coe, RingHom.map_det]; rfl
  have dL : (cMat L).det = 1 := by rw [cdet, hL, det_fromBlocks_zero₁₂, det_one, det_one]; simp
  have dT : (cMat T).det = 1 := by rw [cdet, hT, det_fromBlocks_zero₁₂, det_one, det_one]; simp
  refine Polynomial.funext fun z => ?_
  rw [eval_mul, pencilPoly_eval, pencilPoly_eval, pencilPoly_eval]
  have e : cMat L * (z • cMat (pencilA f_S f_X) - cMat (pencilB g_s g_x f_s f_x)) * cMat T
      = fromBlocks (z • cMat 1 - cMat (g_s + g_x * C)) (- cMat g_x) 0 (z • cMat (-f_X) - cMat (deflated g_x f_x f_S f_X C)) := by
    rw [Matrix.mul_sub, Matrix.sub_mul, Matrix.mul_smul, Matrix.smul_mul, ← hm, ← hm, ← hm, ← hm, eA, eB]
    ext i j
    rcases i with i | i <;> rcases j with j | j <;> simp
    left
    rw [one_apply, one_apply]
    split_ifs <;> simp
  have := congrArg det e
  rw [det_mul, det_mul, dL, dT, one_mul, mul_one, det_fromBlocks_zero₂₁] at this
  exact this

theorem eigenvalue_iff {n : ℕ} (P : Matrix (Fin n) (Fin n) ℝ) (z : ℂ) :
    IsEigenvalue P z ↔ (z • cMat (1 : Matrix (Fin n) (Fin n) ℝ) - cMat P).det = 0 := by
  have hone : cMat (1 : Matrix (Fin n) (Fin n) ℝ) = 1 := map_one (Complex.ofRealHom.mapMatrix (m := Fin n))
  rw [hone, ← Matrix.exists_mulVec_eq_zero_iff]
  refine exists_congr fun v => and_congr Iff.rfl ?_
  rw [sub_mulVec, smul_mulVec, one_mulVec, sub_eq_zero]
  exact eq_comm

theorem stable_iff {n : ℕ} (P : Matrix (Fin n) (Fin n) ℝ) :
    (∀ z, IsEigenvalue P z → ‖z‖ < 1) ↔
      ∀ w : ℂ, ‖w‖ ≤ 1 → (w • cMat P - cMat (1 : Matrix (Fin n) (Fin n) ℝ)).det ≠ 0 := by
  have hone : cMat (1 : Matrix (Fin n) (Fin n) ℝ) = 1 := map_one (Complex.ofRealHom.mapMatrix (m := Fin n))
  constructor
  · intro h w hw h0
    by_cases hw0 : w = 0
    · rw [hw0, zero_smul, zero_sub, det_neg, hone, det_one] at h0
      simp at h0
    have := h w⁻¹ ((eigenvalue_iff _ _).2 ?_)
    · rw [norm_inv, inv_lt_one₀ (norm_pos_iff.2 hw0)] at this
      exact absurd this (not_lt.2 hw)
    · have e : w⁻¹ • cMat (1 : Matrix (Fin n) (Fin n) ℝ) - cMat P = (-w⁻¹) • (w • cMat P - cMat 1) := by
        rw [smul_sub, smul_smul, neg_mul, inv_mul_cancel₀ hw0]
        simp [sub_eq_add_neg, add_comm]
      rw [e, det_smul, h0, mul_zero]
  · intro h z hz
    by_contra hn
    have hz1 : 1 ≤ ‖z‖ := not_lt.1 hn
    have hz0 : z ≠ 0 := norm_pos_iff.1 (lt_of_lt_of_le one_pos hz1)
    refine h z⁻¹ (by rw [norm_inv]; exact inv_le_one_of_one_le₀ hz1) ?_
    have e : z⁻¹ • cMat P - cMat (1 : Matrix (Fin n) (Fin n) ℝ) = (-z⁻¹) • (z • cMat 1 - cMat P) := by
      rw [smul_sub, smul_smul, neg_mul, inv_mul_cancel₀ hz0]
      simp [sub_eq_add_neg, add_comm]
    rw [e, det_smul, (eigenvalue_iff _ _).1 hz, mul_zero]

/-- At a stable solution the conditions of Blanchard and Kahn say that the deflated pencil has no root in the closed
unit disc. -/
theorem bk_iff (hC : LinearSolution g_s g_x f_s f_x f_S f_X C) (hP : ∀ z, IsEigenvalue (g_s + g_x * C) z → ‖z‖ < 1) :
    BlanchardKahn g_s g_x f_s f_x f_S f_X ↔
      ∀ w : ℂ, ‖w‖ ≤ 1 → (w • cMat (-f_X) - cMat (deflated g_x f_x f_S f_X C)).det ≠ 0 := by
  obtain ⟨hP0, hPc⟩ := pencilPoly_degree (A := (1 : Matrix (Fin ns) (Fin ns) ℝ)) (by simp) (g_s + g_x * C)
  rw [Fintype.card_fin] at hPc
  have memP : ∀ z ∈ (pencilPoly 1 (g_s + g_x * C)).roots, ‖z‖ < 1 := fun z hz =>
    hP z ((eigenvalue_iff _ _).2 (by rw [← pencilPoly_eval]; exact (mem_roots'.1 hz).2))
  have hf := pencil_factor hC
  constructor
  · rintro ⟨reg, count, off⟩ w hw h0
    rw [hf] at reg count
    have hQ0 := right_ne_zero_of_mul reg
    rw [roots_mul reg, Multiset.filter_add, Multiset.filter_eq_self.2 memP, Multiset.card_add, hPc] at count
    have h1 : ((pencilPoly (-f_X) (deflated g_x f_x f_S f_X C)).roots.filter fun z => ‖z‖ < 1) = 0 := by
      rw [← Multiset.card_eq_zero]; omega
    have hoff := off w (by rw [← pencilPoly_eval, hf, eval_mul, pencilPoly_eval (-f_X), h0, mul_zero])
    have hmem : w ∈ (pencilPoly (-f_X) (deflated g_x f_x f_S f_X C)).roots :=
      (mem_roots hQ0).2 (by rw [IsRoot.def, pencilPoly_eval, h0])
    exact Multiset.filter_eq_nil.1 h1 w hmem (lt_of_le_of_ne hw hoff)
  · intro h
    have hQ0 : pencilPoly (-f_X) (deflated g_x f_x f_S f_X C) ≠ 0 := by
      intro h0
      refine h 0 (by simp) ?_
      rw [← pencilPoly_eval, h0, eval_zero]
    have hne := mul_ne_zero hP0 hQ0
    refine ⟨by rw [hf]; exact hne, ?_, fun z hz h1 => ?_⟩
    · rw [hf, roots_mul hne, Multiset.filter_add, Multiset.filter_eq_self.2 memP, Multiset.filter_eq_nil.2, add_zero, hPc]
      intro z hz hz1
      exact h z hz1.le (by rw [← pencilPoly_eval]; exact (mem_roots'.1 hz).2)
    · rw [← pencilPoly_eval, hf, eval_mul, mul_eq_zero, pencilPoly_eval, pencilPoly_eval] at hz
      rcases hz with hz | hz
      · exact absurd h1 (hP z ((eigenvalue_iff _ _).2 hz)).ne
      · exact h z h1.le hz

/-- No root in the closed unit disc: an open condition. -/
theorem disc_open {n : ℕ} {X : Type} [TopologicalSpace X] {x0 : X} {S T : X → Matrix (Fin n) (Fin n) ℝ}
    (hS : ContinuousAt S x0) (hT : ContinuousAt T x0)
    (h : ∀ w : ℂ, ‖w‖ ≤ 1 → (w • cMat (S x0) - cMat (T x0)).det ≠ 0) :
    ∀ᶠ x in nhds x0, ∀ w : ℂ, ‖w‖ ≤ 1 → (w • cMat (S x) - cMat (T x)).det ≠ 0 := by
  have hK : IsCompact (Metric.closedBall (0 : ℂ) 1) := isCompact_closedBall 0 1
  have := hK.eventually_forall_of_forall_eventually (x₀ := x0)
    (P := fun x w => (w • cMat (S x) - cMat (T x)).det ≠ 0) ?_
  · filter_upwards [this] with x hx w hw
    exact hx w (by simpa using hw)
  · intro w hw
    have hc : ContinuousAt (fun z : X × ℂ => (z.2 • cMat (S z.1) - cMat (T z.1)).det) (x0, w) := by
      have hc1 : ∀ {F : X → Matrix (Fin n) (Fin n) ℝ}, ContinuousAt F x0 →
          ContinuousAt (fun z : X × ℂ => cMat (F z.1)) (x0, w) := by
        intro F hF
        have h1 : Continuous fun M : Matrix (Fin n) (Fin n) ℝ => cMat M := continuous_id.matrix_map Complex.continuous_ofReal
        exact h1.continuousAt.comp (ContinuousAt.comp (f := Prod.fst) (by exact hF) continuousAt_fst)
      have h2 : Continuous fun M : Matrix (Fin n) (Fin n) ℂ => M.det := continuous_id.matrix_det
      exact h2.continuousAt.comp ((continuousAt_snd.smul (hc1 hS)).sub (hc1 hT))
    exact hc.eventually_ne (h w (by simpa using hw))

theorem tendsto_sandwich {n m : ℕ} {N : Matrix (Fin n) (Fin n) ℝ} {P : Matrix (Fin m) (Fin m) ℝ}
    (hN : ∀ z, IsEigenvalue N z → ‖z‖ < 1) (hP : ∀ z, IsEigenvalue P z → ‖z‖ < 1) (H : Matrix (Fin n) (Fin m) ℝ) :
    Filter.Tendsto (fun k : ℕ => N ^ k * H * P ^ k) Filter.atTop (nhds 0) := by
  have c : Continuous fun p : Matrix (Fin n) (Fin n) ℝ × Matrix (Fin m) (Fin m) ℝ => p.1 * H * p.2 :=
    (continuous_fst.matrix_mul continuous_const).matrix_mul continuous_snd
  have h1 := (powers_tendsto _ hN).prodMk_nhds (powers_tendsto _ hP)
  have h2 := Filter.Tendsto.comp (c.tendsto (0, 0)) h1
  simp only [Matrix.mul_zero] at h2
  exact h2

/-- The equation for the derivative of the rule has at most one solution. -/
theorem sylvester_injective (hC : LinearSolution g_s g_x f_s f_x f_S f_X C)
    (hP : ∀ z, IsEigenvalue (g_s + g_x * C) z → ‖z‖ < 1) (hbk : BlanchardKahn g_s g_x f_s f_x f_S f_X)
    (H : Matrix (Fin nx) (Fin ns) ℝ) (h : deflated g_x f_x f_S f_X C * H + f_X * H * (g_s + g_x * C) = 0) : H = 0 := by
  have hd := (bk_iff hC hP).1 hbk
  set M := deflated g_x f_x f_S f_X C with hM
  set P := g_s + g_x * C with hPd
  have cdet : ∀ {J : Type} [Fintype J] [DecidableEq J] (M : Matrix J J ℝ), (cMat M).det = ((M.det : ℝ) : ℂ) :=
    fun M => by rw [← Complex.ofRealHom_eq_coe, RingHom.map_det]; rfl
  have hMu : IsUnit M.det := by
    have := hd 0 (by simp)
    rw [zero_smul, zero_sub, det_neg, cdet] at this
    exact isUnit_iff_ne_zero.2 fun h0 => this (by rw [h0]; simp)
  have hN : ∀ z, IsEigenvalue (M⁻¹ * -f_X) z → ‖z‖ < 1 := by
    intro z hz
    by_contra hn
    have hz1 : 1 ≤ ‖z‖ := not_lt.1 hn
    have hz0 : z ≠ 0 := norm_pos_iff.1 (lt_of_lt_of_le one_pos hz1)
    have h1 := generalised hMu hz
    refine hd z⁻¹ (by rw [norm_inv]; exact inv_le_one_of_one_le₀ hz1) ?_
    have e : z⁻¹ • cMat (-f_X) - cMat M = (-z⁻¹) • (z • cMat M - cMat (-f_X)) := by
      rw [smul_sub, smul_smul, neg_mul, inv_mul_cancel₀ hz0]
      simp only [neg_smul, one_smul, sub_eq_add_neg, neg_neg, add_comm]
    rw [e, det_smul, h1, mul_zero]
  have step : H = M⁻¹ * -f_X * H * P := by
    have : M * H = -f_X * H * P := by
      rw [Matrix.neg_mul, Matrix.neg_mul]; exact eq_neg_of_add_eq_zero_left h
    calc H = M⁻¹ * (M * H) := by rw [← Matrix.mul_assoc, nonsing_inv_mul _ hMu, Matrix.one_mul]
      _ = _ := by rw [this]; simp only [Matrix.mul_assoc]
  have iter : ∀ k : ℕ, H = (M⁻¹ * -f_X) ^ k * H * P ^ k := by
    intro k
    induction k with
    | zero => simp
    | succ k ih =>
      rw [pow_succ, pow_succ']
      calc H = (M⁻¹ * -f_X) ^ k * H * P ^ k := ih
        _ = (M⁻¹ * -f_X) ^ k * (M⁻¹ * -f_X * H * P) * P ^ k := by rw [← step]
        _ = _ := by simp only [Matrix.mul_assoc]
  have lim := tendsto_sandwich hN hP H
  have hconst : (fun k : ℕ => (M⁻¹ * -f_X) ^ k * H * P ^ k) = fun _ => H := funext fun k => (iter k).symm
  rw [hconst] at lim
  exact tendsto_const_nhds_iff.1 lim

end

/-! ### Implicit function -/

section
variable {ns nx : ℕ}

attribute [local instance] Matrix.normedAddCommGroup Matrix.normedSpace

/-- The six matrices of derivatives. -/
abbrev ModelMat (ns nx : ℕ) : Type :=
  (Matrix (Fin ns) (Fin ns) ℝ × Matrix (Fin ns) (Fin nx) ℝ) × (Matrix (Fin nx) (Fin ns) ℝ × Matrix (Fin nx) (Fin nx) ℝ) ×
    (Matrix (Fin nx) (Fin ns) ℝ × Matrix (Fin nx) (Fin nx) ℝ)

/-- Residual of the equation of the rule. -/
def ruleRes (p : ModelMat ns nx × Matrix (Fin nx) (Fin ns) ℝ) : Matrix (Fin nx) (Fin ns) ℝ :=
  p.1.2.1.1 + p.1.2.1.2 * p.2 + p.1.2.2.1 * (p.1.1.1 + p.1.1.2 * p.2) + p.1.2.2.2 * p.2 * (p.1.1.1 + p.1.1.2 * p.2)

private theorem contDiff_mul' {X : Type} [NormedAddCommGroup X] [NormedSpace ℝ X] {a b c : ℕ}
    {F : X → Matrix (Fin a) (Fin b) ℝ} {G : X → Matrix (Fin b) (Fin c) ℝ} (hF : ContDiff ℝ 1 F) (hG : ContDiff ℝ 1 G) :
    ContDiff ℝ 1 fun x => F x * G x := by
  refine contDiff_pi.2 fun i => contDiff_pi.2 fun j => ?_
  simp only [Matrix.mul_apply]
  refine ContDiff.sum fun k _ => ContDiff.mul ?_ ?_
  · exact contDiff_pi.1 (contDiff_pi.1 hF i) k
  · exact contDiff_pi.1 (contDiff_pi.1 hG k) j

theorem ruleRes_contDiff : ContDiff ℝ 1 (ruleRes (ns := ns) (nx := nx)) := by
  have h1 : ContDiff ℝ 1 fun p : ModelMat ns nx × Matrix (Fin nx) (Fin ns) ℝ => p.1.1.1 := contDiff_fst.fst.fst
  have h2 : ContDiff ℝ 1 fun p : ModelMat ns nx × Matrix (Fin nx) (Fin ns) ℝ => p.1.1.2 := contDiff_fst.fst.snd
  have h3 : ContDiff ℝ 1 fun p : ModelMat ns nx × Matrix (Fin nx) (Fin ns) ℝ => p.1.2.1.1 := contDiff_fst.snd.fst.fst
  have h4 : ContDiff ℝ 1 fun p : ModelMat ns nx × Matrix (Fin nx) (Fin ns) ℝ => p.1.2.1.2 := contDiff_fst.snd.fst.snd
  have h5 : ContDiff ℝ 1 fun p : ModelMat ns nx × Matrix (Fin nx) (Fin ns) ℝ => p.1.2.2.1 := contDiff_fst.snd.snd.fst
  have h6 : ContDiff ℝ 1 fun p : ModelMat ns nx × Matrix (Fin nx) (Fin ns) ℝ => p.1.2.2.2 := contDiff_fst.snd.snd.snd
  have hC : ContDiff ℝ 1 fun p : ModelMat ns nx × Matrix (Fin nx) (Fin ns) ℝ => p.2 := contDiff_snd
  have hP := h1.add (contDiff_mul' h2 hC)
  exact ((h3.add (contDiff_mul' h4 hC)).add (contDiff_mul' h5 hP)).add (contDiff_mul' (contDiff_mul' h6 hC) hP)

private theorem continuousAt_mul' {X : Type} [TopologicalSpace X] {a b c : ℕ} {x : X}
    {F : X → Matrix (Fin a) (Fin b) ℝ} {G : X → Matrix (Fin b) (Fin c) ℝ} (hF : ContinuousAt F x) (hG : ContinuousAt G x) :
    ContinuousAt (fun x => F x * G x) x := by
  have hc : Continuous fun p : Matrix (Fin a) (Fin b) ℝ × Matrix (Fin b) (Fin c) ℝ => p.1 * p.2 :=
    continuous_fst.matrix_mul continuous_snd
  exact ContinuousAt.comp (f := fun x => (F x, G x)) hc.continuousAt (hF.prodMk hG)

private theorem differentiableAt_mul' {X : Type} [NormedAddCommGroup X] [NormedSpace ℝ X] {a b c : ℕ} {x : X}
    {F : X → Matrix (Fin a) (Fin b) ℝ} {G : X → Matrix (Fin b) (Fin c) ℝ} (hF : DifferentiableAt ℝ F x)
    (hG : DifferentiableAt ℝ G x) : DifferentiableAt ℝ (fun x => F x * G x) x := by
  refine differentiableAt_pi.2 fun i => differentiableAt_pi.2 fun j => ?_
  simp only [Matrix.mul_apply]
  refine DifferentiableAt.fun_sum fun k _ => DifferentiableAt.mul ?_ ?_
  · exact differentiableAt_pi.1 (differentiableAt_pi.1 hF i) k
  · exact differentiableAt_pi.1 (differentiableAt_pi.1 hG k) j

theorem nearby_rule {g_s : Matrix (Fin ns) (Fin ns) ℝ} {g_x : Matrix (Fin ns) (Fin nx) ℝ}
    {f_s : Matrix (Fin nx) (Fin ns) ℝ} {f_x : Matrix (Fin nx) (Fin nx) ℝ}
    {f_S : Matrix (Fin nx) (Fin ns) ℝ} {f_X : Matrix (Fin nx) (Fin nx) ℝ} {C : Matrix (Fin nx) (Fin ns) ℝ}
    (hC : LinearSolution g_s g_x f_s f_x f_S f_X C)
    (hP : ∀ z, IsEigenvalue (g_s + g_x * C) z → ‖z‖ < 1) (hbk : BlanchardKahn g_s g_x f_s f_x f_S f_X) :
    ∃ (L : ℝ) (ψ : ModelMat ns nx → Matrix (Fin nx) (Fin ns) ℝ), 0 < L ∧
      ∀ᶠ d in nhds (((g_s, g_x), (f_s, f_x), (f_S, f_X)) : ModelMat ns nx),
        LinearSolution d.1.1 d.1.2 d.2.1.1 d.2.1.2 d.2.2.1 d.2.2.2 (ψ d) ∧
        (∀ z, IsEigenvalue (d.1.1 + d.1.2 * ψ d) z → ‖z‖ < 1) ∧
        BlanchardKahn d.1.1 d.1.2 d.2.1.1 d.2.1.2 d.2.2.1 d.2.2.2 ∧
        ‖ψ d - C‖ ≤ L * ‖d - ((g_s, g_x), (f_s, f_x), (f_S, f_X))‖ ∧
        ‖d.1.1 + d.1.2 * ψ d - (g_s + g_x * C)‖ ≤ L * ‖d - ((g_s, g_x), (f_s, f_x), (f_S, f_X))‖ := by
  set d0 : ModelMat ns nx := ((g_s, g_x), (f_s, f_x), (f_S, f_X)) with hd0
  have cd : ContDiffAt ℝ 1 (ruleRes (ns := ns) (nx := nx)) (d0, C) := ruleRes_contDiff.contDiffAt
  obtain ⟨D, hs⟩ : ∃ D, HasStrictFDerivAt (ruleRes (ns := ns) (nx := nx)) D (d0, C) := ⟨_, cd.hasStrictFDerivAt one_ne_zero⟩
  have hval : ∀ H, D (0, H) = deflated g_x f_x f_S f_X C * H + f_X * H * (g_s + g_x * C) := by
    intro H
    have h1 := HasFDerivAt.hasLineDerivAt hs.hasFDerivAt ((0 : ModelMat ns nx), H)
    have a := ((hasDerivAt_id (0 : ℝ)).smul_const (deflated g_x f_x f_S f_X C * H + f_X * H * (g_s + g_x * C))).const_add
      (ruleRes (d0, C))
    have b := ((hasDerivAt_pow 2 (0 : ℝ)).smul_const (f_X * H * (g_x * H)))
    have h3 := h1.unique ((a.add b).congr_of_eventuallyEq (Filter.Eventually.of_forall fun t => ?_))
    · refine Eq.trans h3 ?_
      simp
    change ruleRes _ = ruleRes (d0, C) + t • (deflated g_x f_x f_S f_X C * H + f_X * H * (g_s + g_x * C)) +
      t ^ 2 • (f_X * H * (g_x * H))
    simp only [ruleRes, hd0, deflated, Prod.smul_mk, smul_zero, Prod.mk_add_mk, add_zero, Matrix.mul_add, Matrix.add_mul,
      Matrix.mul_smul, Matrix.smul_mul, smul_add, smul_smul, Matrix.mul_assoc, pow_two]
    abel
  have hinj : Function.Injective (D ∘L ContinuousLinearMap.inr ℝ (ModelMat ns nx) (Matrix (Fin nx) (Fin ns) ℝ)) := by
    rw [injective_iff_map_eq_zero]
    intro H hH
    exact sylvester_injective hC hP hbk H (by rw [← hval]; exact hH)
  have hinv : (D ∘L ContinuousLinearMap.inr ℝ (ModelMat ns nx) (Matrix (Fin nx) (Fin ns) ℝ)).IsInvertible := by
    refine ⟨(LinearEquiv.ofInjectiveEndo
      (D ∘L ContinuousLinearMap.inr ℝ (ModelMat ns nx) (Matrix (Fin nx) (Fin ns) ℝ)).toLinearMap hinj).toContinuousLinearEquiv, ?_⟩
    ext1 x
    rfl
  set ψ := hs.implicitFunctionOfProdDomain hinv with hψ
  have hdiff := (hs.hasStrictFDerivAt_implicitFunctionOfProdDomain hinv).hasFDerivAt
  rw [← hψ] at hdiff
  have hcont : ContinuousAt ψ d0 := hdiff.continuousAt
  have hψ0 : ψ d0 = C := tendsto_nhds_unique hcont (hs.tendsto_implicitFunctionOfProdDomain hinv)
  have hdiff2 : DifferentiableAt ℝ (fun d : ModelMat ns nx => d.1.1 + d.1.2 * ψ d) d0 :=
    (differentiableAt_fst.fst).add (differentiableAt_mul' differentiableAt_fst.snd hdiff.differentiableAt)
  obtain ⟨L, hL, hbound⟩ := hdiff.isBigO_sub.exists_pos
  obtain ⟨L2, hL2, hbound2⟩ := hdiff2.hasFDerivAt.isBigO_sub.exists_pos
  have hres : ruleRes (d0, C) = 0 := hC
  have ev1 := hs.eventually_apply_implicitFunctionOfProdDomain hinv
  rw [← hψ, hres] at ev1
  have ev2 : ∀ᶠ d in nhds d0, ∀ w : ℂ, ‖w‖ ≤ 1 →
      (w • cMat (d.1.1 + d.1.2 * ψ d) - cMat (1 : Matrix (Fin ns) (Fin ns) ℝ)).det ≠ 0 := by
    refine disc_open (S := fun d : ModelMat ns nx => d.1.1 + d.1.2 * ψ d) (T := fun _ => 1) ?_ continuousAt_const ?_
    · exact (continuous_fst.fst.continuousAt).add (continuousAt_mul' continuous_fst.snd.continuousAt hcont)
    · simp only [hψ0]; exact (stable_iff _).1 hP
  have ev3 : ∀ᶠ d in nhds d0, ∀ w : ℂ, ‖w‖ ≤ 1 →
      (w • cMat (-d.2.2.2) - cMat (deflated d.1.2 d.2.1.2 d.2.2.1 d.2.2.2 (ψ d))).det ≠ 0 := by
    refine disc_open (S := fun d : ModelMat ns nx => -d.2.2.2)
      (T := fun d : ModelMat ns nx => deflated d.1.2 d.2.1.2 d.2.2.1 d.2.2.2 (ψ d)) ?_ ?_ ?_
    · exact (continuous_snd.snd.snd.continuousAt).neg
    · exact (continuous_snd.fst.snd.continuousAt).add (continuousAt_mul' ((continuous_snd.snd.fst.continuousAt).add
        (continuousAt_mul' continuous_snd.snd.snd.continuousAt hcont)) continuous_fst.snd.continuousAt)
    · simp only [hψ0]; exact (bk_iff hC hP).1 hbk
  refine ⟨L + L2, ψ, by positivity, ?_⟩
  filter_upwards [ev1, ev2, ev3, hbound.bound, hbound2.bound] with d e1 e2 e3 e4 e5
  have hst := (stable_iff _).2 e2
  rw [hψ0] at e4 e5
  refine ⟨e1, hst, (bk_iff e1 hst).2 e3, e4.trans ?_, e5.trans ?_⟩
  · exact mul_le_mul_of_nonneg_right (by linarith) (norm_nonneg _)
  · exact mul_le_mul_of_nonneg_right (by linarith) (norm_nonneg _)

/-- The same with entries. -/
theorem nearby_rule_entries {g_s : Matrix (Fin ns) (Fin ns) ℝ} {g_x : Matrix (Fin ns) (Fin nx) ℝ}
    {f_s : Matrix (Fin nx) (Fin ns) ℝ} {f_x : Matrix (Fin nx) (Fin nx) ℝ}
    {f_S : Matrix (Fin nx) (Fin ns) ℝ} {f_X : Matrix (Fin nx) (Fin nx) ℝ} {C : Matrix (Fin nx) (Fin ns) ℝ}
    (hC : LinearSolution g_s g_x f_s f_x f_S f_X C)
    (hP : ∀ z, IsEigenvalue (g_s + g_x * C) z → ‖z‖ < 1) (hbk : BlanchardKahn g_s g_x f_s f_x f_S f_X) :
    ∃ L > 0, ∃ δ > 0, ∀ (η : ℝ), 0 ≤ η → η ≤ δ → ∀ (g_s' : Matrix (Fin ns) (Fin ns) ℝ) (g_x' : Matrix (Fin ns) (Fin nx) ℝ)
      (f_s' : Matrix (Fin nx) (Fin ns) ℝ) (f_x' : Matrix (Fin nx) (Fin nx) ℝ)
      (f_S' : Matrix (Fin nx) (Fin ns) ℝ) (f_X' : Matrix (Fin nx) (Fin nx) ℝ),
      (∀ i j, |g_s' i j - g_s i j| ≤ η) → (∀ i j, |g_x' i j - g_x i j| ≤ η) → (∀ i j, |f_s' i j - f_s i j| ≤ η) →
      (∀ i j, |f_x' i j - f_x i j| ≤ η) → (∀ i j, |f_S' i j - f_S i j| ≤ η) → (∀ i j, |f_X' i j - f_X i j| ≤ η) →
      BlanchardKahn g_s' g_x' f_s' f_x' f_S' f_X' ∧ ∃ C', LinearSolution g_s' g_x' f_s' f_x' f_S' f_X' C' ∧
        (∀ z, IsEigenvalue (g_s' + g_x' * C') z → ‖z‖ < 1) ∧ (∀ i j, |C' i j - C i j| ≤ L * η) ∧
        (∀ i j, |(g_s' + g_x' * C') i j - (g_s + g_x * C) i j| ≤ L * η) := by
  obtain ⟨L, ψ, hL, hev⟩ := nearby_rule hC hP hbk
  obtain ⟨δ, hδ, hb⟩ := Metric.eventually_nhds_iff.1 hev
  refine ⟨L, hL, δ / 2, by positivity, fun η hη hδ' g_s' g_x' f_s' f_x' f_S' f_X' h1 h2 h3 h4 h5 h6 => ?_⟩
  have key : ∀ {a b : ℕ} {A A' : Matrix (Fin a) (Fin b) ℝ}, (∀ i j, |A' i j - A i j| ≤ η) → ‖A' - A‖ ≤ η := by
    intro a b A A' h
    rw [Matrix.norm_le_iff hη]
    exact h
  have hn : ‖(((g_s', g_x'), (f_s', f_x'), (f_S', f_X')) : ModelMat ns nx) - ((g_s, g_x), (f_s, f_x), (f_S, f_X))‖ ≤ η := by
    simp only [Prod.mk_sub_mk, Prod.norm_mk]
    exact max_le (max_le (key h1) (key h2)) (max_le (max_le (key h3) (key h4)) (max_le (key h5) (key h6)))
  obtain ⟨a1, a2, a3, a4, a5⟩ := hb (y := ((g_s', g_x'), (f_s', f_x'), (f_S', f_X'))) (by
    rw [dist_eq_norm]; exact lt_of_le_of_lt (hn.trans hδ') (by linarith))
  refine ⟨a3, _, a1, a2, fun i j => ?_, fun i j => ?_⟩
  · exact (Matrix.norm_entry_le_entrywise_sup_norm _ (i := i) (j := j)).trans (a4.trans (mul_le_mul_of_nonneg_left hn hL.le))
  · exact (Matrix.norm_entry_le_entrywise_sup_norm _ (i := i) (j := j)).trans (a5.trans (mul_le_mul_of_nonneg_left hn hL.le))

end

end Dolo
