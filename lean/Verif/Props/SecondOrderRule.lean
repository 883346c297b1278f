import Mathlib.Analysis.Asymptotics.Lemmas
import Mathlib.Analysis.Normed.Group.Constructions
import Verif.Props.Risk
import Verif.Props.StableManifold

/-!
# C162: the second-order rule agrees with smooth stable solutions up to second order
-/

set_option linter.unusedSectionVars false

namespace Dolo

open Filter Topology Asymptotics PowerSeries

/-! ### Specification -/

section spec
variable {I J : Type} [Fintype J]

/-- `f1`, `f2` are the coefficients of an expansion of `F` at `zb` up to second order: the error is small compared with the
squared distance.  (By Taylor's theorem, every twice differentiable function has such an expansion.) -/
def Expands2 (F : (J → ℝ) → I → ℝ) (zb : J → ℝ) (f1 : I → J → ℝ) (f2 : I → J → J → ℝ) : Prop :=
  ∀ i, (fun h : J → ℝ => F (zb + h) i - F zb i - ∑ j, f1 i j * h j - 1 / 2 * ∑ j, ∑ l, f2 i j l * (h j * h l))
    =o[𝓝 0] fun h => ‖h‖ ^ 2

variable {ns nx ne : ℕ}

/-- The derivatives of `problem` are those of the transition `g(s, x, ε)` and of the arbitrage equations
`f(s, x, s', x')` at a steady state. -/
structure ProblemAt (p : Problem ns nx ne ℝ) (g : (Fin ns → ℝ) → (Fin nx → ℝ) → (Fin ne → ℝ) → Fin ns → ℝ)
    (f : (Fin ns → ℝ) → (Fin nx → ℝ) → (Fin ns → ℝ) → (Fin nx → ℝ) → Fin nx → ℝ)
    (sb : Fin ns → ℝ) (xb : Fin nx → ℝ) : Prop where
  transition : Expands2 (fun y : MIdx ns nx ne → ℝ => g (y ∘ .inl ∘ .inl) (y ∘ .inl ∘ .inr) (y ∘ .inr))
    (Sum.elim (Sum.elim sb xb) 0) p.g1 p.g2
  arbitrage : Expands2 (fun z : ZIdx ns nx → ℝ =>
      f (z ∘ .inl ∘ .inl) (z ∘ .inl ∘ .inr) (z ∘ .inr ∘ .inl) (z ∘ .inr ∘ .inr))
    (Sum.elim (Sum.elim sb xb) (Sum.elim sb xb)) p.f1 p.f2
  symmetric : ∀ i a b, p.g2 i a b = p.g2 i b a
  steady_transition : g sb xb 0 = sb
  steady_arbitrage : f sb xb sb xb = 0

/-- `state_perturb` returned a second-order solution without a warning, under the conditions of Blanchard and Kahn. -/
structure StatePerturbReturns (p : Problem ns nx ne ℝ) (X_s : Fin nx → Fin ns → ℝ) (X_ss : Fin nx → Fin ns → Fin ns → ℝ)
    (X_tt : Fin nx → ℝ) : Prop where
  run : ∃ (solve : MatSolver ℝ) (lsolve : LinSolver ℝ) (qz : Matrix (Fin ns ⊕ Fin nx) (Fin ns ⊕ Fin nx) ℝ →
      Matrix (Fin ns ⊕ Fin nx) (Fin ns ⊕ Fin nx) ℝ → ℝ → QZ (Fin ns ⊕ Fin nx) ℝ) (cut : WithTop ℝ → WithTop ℝ → ℝ)
      (d : QZ (Fin ns ⊕ Fin nx) ℝ), solve.Correct ∧ lsolve.Correct ∧
    qz (pencilA (.of p.f_S) (.of p.f_X)) (pencilB (.of p.g_s) (.of p.g_x) (.of p.f_s) (.of p.f_x)) (1 - 1 / 10 ^ 8) = d ∧
    d.Correct (pencilA (.of p.f_S) (.of p.f_X)) (pencilB (.of p.g_s) (.of p.g_x) (.of p.f_s) (.of p.f_x)) ∧
    ((d.Triangular ∧ (∀ i, 1 < genEig d (.inl i)) ∧ ∀ j, genEig d (.inr j) < 1) ∨
      (BlanchardKahn (.of p.g_s) (.of p.g_x) (.of p.f_s) (.of p.f_x) (.of p.f_S) (.of p.f_X) ∧ d.Ordered (1 - 1 / 10 ^ 8) ∧
        SelectsStable (1 - 1 / 10 ^ 8) (pencilA (.of p.f_S) (.of p.f_X))
          (pencilB (.of p.g_s) (.of p.g_x) (.of p.f_s) (.of p.f_x)))) ∧
    statePerturb solve lsolve qz cut p 2 = .ok (.second X_s X_ss X_tt, false)

end spec

/-! ### Expansions along curves -/

section curves
variable {I J L : Type} [Fintype J]

theorem Expands2.hasFDerivAt [Fintype I] {F : (J → ℝ) → I → ℝ} {zb : J → ℝ} {f1 : I → J → ℝ} {f2 : I → J → J → ℝ}
    (h : Expands2 F zb f1 f2) : HasFDerivAt F (LinearMap.toContinuousLinearMap (Matrix.of f1).mulVecLin) zb := by
  rw [hasFDerivAt_iff_isLittleO_nhds_zero, isLittleO_pi]
  intro i
  have hsq : (fun h : J → ℝ => ‖h‖ ^ 2) =o[𝓝 0] fun h => h := by
    have : (fun h : J → ℝ => ‖h‖ * ‖h‖) =o[𝓝 0] fun h => (1 : ℝ) * ‖h‖ :=
      IsLittleO.mul_isBigO ((isLittleO_one_iff ℝ).2 tendsto_norm_zero) (isBigO_refl _ _)
    simp only [one_mul, ← pow_two] at this
    exact isLittleO_norm_right.1 this
  have hq : (fun h : J → ℝ => 1 / 2 * ∑ j, ∑ l, f2 i j l * (h j * h l)) =O[𝓝 0] fun h => ‖h‖ ^ 2 := by
    refine IsBigO.const_mul_left (IsBigO.fun_sum fun j _ => IsBigO.fun_sum fun l _ => IsBigO.const_mul_left ?_ _) _
    refine IsBigO.of_bound 1 (Eventually.of_forall fun h => ?_)
    rw [norm_mul, one_mul, Real.norm_of_nonneg (by positivity : (0 : ℝ) ≤ ‖h‖ ^ 2), pow_two]
    exact mul_le_mul (norm_le_pi_norm h j) (norm_le_pi_norm h l) (norm_nonneg _) (norm_nonneg _)
  have := ((h i).trans hsq).add (hq.trans_isLittleO hsq)
  refine this.congr_left fun h => ?_
  have e : LinearMap.toContinuousLinearMap (Matrix.of f1).mulVecLin h i = ∑ j, f1 i j * h j := rfl
  simp only [Pi.sub_apply, e]
  ring

/-- The formal curve `z` holds the expansion of the curve `u` at zero up to second order. -/
private def Tracks (u : ℝ → J → ℝ) (u0 : J → ℝ) (z : J → ℝ⟦X⟧) : Prop :=
  cf 0 z = 0 ∧ ∀ j, (fun t => u t j - u0 j - cf 1 z j * t - cf 2 z j * t ^ 2) =o[𝓝 (0 : ℝ)] fun t => t ^ 2

private theorem Tracks.comp {u : ℝ → J → ℝ} {u0 : J → ℝ} {z : J → ℝ⟦X⟧} (h : Tracks u u0 z) {F : (J → ℝ) → I → ℝ}
    {f1 : I → J → ℝ} {f2 : I → J → J → ℝ} (hF : Expands2 F u0 f1 f2) {Fh : (J → ℝ⟦X⟧) → I → ℝ⟦X⟧} (hFh : Taylor2 Fh f1 f2)
    [Fintype I] : Tracks (fun t => F (u t)) (F u0) (Fh z) := by
  obtain ⟨h0, h1⟩ := h
  obtain ⟨c0, c1', c2'⟩ := cf_taylor2 hFh z h0
  refine ⟨c0, fun i => ?_⟩
  have ht2 : (fun t : ℝ => t ^ 2) =o[𝓝 0] fun t => t := by
    have : (fun t : ℝ => t * t) =o[𝓝 0] fun t => (1 : ℝ) * t :=
      IsLittleO.mul_isBigO ((isLittleO_one_iff ℝ).2 tendsto_id) (isBigO_refl _ _)
    simpa only [one_mul, ← pow_two] using this
  have k1 : ∀ j, (fun t => u t j - u0 j - cf 1 z j * t) =o[𝓝 (0 : ℝ)] fun t => t := by
    intro j
    have := ((h1 j).trans ht2).add (ht2.const_mul_left (cf 2 z j))
    refine this.congr_left fun t => ?_
    ring
  have k0 : ∀ j, (fun t => u t j - u0 j) =O[𝓝 (0 : ℝ)] fun t => t := by
    intro j
    have := (k1 j).isBigO.add ((isBigO_refl (fun t : ℝ => t) (𝓝 0)).const_mul_left (cf 1 z j))
    refine this.congr_left fun t => ?_
    ring
  have kO : (fun t => u t - u0) =O[𝓝 (0 : ℝ)] fun t => t := isBigO_pi.2 k0
  have kT : Tendsto (fun t => u t - u0) (𝓝 (0 : ℝ)) (𝓝 0) := kO.trans_tendsto tendsto_id
  have e1 : (fun t => F (u t) i - F u0 i - ∑ j, f1 i j * (u t j - u0 j)
      - 1 / 2 * ∑ j, ∑ l, f2 i j l * ((u t j - u0 j) * (u t l - u0 l))) =o[𝓝 (0 : ℝ)] fun t => t ^ 2 := by
    have := ((hF i).comp_tendsto kT).trans_isBigO (k := fun t : ℝ => t ^ 2) (by
      have := kO.norm_left.pow 2
      exact this)
    refine this.congr_left fun t => ?_
    simp [Function.comp_def]
  have e2 : (fun t => ∑ j, f1 i j * (u t j - u0 j - cf 1 z j * t - cf 2 z j * t ^ 2)) =o[𝓝 (0 : ℝ)] fun t => t ^ 2 :=
    IsLittleO.fun_sum fun j _ => (h1 j).const_mul_left _
  have e3 : (fun t => 1 / 2 * ∑ j, ∑ l, f2 i j l * ((u t j - u0 j) * (u t l - u0 l) - cf 1 z j * cf 1 z l * t ^ 2))
      =o[𝓝 (0 : ℝ)] fun t => t ^ 2 := by
    refine IsLittleO.const_mul_left (IsLittleO.fun_sum fun j _ => IsLittleO.fun_sum fun l _ =>
      IsLittleO.const_mul_left ?_ _) _
    have a := (k0 j).mul_isLittleO (k1 l)
    have b := (k1 j).mul_isBigO ((isBigO_refl (fun t : ℝ => t) (𝓝 0)).const_mul_left (cf 1 z l))
    have := a.add b
    simp only [← pow_two] at this
    refine this.congr_left fun t => ?_
    ring
  refine ((e1.add e2).add e3).congr_left fun t => ?_
  rw [c1', c2']
  simp only [L1_apply, L2_apply, c1, c2, Pi.add_apply, Pi.smul_apply, smul_eq_mul, mul_sub, Finset.sum_sub_distrib,
    add_mul, Finset.sum_mul, Finset.mul_sum]
  have r1 : ∀ a b c d e g h : ℝ, a - b - c - d + (c - e - g) + (d - h) = a - b - e - (g + h) := by intros; ring
  convert r1 _ _ _ _ _ _ _ using 3
  all_goals try simp only [Finset.mul_sum, Finset.sum_mul, mul_assoc, Finset.sum_sub_distrib, mul_sub]

private theorem Tracks.elim {u : ℝ → I → ℝ} {u0 : I → ℝ} {z : I → ℝ⟦X⟧} [Fintype I] (h : Tracks u u0 z) {v : ℝ → J → ℝ} {v0 : J → ℝ}
    {w : J → ℝ⟦X⟧} (h' : Tracks v v0 w) : Tracks (fun t => Sum.elim (u t) (v t)) (Sum.elim u0 v0) (Sum.elim z w) := by
  refine ⟨?_, ?_⟩
  · funext j
    rcases j with j | j
    · exact congrFun h.1 j
    · exact congrFun h'.1 j
  · rintro (j | j)
    · exact h.2 j
    · exact h'.2 j

private theorem Tracks.const (u0 : J → ℝ) : Tracks (fun _ => u0) u0 0 := by
  refine ⟨by funext j; simp [cf], fun j => ?_⟩
  simp only [cf, Pi.zero_apply, map_zero, sub_self, zero_mul]
  exact isLittleO_zero _ _

private theorem Tracks.line (u0 h : J → ℝ) : Tracks (fun t => u0 + t • h) u0 (fun a => C (h a) * X) := by
  refine ⟨by funext j; simp [cf], fun j => ?_⟩
  have : (fun t : ℝ => (u0 + t • h) j - u0 j - cf 1 (fun a => C (h a) * X) j * t - cf 2 (fun a => C (h a) * X) j * t ^ 2)
      = fun _ => 0 := by
    funext t
    simp [cf, coeff_X, coeff_C_mul]
    ring
  rw [this]
  exact isLittleO_zero _ _

private theorem Tracks.zero {u : ℝ → J → ℝ} {u0 : J → ℝ} {z : J → ℝ⟦X⟧} (h : Tracks u u0 z)
    (hu : ∀ᶠ t in 𝓝 (0 : ℝ), u t = u0) (j : J) : X ^ 3 ∣ z j := by
  have h1 : (fun t => cf 1 z j * t + cf 2 z j * t ^ 2) =o[𝓝 (0 : ℝ)] fun t => t ^ 2 := by
    refine (h.2 j).neg_left.congr' ?_ EventuallyEq.rfl
    filter_upwards [hu] with t ht
    rw [ht]
    ring
  have h2 : ∀ ε > 0, ∀ᶠ t in 𝓝[>] (0 : ℝ), |cf 1 z j + cf 2 z j * t| ≤ ε * t := by
    intro ε hε
    filter_upwards [nhdsWithin_le_nhds (h1.bound hε), self_mem_nhdsWithin] with t ht ht0
    have ht0 : 0 < t := ht0
    have e : cf 1 z j * t + cf 2 z j * t ^ 2 = (cf 1 z j + cf 2 z j * t) * t := by ring
    rw [e, norm_mul, norm_pow, Real.norm_of_nonneg ht0.le, Real.norm_eq_abs, pow_two, ← mul_assoc] at ht
    exact le_of_mul_le_mul_right ht ht0
  have ha : cf 1 z j = 0 := by
    have t1 : Tendsto (fun t : ℝ => |cf 1 z j + cf 2 z j * t|) (𝓝[>] 0) (𝓝 |cf 1 z j + cf 2 z j * 0|) :=
      (Continuous.tendsto (by fun_prop) 0).mono_left nhdsWithin_le_nhds
    have t2 : Tendsto (fun t : ℝ => (1 : ℝ) * t) (𝓝[>] 0) (𝓝 (1 * 0)) :=
      (Continuous.tendsto (by fun_prop) 0).mono_left nhdsWithin_le_nhds
    have := le_of_tendsto_of_tendsto t1 t2 (h2 1 one_pos)
    rw [mul_zero, mul_zero, add_zero] at this
    exact abs_nonpos_iff.1 this
  have hb : cf 2 z j = 0 := by
    rw [← abs_nonpos_iff]
    refine le_of_forall_pos_le_add fun ε hε => ?_
    obtain ⟨t, ht, ht0⟩ := ((h2 ε hε).and self_mem_nhdsWithin).exists
    have ht0 : 0 < t := ht0
    rw [ha, zero_add, abs_mul, abs_of_pos ht0] at ht
    rw [zero_add]
    exact le_of_mul_le_mul_right ht ht0
  refine X_pow_dvd_iff.2 fun k hk => ?_
  interval_cases k
  · exact congrFun h.1 j
  · exact ha
  · exact hb

end curves

/-! ### Regularity -/

section regular
open Matrix
variable {ns nx ne : ℕ} {p : Problem ns nx ne ℝ} {X_s : Fin nx → Fin ns → ℝ}

private theorem select2_ok {solve : MatSolver ℝ} {d : QZ (Fin ns ⊕ Fin nx) ℝ} {qz : ℝ → QZ (Fin ns ⊕ Fin nx) ℝ}
    {cut : WithTop ℝ → WithTop ℝ → ℝ} {C : Matrix (Fin nx) (Fin ns) ℝ} (h : selectRule2 solve d qz cut = .ok (C, false)) :
    ∃ e, selectRule solve d qz cut = .ok ⟨C, e, false⟩ := by
  unfold selectRule2 at h
  rcases hd : diagOk d with _ | _
  · simp [hd, Bind.bind, Except.bind, throw, throwThe, MonadExceptOf.throw] at h
  rcases hb : bkTest d with e | b
  · simp [hd, hb, Bind.bind, Except.bind] at h
  cases b with
  | false =>
    exfalso
    simp only [hd, hb, Bind.bind, Except.bind, pure, Except.pure, Bool.not_true, Bool.false_eq_true, if_false, throw, throwThe,
      MonadExceptOf.throw] at h
    repeat' (split at h)
    all_goals simp at h
  | true =>
    rcases hr : ruleFromQZ solve d with e | C'
    · simp [hd, hb, ruleFromQZ2, hr, Bind.bind, Except.bind] at h
    · have hC : C' = C := by
        simp only [hd, hb, ruleFromQZ2, hr, Bind.bind, Except.bind, pure, Except.pure, Bool.not_true, Bool.false_eq_true,
          if_false, if_true] at h
        split at h
        · simp at h
        · rename_i v hv
          simp only [Except.ok.injEq, Prod.mk.injEq, and_true] at h
          subst h
          split at hv
          · simp at hv
          · split at hv
            · simp at hv
            · simpa using hv
      subst hC
      refine ⟨(eigList d).mergeSort (fun a b => decide (a ≤ b)), ?_⟩
      simp [selectRule, hd, hb, hr, Bind.bind, Except.bind, pure, Except.pure]

theorem state_saddle {X_ss : Fin nx → Fin ns → Fin ns → ℝ} {X_tt : Fin nx → ℝ}
    (h : StatePerturbReturns p X_s X_ss X_tt) :
    SaddlePath (.of p.g_s) (.of p.g_x) (.of p.f_s) (.of p.f_x) (.of p.f_S) (.of p.f_X) (.of X_s) ∧
      (∀ z, IsEigenvalue (Matrix.of p.g_s + Matrix.of p.g_x * Matrix.of X_s) z → ‖z‖ < 1) ∧
      ∃ lsolve : LinSolver ℝ, lsolve.Correct ∧ X_ss = p.Xss X_s lsolve := by
  obtain ⟨solve, lsolve, qz, cut, d, hsolve, hlsolve, rfl, hd, hsplit, hp⟩ := h.run
  obtain ⟨C, h1, h2, h3, -⟩ := second_inv solve lsolve qz cut hp
  obtain ⟨e, h4⟩ := select2_ok h1
  have h5 : approximate1stOrder solve qz cut (.of p.g_s) (.of p.g_x) (.of p.f_s) (.of p.f_x) (.of p.f_S) (.of p.f_X)
      = .ok ⟨C, e, false⟩ := h4
  subst h2
  refine ⟨?_, ?_, lsolve, hlsolve, h3⟩
  · rcases hsplit with ⟨ht, hst, hun⟩ | ⟨hbk, ho, hsel⟩
    · exact fun s x => C137_saddle_path hsolve hd ht hst hun cut _ h5 s x
    · exact (C154_saddle_path_partial hsolve hbk hd ho hsel cut _ h5).2.2
  · rcases hsplit with ⟨ht, hst, hun⟩ | ⟨hbk, ho, hsel⟩
    · exact C116_stable (g_s := Matrix.of p.g_s) (g_x := Matrix.of p.g_x) (f_s := Matrix.of p.f_s) (f_x := Matrix.of p.f_x)
        (f_S := Matrix.of p.f_S) (f_X := Matrix.of p.f_X) hsolve (qz := qz) hd cut ⟨X_s, e, false⟩ h5 ht hst
    · exact (C154_saddle_path_partial hsolve hbk hd ho hsel cut _ h5).2.1

private theorem V1_3_eq : Matrix.of (p.V1_3 X_s) = Matrix.of p.g_s + Matrix.of p.g_x * Matrix.of X_s := by
  ext i j
  simp [Problem.V1_3, c1, Matrix.mul_apply]

private theorem sylA_eq : Matrix.of (p.sylA X_s) = Matrix.of p.f_x + (Matrix.of p.f_S + Matrix.of p.f_X * Matrix.of X_s) * Matrix.of p.g_x := by
  ext i j
  simp [Problem.sylA, Problem.fS, c1, Matrix.mul_apply]

private theorem zero_paths
    (hC : SaddlePath (.of p.g_s) (.of p.g_x) (.of p.f_s) (.of p.f_x) (.of p.f_S) (.of p.f_X) (.of X_s))
    (hA : ∀ z, IsEigenvalue (Matrix.of p.g_s + Matrix.of p.g_x * Matrix.of X_s) z → ‖z‖ < 1) (z : ℕ → Fin nx → ℝ)
    (hz : ∃ b, ∀ t, ‖z t‖ ≤ b)
    (h : ∀ t, Matrix.of (p.sylA X_s) *ᵥ z t + Matrix.of p.f_X *ᵥ z (t + 1) = 0) (t : ℕ) : z t = 0 := by
  set C : Matrix (Fin nx) (Fin ns) ℝ := .of X_s with hCdef
  have hfirst : ∀ v : Fin ns → ℝ, Matrix.of p.f_s *ᵥ v + Matrix.of p.f_x *ᵥ (C *ᵥ v)
      + Matrix.of p.f_S *ᵥ ((Matrix.of p.g_s + Matrix.of p.g_x * C) *ᵥ v)
      + Matrix.of p.f_X *ᵥ (C *ᵥ ((Matrix.of p.g_s + Matrix.of p.g_x * C) *ᵥ v)) = 0 := by
    intro v
    have := ((hC (fun t => (Matrix.of p.g_s + Matrix.of p.g_x * C) ^ t *ᵥ v) (fun t => C *ᵥ ((Matrix.of p.g_s + Matrix.of p.g_x * C) ^ t *ᵥ v))).2
      fun t => ⟨rfl, by rw [pow_succ', ← mulVec_mulVec]⟩).1.2 0
    simpa using this
  obtain ⟨b, hb⟩ := hz
  have hbG := (linMap (Matrix.of p.g_x)).le_opNorm
  obtain ⟨s, ⟨b', hb'⟩, hs0, hs⟩ := solve_forward _ hA 0 (fun t => Matrix.of p.g_x *ᵥ z t)
    ⟨‖linMap (Matrix.of p.g_x)‖ * b, fun t => (hbG (z t)).trans (mul_le_mul_of_nonneg_left (hb t) (norm_nonneg _))⟩
  have hk := (hC s (fun t => C *ᵥ s t + z t)).1 ⟨⟨fun t => ?_, fun t => ?_⟩, ?_, ?_⟩
  · have := (hk t).1
    simpa using this
  · rw [hs t, add_mulVec, ← mulVec_mulVec, mulVec_add]
    abel
  · have e1 := hfirst (s t)
    have e2 := h t
    rw [sylA_eq, ← hCdef] at e2
    beta_reduce
    rw [hs t]
    simp only [add_mulVec, mulVec_add, ← mulVec_mulVec, Matrix.add_mul] at e1 e2 ⊢
    calc _ = (Matrix.of p.f_s *ᵥ s t + Matrix.of p.f_x *ᵥ (C *ᵥ s t)
          + (Matrix.of p.f_S *ᵥ (Matrix.of p.g_s *ᵥ s t) + Matrix.of p.f_S *ᵥ (Matrix.of p.g_x *ᵥ (C *ᵥ s t)))
          + (Matrix.of p.f_X *ᵥ (C *ᵥ (Matrix.of p.g_s *ᵥ s t))
            + Matrix.of p.f_X *ᵥ (C *ᵥ (Matrix.of p.g_x *ᵥ (C *ᵥ s t)))))
        + (Matrix.of p.f_x *ᵥ z t + (Matrix.of p.f_S *ᵥ (Matrix.of p.g_x *ᵥ z t)
          + Matrix.of p.f_X *ᵥ (C *ᵥ (Matrix.of p.g_x *ᵥ z t))) + Matrix.of p.f_X *ᵥ z (t + 1)) := by abel
      _ = 0 := by rw [e1, e2, add_zero]
  · exact ⟨b', fun t i => (norm_le_pi_norm (s t) i).trans (hb' t)⟩
  · refine ⟨‖linMap C‖ * b' + b, fun t i => ?_⟩
    refine (norm_le_pi_norm (C *ᵥ s t + z t) i).trans ((norm_add_le _ _).trans (add_le_add ?_ (hb t)))
    exact ((linMap C).le_opNorm (s t)).trans (mul_le_mul_of_nonneg_left (hb' t) (norm_nonneg _))

private theorem regular_of_saddle
    (hC : SaddlePath (.of p.g_s) (.of p.g_x) (.of p.f_s) (.of p.f_x) (.of p.f_S) (.of p.f_X) (.of X_s))
    (hA : ∀ z, IsEigenvalue (Matrix.of p.g_s + Matrix.of p.g_x * Matrix.of X_s) z → ‖z‖ < 1) (nd : ℕ) :
    RegularN nd (p.sylA X_s) p.f_X (p.V1_3 X_s) := by
  intro T hT
  funext k j
  set V : Matrix (Fin ns) (Fin ns) ℝ := .of (p.V1_3 X_s) with hV
  rw [← V1_3_eq, ← hV] at hA
  obtain ⟨c, hc, r, hr0, hr1, hpow⟩ := powers_decay V hA
  have hent : ∀ n (a b : Fin ns), |(V ^ n) a b| ≤ c := by
    intro n a b
    have h1 : (V ^ n) a b = (V ^ n *ᵥ Pi.single b 1) a := by rw [mulVec_single_one]; rfl
    rw [h1]
    refine (norm_le_pi_norm (V ^ n *ᵥ Pi.single b 1) a).trans ((hpow n _).trans ?_)
    have h2 : ‖(Pi.single b 1 : Fin ns → ℝ)‖ ≤ 1 := by
      rw [pi_norm_le_iff_of_nonneg zero_le_one]
      intro i
      by_cases hi : i = b
      · subst hi; simp
      · simp [hi]
    calc c * r ^ n * ‖(Pi.single b 1 : Fin ns → ℝ)‖ ≤ c * 1 * 1 :=
          mul_le_mul (mul_le_mul_of_nonneg_left (pow_le_one₀ hr0.le hr1.le) hc.le) h2 (norm_nonneg _) (by linarith)
      _ = c := by ring
  have key := zero_paths hC (by rwa [← V1_3_eq, ← hV])
    (fun n k => ∑ l : Fin nd → Fin ns, T k l * ∏ t, (V ^ n) (l t) (j t))
    ⟨∑ k, ∑ l : Fin nd → Fin ns, |T k l| * c ^ nd, fun n => ?_⟩ (fun n => ?_) 0
  · have := congrFun key k
    simp only [pow_zero, Pi.zero_apply] at this
    rw [Finset.sum_eq_single j] at this
    · simpa using this
    · intro l _ hl
      obtain ⟨t, ht⟩ := Function.ne_iff.1 hl
      have h0 : (1 : Matrix (Fin ns) (Fin ns) ℝ) (l t) (j t) = 0 := Matrix.one_apply_ne ht
      exact mul_eq_zero_of_right _ (Finset.prod_eq_zero (Finset.mem_univ t) h0)
    · intro h; exact absurd (Finset.mem_univ _) h
  · have hnn : 0 ≤ ∑ k, ∑ l : Fin nd → Fin ns, |T k l| * c ^ nd := by positivity
    rw [pi_norm_le_iff_of_nonneg hnn]
    intro k
    refine le_trans ?_ (Finset.single_le_sum (f := fun k => ∑ l : Fin nd → Fin ns, |T k l| * c ^ nd)
      (fun k _ => by positivity) (Finset.mem_univ k))
    refine (norm_sum_le _ _).trans (Finset.sum_le_sum fun l _ => ?_)
    rw [norm_mul, Real.norm_eq_abs, Real.norm_eq_abs, Finset.abs_prod]
    refine mul_le_mul_of_nonneg_left ?_ (abs_nonneg _)
    calc ∏ t, |(V ^ n) (l t) (j t)| ≤ ∏ _t : Fin nd, c :=
          Finset.prod_le_prod (fun t _ => abs_nonneg _) fun t _ => hent n _ _
      _ = c ^ nd := by simp
  · funext i
    have hstep : ∀ l : Fin nd → Fin ns, ∏ t, (V ^ (n + 1)) (l t) (j t)
        = ∑ m : Fin nd → Fin ns, (∏ t, p.V1_3 X_s (l t) (m t)) * ∏ t, (V ^ n) (m t) (j t) := by
      intro l
      simp only [pow_succ', Matrix.mul_apply]
      rw [Finset.prod_univ_sum, Fintype.piFinset_univ]
      exact Finset.sum_congr rfl fun m _ => Finset.prod_mul_distrib
    simp only [Pi.add_apply, Matrix.mulVec, dotProduct, Matrix.of_apply, hstep, Pi.zero_apply]
    have hz : ∑ m : Fin nd → Fin ns, (∑ k, p.sylA X_s i k * T k m
        + ∑ k, p.f_X i k * ∑ l : Fin nd → Fin ns, T k l * ∏ t, p.V1_3 X_s (l t) (m t)) * ∏ t, (V ^ n) (m t) (j t) = 0 :=
      Finset.sum_eq_zero fun m _ => by rw [hT i m, zero_mul]
    rw [← hz]
    simp only [add_mul, Finset.sum_add_distrib, Finset.mul_sum, Finset.sum_mul]
    congr 1
    · rw [Finset.sum_comm]
      exact Finset.sum_congr rfl fun m _ => Finset.sum_congr rfl fun k _ => by ring
    · conv_rhs => rw [Finset.sum_comm]
      refine Finset.sum_congr rfl fun k _ => ?_
      conv_rhs => rw [Finset.sum_comm]
      exact Finset.sum_congr rfl fun l _ => Finset.sum_congr rfl fun m _ => by ring

/-- **C162, the terms are determined.**  Where `state_perturb` returns a solution under the conditions of Blanchard and Kahn,
the equations for the terms of every order have at most one solution, and so has that for the correction for risk. -/
theorem C162_regular {X_ss : Fin nx → Fin ns → Fin ns → ℝ} {X_tt : Fin nx → ℝ} (h : StatePerturbReturns p X_s X_ss X_tt) :
    (∀ nd, RegularN nd (p.sylA X_s) p.f_X (p.V1_3 X_s)) ∧ ∀ v, (Matrix.of (p.Ltt X_s)).mulVec v = 0 → v = 0 := by
  obtain ⟨hC, hA, -⟩ := state_saddle h
  refine ⟨regular_of_saddle hC hA, fun v hv => ?_⟩
  refine zero_paths hC hA (fun _ => v) ⟨‖v‖, fun _ => le_rfl⟩ (fun t => ?_) 0
  rw [← hv, ← add_mulVec]
  congr 1
  ext i a
  simp only [Problem.Ltt, Problem.sylA, Problem.fS, c1, Matrix.add_apply, Matrix.of_apply, mul_add, Finset.sum_add_distrib,
    add_mul, Finset.sum_mul, Finset.mul_sum, mul_ite, mul_one, mul_zero, Finset.sum_ite_eq', Finset.mem_univ, if_true]
  rw [Finset.sum_comm]
  simp only [mul_assoc]
  ring

end regular

/-! ### Second order -/

section main
variable {ns nx ne : ℕ} {p : Problem ns nx ne ℝ} {X_s : Fin nx → Fin ns → ℝ} {X_ss : Fin nx → Fin ns → Fin ns → ℝ}
  {X_tt : Fin nx → ℝ} {g : (Fin ns → ℝ) → (Fin nx → ℝ) → (Fin ne → ℝ) → Fin ns → ℝ}
  {f : (Fin ns → ℝ) → (Fin nx → ℝ) → (Fin ns → ℝ) → (Fin nx → ℝ) → Fin nx → ℝ} {sb : Fin ns → ℝ} {xb : Fin nx → ℝ}

private def derivsOf (p : Problem ns nx ne ℝ) : Derivs ne ns nx ℝ :=
  ⟨0, .of p.f_s, .of p.f_x, 0, .of p.f_S, .of p.f_X, 0, .of p.g_s, .of p.g_x, .of p.g_e⟩

private theorem derivatives_of (hp : ProblemAt p g f sb xb) :
    DerivativesAt (derivsOf p) (fun _ s x e => g s x e) (fun _ s x _ S X => f s x S X) 0 sb xb := by
  constructor
  · let ι : (Fin ns → ℝ) × (Fin nx → ℝ) →ₗ[ℝ] (MIdx ns nx ne → ℝ) :=
      { toFun := fun v => Sum.elim (Sum.elim v.1 v.2) 0
        map_add' := fun u v => by funext j; rcases j with (j | j) | j <;> simp
        map_smul' := fun c v => by funext j; rcases j with (j | j) | j <;> simp }
    have h1 : HasFDerivAt ι (LinearMap.toContinuousLinearMap ι) (sb, xb) := (LinearMap.toContinuousLinearMap ι).hasFDerivAt
    have h2 := HasFDerivAt.comp (f := ι) (sb, xb) hp.transition.hasFDerivAt h1
    refine h2.congr_fderiv ?_
    refine ContinuousLinearMap.ext fun v => ?_
    funext i
    change ∑ j, p.g1 i j * Sum.elim (Sum.elim v.1 v.2) 0 j = (Matrix.of p.g_s).mulVec v.1 i + (Matrix.of p.g_x).mulVec v.2 i
    simp [Fintype.sum_sum_type, Matrix.mulVec, dotProduct, Problem.g_s, Problem.g_x]
  · let ι : ((Fin ns → ℝ) × (Fin nx → ℝ)) × ((Fin ns → ℝ) × (Fin nx → ℝ)) →ₗ[ℝ] (ZIdx ns nx → ℝ) :=
      { toFun := fun v => Sum.elim (Sum.elim v.1.1 v.1.2) (Sum.elim v.2.1 v.2.2)
        map_add' := fun u v => by funext j; rcases j with (j | j) | (j | j) <;> simp
        map_smul' := fun c v => by funext j; rcases j with (j | j) | (j | j) <;> simp }
    have h1 : HasFDerivAt ι (LinearMap.toContinuousLinearMap ι) ((sb, xb), (sb, xb)) :=
      (LinearMap.toContinuousLinearMap ι).hasFDerivAt
    have h2 := HasFDerivAt.comp (f := ι) ((sb, xb), (sb, xb)) hp.arbitrage.hasFDerivAt h1
    refine h2.congr_fderiv ?_
    refine ContinuousLinearMap.ext fun v => ?_
    funext i
    change ∑ j, p.f1 i j * Sum.elim (Sum.elim v.1.1 v.1.2) (Sum.elim v.2.1 v.2.2) j
      = (Matrix.of p.f_s).mulVec v.1.1 i + (Matrix.of p.f_x).mulVec v.1.2 i
        + ((Matrix.of p.f_S).mulVec v.2.1 i + (Matrix.of p.f_X).mulVec v.2.2 i)
    simp [Fintype.sum_sum_type, Matrix.mulVec, dotProduct, Problem.f_s, Problem.f_x, Problem.f_S, Problem.f_X]

/-- The Taylor polynomial, on formal curves. -/
noncomputable def quadPoly {I J : Type} [Fintype J] (f1 : I → J → ℝ) (f2 : I → J → J → ℝ) (z : J → ℝ⟦X⟧) (i : I) : ℝ⟦X⟧ :=
  ∑ j, C (f1 i j) * z j + C (1 / 2) * ∑ j, ∑ l, C (f2 i j l) * (z j * z l)

theorem quadPoly_taylor {I J : Type} [Fintype J] (f1 : I → J → ℝ) (f2 : I → J → J → ℝ) :
    Taylor2 (quadPoly f1 f2) f1 f2 := fun z _ i => by simp [quadPoly]

/-- **C162.**  Let `φ` be a stable solution of the nonlinear model with an expansion up to second order at the steady state.
The terms of that expansion are those that `state_perturb` returns: the rule `xb + X_s h + X_ss[h, h] / 2` differs from `φ`
by less than any multiple of the squared distance to the steady state. -/
theorem C162_second_order (hp : ProblemAt p g f sb xb) (h : StatePerturbReturns p X_s X_ss X_tt)
    {φ : (Fin ns → ℝ) → Fin nx → ℝ}
    (hs : StableSolution (nm := ne) (fun _ s x e => g s x e) (fun _ s x _ S X => f s x S X) 0 sb xb φ)
    {Y_s : Fin nx → Fin ns → ℝ} {Y_ss : Fin nx → Fin ns → Fin ns → ℝ} (hφ : Expands2 φ sb Y_s Y_ss) :
    Expands2 φ sb X_s X_ss := by
  obtain ⟨hC, hA, lsolve, hl, hX⟩ := state_saddle h
  obtain ⟨hreg, -⟩ := C162_regular h
  -- the first-order terms
  have hd := derivatives_of hp
  have h1 : HasFDerivAt φ (linMap (Matrix.of X_s)) sb :=
    C160_derivative hd hp.steady_transition (C := Matrix.of X_s) hC hs hφ.hasFDerivAt.differentiableAt
  have hY : Y_s = X_s := by
    have e := hφ.hasFDerivAt.unique h1
    funext i a
    have e1 := congrFun (congrArg (fun D : (Fin ns → ℝ) →L[ℝ] Fin nx → ℝ => D (Pi.single a 1)) e) i
    change (Matrix.of Y_s).mulVec (Pi.single a 1) i = (Matrix.of X_s).mulVec (Pi.single a 1) i at e1
    rw [Matrix.mulVec_single_one, Matrix.mulVec_single_one] at e1
    exact e1
  subst hY
  -- the second-order terms
  have hφ' : Expands2 (fun y : Fin ns ⊕ Unit → ℝ => φ (y ∘ .inl)) (Sum.elim sb 0) (ruleD1 Y_s) (ruleD2 Y_ss 0) := by
    intro i
    have hT : Tendsto (fun y : Fin ns ⊕ Unit → ℝ => y ∘ Sum.inl) (𝓝 0) (𝓝 (0 : Fin ns → ℝ)) := by
      have : Continuous fun y : Fin ns ⊕ Unit → ℝ => y ∘ Sum.inl := by fun_prop
      exact this.tendsto 0
    have := ((hφ i).comp_tendsto hT).trans_isBigO (k := fun y : Fin ns ⊕ Unit → ℝ => ‖y‖ ^ 2)
      (IsBigO.of_bound 1 (Eventually.of_forall fun y => by
        rw [one_mul, Function.comp_apply, norm_pow, norm_pow, norm_norm, norm_norm]
        exact pow_le_pow_left₀ (norm_nonneg _) ((pi_norm_le_iff_of_nonneg (norm_nonneg y)).2
          fun j => norm_le_pi_norm y (.inl j)) 2))
    refine this.congr_left fun y => ?_
    have e1 : (Sum.elim sb 0 + y) ∘ Sum.inl = sb + y ∘ Sum.inl := by funext j; simp
    have e2 : (Sum.elim sb 0 : Fin ns ⊕ Unit → ℝ) ∘ Sum.inl = sb := by funext j; simp
    simp only [Function.comp_apply, Fintype.sum_sum_type, ruleD1, ruleD2, e1, e2, zero_mul, Finset.sum_const_zero, add_zero,
      Pi.zero_apply]
  have key := C36_second_unique_certain p lsolve hl hp.symmetric Y_s (hreg 2) (quadPoly p.f1 p.f2) (quadPoly p.g1 p.g2)
    (quadPoly (ruleD1 Y_s) (ruleD2 Y_ss 0)) (quadPoly_taylor _ _) (quadPoly_taylor _ _) Y_ss 0 (quadPoly_taylor _ _) ?_
  · intro i
    refine (hφ i).congr_left fun v => ?_
    have := key i v
    rw [← hX] at this
    simp only [← mul_assoc, this]
  · intro v i
    -- the curve of the states, and all that follows from it
    have c1 := Tracks.line sb v
    have c2 : Tracks (fun t => φ (sb + t • v)) (φ sb) _ :=
      (c1.elim (Tracks.const (0 : Unit → ℝ))).comp hφ' (quadPoly_taylor (ruleD1 Y_s) (ruleD2 Y_ss 0))
    have e0 : g sb (φ sb) 0 = sb := by rw [hs.steady]; exact hp.steady_transition
    have c3 : Tracks (fun t => g (sb + t • v) (φ (sb + t • v)) 0) (g sb (φ sb) 0) _ :=
      ((c1.elim c2).elim (Tracks.const (0 : Fin ne → ℝ))).comp (F := fun y : MIdx ns nx ne → ℝ =>
      g (y ∘ .inl ∘ .inl) (y ∘ .inl ∘ .inr) (y ∘ .inr)) (by
        have := hp.transition
        rwa [← hs.steady] at this) (quadPoly_taylor p.g1 p.g2)
    rw [e0] at c3
    have c4 : Tracks (fun t => φ (g (sb + t • v) (φ (sb + t • v)) 0)) (φ sb) _ :=
      (c3.elim (Tracks.const (0 : Unit → ℝ))).comp hφ' (quadPoly_taylor (ruleD1 Y_s) (ruleD2 Y_ss 0))
    have c5 : Tracks (fun t => f (sb + t • v) (φ (sb + t • v)) (g (sb + t • v) (φ (sb + t • v)) 0)
        (φ (g (sb + t • v) (φ (sb + t • v)) 0))) (f sb (φ sb) sb (φ sb)) _ :=
      ((c1.elim c2).elim (c3.elim c4)).comp (F := fun z : ZIdx ns nx → ℝ =>
      f (z ∘ .inl ∘ .inl) (z ∘ .inl ∘ .inr) (z ∘ .inr ∘ .inl) (z ∘ .inr ∘ .inr)) (by
        have := hp.arbitrage
        rwa [← hs.steady] at this) (quadPoly_taylor p.f1 p.f2)
    refine c5.zero ?_ i
    have hcont : Tendsto (fun t : ℝ => sb + t • v) (𝓝 0) (𝓝 sb) := by
      have : Continuous fun t : ℝ => sb + t • v := by fun_prop
      have := this.tendsto 0
      rwa [zero_smul, add_zero] at this
    filter_upwards [hcont.eventually hs.solves] with t ht
    rw [hs.steady, hp.steady_arbitrage]
    exact ht

/-- **C162, with risk.**  Any rule `φ(s, λ)` with the first-order terms returned that solves the model up to second order, in
every direction of states and risk, has the second-order terms and the correction for risk that `state_perturb` returns.
(This is `C36_second_unique` without the hypotheses of regularity, which the conditions of Blanchard and Kahn imply.) -/
theorem C162_risk (h : StatePerturbReturns p X_s X_ss X_tt) (hsym : ∀ i a b, p.g2 i a b = p.g2 i b a)
    (F : (ZIdx ns nx → ℝ⟦X⟧) → Fin nx → ℝ⟦X⟧) (G : (MIdx ns nx ne → ℝ⟦X⟧) → Fin ns → ℝ⟦X⟧)
    (φ : (Fin ns ⊕ Unit → ℝ⟦X⟧) → Fin nx → ℝ⟦X⟧) (hF : Taylor2 F p.f1 p.f2) (hG : Taylor2 G p.g1 p.g2)
    (Y_ss : Fin nx → Fin ns → Fin ns → ℝ) (Y_tt : Fin nx → ℝ) (hφ : Taylor2 φ (ruleD1 X_s) (ruleD2 Y_ss Y_tt))
    {D : Type} [Fintype D] (w : D → ℝ) (ε : D → Fin ne → ℝ) (hε : Shocks w ε p.sigma)
    (hres : ∀ (h : Fin ns → ℝ) (μ : ℝ) (i : Fin nx),
      X ^ 3 ∣ ∑ d, C (w d) * pathResidual F G φ (fun a => C (h a) * X) (C μ * X) (fun k => C (μ * ε d k) * X) i) :
    (∀ (i : Fin nx) (h : Fin ns → ℝ), ∑ a, ∑ b, Y_ss i a b * h a * h b = ∑ a, ∑ b, X_ss i a b * h a * h b) ∧
      Y_tt = X_tt := by
  obtain ⟨hreg, hinj⟩ := C162_regular h
  obtain ⟨solve, lsolve, qz, cut, d, hsolve, hlsolve, -, -, -, hp⟩ := h.run
  obtain ⟨C', -, h2, h3, h4⟩ := second_inv solve lsolve qz cut hp
  subst h2 h3
  exact C36_second_unique p solve (fun n m M R Y hY => (hsolve n m M R Y hY).2) lsolve hlsolve hsym X_s (hreg 2) hinj X_tt h4
    F G φ hF hG Y_ss Y_tt hφ w ε hε hres

end main

/-! ### Example -/

/-- The asset of C160 with shocks to the dividend: `2 x = 2 s - s ^ 2 + x'` and `s' = s / 2 + ε`. -/
noncomputable def asset2 : Problem 1 1 1 ℝ where
  f1 := fun _ z => match z with
    | .inl (.inl _) => -2
    | .inl (.inr _) => 2
    | .inr (.inl _) => 0
    | .inr (.inr _) => -1
  f2 := fun _ y z => match y, z with
    | .inl (.inl _), .inl (.inl _) => 2
    | _, _ => 0
  f3 := fun _ _ _ _ => 0
  g1 := fun _ z => match z with
    | .inl (.inl _) => 1 / 2
    | .inl (.inr _) => 0
    | .inr _ => 1
  g2 := fun _ _ _ => 0
  g3 := fun _ _ _ _ => 0
  sigma := fun _ _ => 1

theorem asset2_select : selectRule2 solverR dS (fun _ => dS) (fun _ _ => 0) = .ok (.of fun _ _ => 4 / 3, false) := by
  obtain ⟨r, hr, hC⟩ := approxS
  obtain ⟨h1, h2, h3, -, -⟩ := approximate_ok hr
  have hS : IsUnit dS.S.toBlocks₁₁.transpose.det := by
    rw [Matrix.det_fin_one]; simp [dS, Matrix.toBlocks₁₁]
  have hZ : IsUnit dS.Z.toBlocks₁₁.transpose.det := by
    rw [Matrix.det_fin_one]; simp [dS, rotS, Matrix.toBlocks₁₁]
  have hr2 : ruleFromQZ2 solverR dS = .ok (.of fun _ _ => 4 / 3) := by
    unfold ruleFromQZ2
    rw [h3, hC]
    simp only [solverR, Bind.bind, Except.bind, pure, Except.pure]
    rw [if_pos hS, if_pos hZ]
  simp [selectRule2, h1, h2, hr2, Bind.bind, Except.bind, pure, Except.pure]

theorem asset2_pencil : dS.Correct (pencilA (.of asset2.f_S) (.of asset2.f_X))
    (pencilB (.of asset2.g_s) (.of asset2.g_x) (.of asset2.f_s) (.of asset2.f_x)) := by
  have eS : Matrix.of asset2.f_S = 0 := by ext i j; simp [Problem.f_S, asset2]
  have eX : Matrix.of asset2.f_X = .of fun _ _ => -1 := by ext i j; simp [Problem.f_X, asset2]
  have es : Matrix.of asset2.f_s = .of fun _ _ => -2 := by ext i j; simp [Problem.f_s, asset2]
  have ex : Matrix.of asset2.f_x = .of fun _ _ => 2 := by ext i j; simp [Problem.f_x, asset2]
  have gs : Matrix.of asset2.g_s = .of fun _ _ => 1 / 2 := by ext i j; simp [Problem.g_s, asset2]
  have gx : Matrix.of asset2.g_x = 0 := by ext i j; simp [Problem.g_x, asset2]
  rw [eS, eX, es, ex, gs, gx]
  exact dS_correct

/-- The hypotheses of C162 hold; the solution `4 / 3 s - 4 / 7 s ^ 2` has second-order terms. -/
theorem asset2_case :
    let g : (Fin 1 → ℝ) → (Fin 1 → ℝ) → (Fin 1 → ℝ) → Fin 1 → ℝ := fun s _ e => (1 / 2 : ℝ) • s + e
    let f : (Fin 1 → ℝ) → (Fin 1 → ℝ) → (Fin 1 → ℝ) → (Fin 1 → ℝ) → Fin 1 → ℝ :=
      fun s x _ X => (-2 : ℝ) • s + (2 : ℝ) • x - X + s * s
    let φ : (Fin 1 → ℝ) → Fin 1 → ℝ := fun s => (4 / 3 : ℝ) • s - (4 / 7 : ℝ) • (s * s)
    ProblemAt asset2 g f 0 0 ∧ (∃ X_ss X_tt, StatePerturbReturns asset2 (fun _ _ => 4 / 3) X_ss X_tt) ∧
      StableSolution (nm := 1) (fun _ s x e => g s x e) (fun _ s x _ S X => f s x S X) 0 0 0 φ ∧
      Expands2 φ 0 (fun _ _ => 4 / 3) (fun _ _ _ => -8 / 7) := by
  intro g f φ
  refine ⟨⟨?_, ?_, fun _ _ _ => rfl, by simp [g], by simp [f]⟩, ?_, ⟨by simp [φ], Eventually.of_forall fun s => ?_, 1, fun t =>
    Eventually.of_forall fun s => ?_⟩, ?_⟩
  · intro i
    refine (isLittleO_zero _ _).congr_left fun h => ?_
    rw [Subsingleton.elim i 0]
    simp [g, asset2, Fintype.sum_sum_type]
  · intro i
    refine (isLittleO_zero _ _).congr_left fun h => ?_
    rw [Subsingleton.elim i 0]
    simp [f, asset2, Fintype.sum_sum_type]
    ring
  · have hdet : IsUnit (Matrix.of (asset2.Ltt fun _ _ => 4 / 3)).det := by
      rw [Matrix.det_fin_one]
      simp [Problem.Ltt, Problem.f_x, Problem.f_S, Problem.f_X, Problem.g_x, asset2, c1]
      norm_num
    let lsolve : LinSolver ℝ := fun n A b => gaussSolve n (n + 1) fun i j => if j < n then A i j else b i
    have hsel := asset2_select
    obtain ⟨X_tt, hX⟩ : ∃ t, asset2.Xtt (fun _ _ => 4 / 3) solverR (asset2.Xss (fun _ _ => 4 / 3) lsolve) = .ok t := by
      unfold Problem.Xtt solverR
      rw [if_pos hdet]
      exact ⟨_, rfl⟩
    refine ⟨asset2.Xss (fun _ _ => 4 / 3) lsolve, X_tt, ⟨solverR, lsolve, fun _ _ _ => dS, fun _ _ => 0, dS, solverR_correct, C26_solver_exists, rfl, ?_,
      .inl ⟨dS_triangular, fun i => ?_, fun j => ?_⟩, ?_⟩⟩
    · exact asset2_pencil
    · rw [Subsingleton.elim i 0, dS_eig.1]
      exact_mod_cast (by norm_num : (1 : ℝ) < 2)
    · rw [Subsingleton.elim j 0, dS_eig.2]
      exact_mod_cast (by norm_num : (1 / 2 : ℝ) < 1)
    · have hH : higherOrders solverR lsolve asset2 2 (fun _ _ => 4 / 3) =
          .ok (.second (fun _ _ => 4 / 3) (asset2.Xss (fun _ _ => 4 / 3) lsolve) X_tt) := by
        unfold higherOrders
        simp only [OfNat.ofNat_ne_one, if_false, hX, if_true, Bind.bind, Except.bind, pure, Except.pure]
      unfold statePerturb
      rw [if_neg (by norm_num)]
      beta_reduce
      change ((selectRule2 solverR dS (fun _ => dS) (fun _ _ => 0)).bind fun z =>
        (higherOrders solverR lsolve asset2 2 z.1).bind fun r => .ok (r, z.2)) = _
      rw [hsel]
      change (higherOrders solverR lsolve asset2 2 (fun _ _ => 4 / 3)).bind _ = _
      rw [hH]
      rfl
  · funext i
    simp [f, g, φ]
    ring
  · have e : ∀ t : ℕ, (fun s => g s (φ s) 0)^[t] s = ((1 / 2 : ℝ) ^ t) • s := by
      intro t
      induction t with
      | zero => simp
      | succ t ih => rw [Function.iterate_succ_apply', ih, pow_succ', mul_smul]; simp [g]
    rw [e, sub_zero, sub_zero, norm_smul, norm_pow, Real.norm_of_nonneg (by norm_num)]
    exact mul_le_mul_of_nonneg_right (pow_le_one₀ (by norm_num) (by norm_num)) (norm_nonneg _)
  · intro i
    refine (isLittleO_zero _ _).congr_left fun h => ?_
    rw [Subsingleton.elim i 0]
    simp [φ]
    ring

end Dolo
