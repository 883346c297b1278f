import Mathlib.Analysis.Calculus.ImplicitFunction.ProdDomain
import Mathlib.Analysis.Calculus.FDeriv.Prod
import Verif.Lemmas.NewtonLocal

/-!
# Newton iterations on a family of equations

`Φ (z, q) = 0` with unknowns `z` and data `q`; near a regular solution `(xs, qs)` there is one solution for each `q`, and
Newton iterations find it.
-/

set_option linter.unusedSectionVars false

namespace Dolo

open Filter Topology

section family

variable {E Q : Type} [NormedAddCommGroup E] [NormedSpace ℝ E] [NormedAddCommGroup Q] [NormedSpace ℝ Q]

/-- Uniform estimates near a regular solution. -/
theorem family_estimates (Φ : E × Q → E) (A : E × Q →L[ℝ] E) (xs : E) (qs : Q)
    (hd : HasStrictFDerivAt Φ A (xs, qs)) (A1 Ai : E →L[ℝ] E) (hA1 : ∀ v, A (v, 0) = A1 v)
    (hAi : ∀ v, Ai (A1 v) = v) :
    ∃ C > 0, ∀ κ > 0, ∃ η > 0, ∃ ε > 0,
      (∀ B : E →L[ℝ] E, ‖B - A1‖ ≤ η → ∀ v, B v = 0 → v = 0) ∧
      (∀ z z' q, ‖z - xs‖ < ε → ‖z' - xs‖ < ε → ‖q - qs‖ < ε →
        ‖z - z'‖ ≤ C * ‖Φ (z, q) - Φ (z', q)‖ ∧ ‖Φ (z, q) - Φ (z', q)‖ ≤ C * ‖z - z'‖) ∧
      ∀ (z z' d : E) (q : Q) (B : E →L[ℝ] E), ‖z - xs‖ < ε → ‖z' - xs‖ < ε → ‖q - qs‖ < ε → ‖B - A1‖ ≤ η →
        Φ (z', q) = 0 → B d = Φ (z, q) → ‖z - d - z'‖ ≤ κ * ‖z - z'‖ := by
  set c := 2 * (‖Ai‖ + 1) with hc
  have hcpos : 0 < c := by positivity
  have hlow : ∀ B : E →L[ℝ] E, ‖B - A1‖ ≤ 1 / c → ∀ v, ‖v‖ ≤ c * ‖B v‖ := by
    intro B hB v
    have e : v = Ai (B v) - Ai ((B - A1) v) := by
      rw [← map_sub]
      simp only [_root_.sub_apply, sub_sub_cancel, hAi]
    have h1 : ‖Ai (B v)‖ ≤ ‖Ai‖ * ‖B v‖ := Ai.le_opNorm _
    have h2 : ‖Ai ((B - A1) v)‖ ≤ ‖Ai‖ * (1 / c * ‖v‖) :=
      (Ai.le_opNorm _).trans (mul_le_mul_of_nonneg_left
        (((B - A1).le_opNorm v).trans (mul_le_mul_of_nonneg_right hB (norm_nonneg _))) (norm_nonneg _))
    have h3 : ‖v‖ ≤ ‖Ai (B v)‖ + ‖Ai ((B - A1) v)‖ := by
      conv_lhs => rw [e]
      exact norm_sub_le _ _
    have h4 : ‖Ai‖ * (1 / c * ‖v‖) ≤ 1 / 2 * ‖v‖ := by
      have : ‖Ai‖ * (1 / c) ≤ 1 / 2 := by
        rw [hc, mul_one_div, div_le_div_iff₀ (by positivity) (by norm_num)]
        linarith
      calc ‖Ai‖ * (1 / c * ‖v‖) = ‖Ai‖ * (1 / c) * ‖v‖ := by ring
        _ ≤ _ := mul_le_mul_of_nonneg_right this (norm_nonneg _)
    have h5 := norm_nonneg (B v)
    have h6 : c * ‖B v‖ = 2 * (‖Ai‖ * ‖B v‖) + 2 * ‖B v‖ := by rw [hc]; ring
    linarith
  refine ⟨2 * c + ‖A1‖ + 1, by positivity, fun κ hκ => ?_⟩
  set θ := min (min (κ / (2 * c)) (1 / (2 * c))) 1 with hθ
  have hθ0 : 0 < θ := lt_min (lt_min (by positivity) (by positivity)) one_pos
  have hθ1 : c * (2 * θ) ≤ κ := by
    have h1 : θ ≤ κ / (2 * c) := (min_le_left _ _).trans (min_le_left _ _)
    rw [le_div_iff₀ (by positivity)] at h1
    linarith
  have hθ2 : c * θ ≤ 1 / 2 := by
    have h1 : θ ≤ 1 / (2 * c) := (min_le_left _ _).trans (min_le_right _ _)
    rw [le_div_iff₀ (by positivity)] at h1
    linarith
  have hθ3 : θ ≤ 1 := min_le_right _ _
  obtain ⟨ε, hε, hball⟩ := Metric.eventually_nhds_iff.1 (hd.isLittleO.bound hθ0)
  have hstr : ∀ z z' q, ‖z - xs‖ < ε → ‖z' - xs‖ < ε → ‖q - qs‖ < ε →
      ‖Φ (z, q) - Φ (z', q) - A1 (z - z')‖ ≤ θ * ‖z - z'‖ := by
    intro z z' q hz hz' hq
    have := hball (y := ((z, q), (z', q))) (by
      rw [Prod.dist_eq, Prod.dist_eq, Prod.dist_eq]
      simp only [dist_eq_norm]
      exact max_lt (max_lt hz hq) (max_lt hz' hq))
    simp only [Prod.mk_sub_mk, sub_self] at this
    rw [hA1, Prod.norm_mk, norm_zero, max_eq_left (norm_nonneg _)] at this
    exact this
  refine ⟨min (1 / c) θ, lt_min (by positivity) hθ0, ε, hε, ?_, ?_, ?_⟩
  · intro B hB v hv
    have := hlow B (hB.trans (min_le_left _ _)) v
    rw [hv, norm_zero, mul_zero] at this
    exact norm_le_zero_iff.1 this
  · intro z z' q hz hz' hq
    have h1 := hstr z z' q hz hz' hq
    have h0 := norm_nonneg (z - z')
    have hA := norm_nonneg A1
    have hF := norm_nonneg (Φ (z, q) - Φ (z', q))
    constructor
    · have h2 := hlow A1 (by rw [sub_self, norm_zero]; positivity) (z - z')
      have h3 : ‖A1 (z - z')‖ ≤ ‖Φ (z, q) - Φ (z', q)‖ + ‖Φ (z, q) - Φ (z', q) - A1 (z - z')‖ := by
        have := norm_sub_le (Φ (z, q) - Φ (z', q)) (Φ (z, q) - Φ (z', q) - A1 (z - z'))
        simpa using this
      have h4 := mul_le_mul_of_nonneg_left (h3.trans (add_le_add le_rfl h1)) hcpos.le
      have h5 : c * (θ * ‖z - z'‖) ≤ 1 / 2 * ‖z - z'‖ := by
        rw [← mul_assoc]
        exact mul_le_mul_of_nonneg_right hθ2 h0
      have h6 : ‖z - z'‖ ≤ 2 * c * ‖Φ (z, q) - Φ (z', q)‖ := by
        rw [mul_add] at h4
        linarith
      have h7 := mul_nonneg hA hF
      have e : (2 * c + ‖A1‖ + 1) * ‖Φ (z, q) - Φ (z', q)‖ = 2 * c * ‖Φ (z, q) - Φ (z', q)‖ +
          ‖A1‖ * ‖Φ (z, q) - Φ (z', q)‖ + ‖Φ (z, q) - Φ (z', q)‖ := by ring
      linarith
    · have h2 := A1.le_opNorm (z - z')
      have h3 : ‖Φ (z, q) - Φ (z', q)‖ ≤ ‖Φ (z, q) - Φ (z', q) - A1 (z - z')‖ + ‖A1 (z - z')‖ := by
        have := norm_add_le (Φ (z, q) - Φ (z', q) - A1 (z - z')) (A1 (z - z'))
        simpa using this
      have h4 : θ * ‖z - z'‖ ≤ 1 * ‖z - z'‖ := mul_le_mul_of_nonneg_right hθ3 h0
      have h5 : 0 ≤ 2 * c * ‖z - z'‖ := by positivity
      have e : (2 * c + ‖A1‖ + 1) * ‖z - z'‖ = 2 * c * ‖z - z'‖ + ‖A1‖ * ‖z - z'‖ + 1 * ‖z - z'‖ := by ring
      linarith
  · intro z z' d q B hz hz' hq hB h0 hBd
    have h1 := hlow B (hB.trans (min_le_left _ _)) (z - d - z')
    have e : B (z - d - z') = (B - A1) (z - z') - (Φ (z, q) - Φ (z', q) - A1 (z - z')) := by
      rw [show z - d - z' = (z - z') - d by abel, map_sub B, hBd, _root_.sub_apply, h0]
      abel
    have h2 : ‖(B - A1) (z - z')‖ ≤ θ * ‖z - z'‖ :=
      ((B - A1).le_opNorm _).trans (mul_le_mul_of_nonneg_right (hB.trans (min_le_right _ _)) (norm_nonneg _))
    have h3 := hstr z z' q hz hz' hq
    have h4 : ‖B (z - d - z')‖ ≤ θ * ‖z - z'‖ + θ * ‖z - z'‖ := by
      rw [e]
      exact (norm_sub_le _ _).trans (add_le_add h2 h3)
    have h5 := mul_le_mul_of_nonneg_left h4 hcpos.le
    have h6 : c * (θ * ‖z - z'‖ + θ * ‖z - z'‖) = c * (2 * θ) * ‖z - z'‖ := by ring
    have h7 := mul_le_mul_of_nonneg_right hθ1 (norm_nonneg (z - z'))
    linarith

/-- One solution for each value of the data, at a distance proportional to the change in the data. -/
theorem family_solutions [FiniteDimensional ℝ E] [CompleteSpace Q] (Φ : E × Q → E) (A : E × Q →L[ℝ] E) (xs : E) (qs : Q)
    (h0 : Φ (xs, qs) = 0) (hd : HasStrictFDerivAt Φ A (xs, qs)) (hinj : ∀ v, A (v, 0) = 0 → v = 0) :
    ∃ C > 0, ∃ δ > 0, ∀ q, ‖q - qs‖ < δ → ∃ z, Φ (z, q) = 0 ∧ ‖z - xs‖ ≤ C * ‖q - qs‖ := by
  have : CompleteSpace E := FiniteDimensional.complete ℝ E
  set sw : Q × E →L[ℝ] E × Q := (ContinuousLinearEquiv.prodComm ℝ Q E : Q × E →L[ℝ] E × Q) with hsw
  have hsw' : ∀ v, sw v = (v.2, v.1) := fun v => rfl
  have hf : HasStrictFDerivAt (fun v : Q × E => Φ (sw v)) (A.comp sw) (qs, xs) :=
    HasStrictFDerivAt.comp (qs, xs) (by rw [hsw']; exact hd) sw.hasStrictFDerivAt
  have hker : ∀ v, ((A.comp sw) ∘L .inr ℝ Q E) v = 0 → v = 0 := fun v hv => hinj v hv
  have hinv : ((A.comp sw) ∘L .inr ℝ Q E).IsInvertible := by
    have hi : Function.Injective (((A.comp sw) ∘L .inr ℝ Q E : E →L[ℝ] E) : E →ₗ[ℝ] E) := by
      rw [← LinearMap.ker_eq_bot, LinearMap.ker_eq_bot']
      exact hker
    refine ⟨(LinearEquiv.ofInjectiveEndo _ hi).toContinuousLinearEquiv, ?_⟩
    ext v
    rfl
  have hval := hf.eventually_apply_implicitFunctionOfProdDomain hinv
  have hψ := hf.hasStrictFDerivAt_implicitFunctionOfProdDomain hinv
  have hψ0 : hf.implicitFunctionOfProdDomain hinv qs = xs :=
    (hf.eventually_apply_eq_iff_implicitFunctionOfProdDomain hinv).self_of_nhds.mp rfl
  set ψ := hf.implicitFunctionOfProdDomain hinv with hψdef
  set D := -((A.comp sw) ∘L .inr ℝ Q E).inverse ∘L ((A.comp sw) ∘L .inl ℝ Q E) with hD
  have hlip := (hψ.hasFDerivAt.isLittleO.bound (c := 1) one_pos)
  obtain ⟨δ, hδ, hb⟩ := Metric.eventually_nhds_iff.1 (hval.and hlip)
  refine ⟨‖D‖ + 1, by positivity, δ, hδ, fun q hq => ⟨ψ q, ?_, ?_⟩⟩
  · have := (hb (y := q) (by rw [dist_eq_norm]; exact hq)).1
    simp only [hsw'] at this
    rw [this, h0]
  · have h1 := (hb (y := q) (by rw [dist_eq_norm]; exact hq)).2
    simp only [hψ0] at h1
    have h2 := D.le_opNorm (q - qs)
    have h3 : ‖ψ q - xs‖ ≤ ‖ψ q - xs - D (q - qs)‖ + ‖D (q - qs)‖ := by
      have := norm_add_le (ψ q - xs - D (q - qs)) (D (q - qs))
      simpa using this
    have e : (‖D‖ + 1) * ‖q - qs‖ = ‖D‖ * ‖q - qs‖ + 1 * ‖q - qs‖ := by ring
    linarith

variable {X V J D : Type}

/-- Newton iterations find the solution for every value of the data close to `qs`. -/
theorem family_local [FiniteDimensional ℝ E] [CompleteSpace Q] (Φ : E × Q → E) (A : E × Q →L[ℝ] E) (xs : E) (qs : Q)
    (h0 : Φ (xs, qs) = 0) (hd : HasStrictFDerivAt Φ A (xs, qs)) (hinj : ∀ v, A (v, 0) = 0 → v = 0)
    (B : E × Q → E →L[ℝ] E) (hB : ContinuousAt B (xs, qs)) (hB0 : ∀ v, B (xs, qs) v = A (v, 0)) {ρ : ℝ} (hρ0 : 0 < ρ)
    (hρ1 : ρ < 1) :
    ∃ C > 0, ∃ ε0 > 0, ∀ ε, 0 < ε → ε ≤ ε0 → ∃ δ > 0, ∀ q, ‖q - qs‖ < δ →
      ∃ z, Φ (z, q) = 0 ∧ ‖z - xs‖ ≤ C * ‖q - qs‖ ∧ (∀ z', ‖z' - xs‖ < ε → Φ (z', q) = 0 → z' = z) ∧
        ∀ (P : NewtonProblem ℝ X V J D) (π : X → E) (πd : D → E), NewtonView P (fun u => Φ (u, q)) π πd →
        (∀ y, ‖π y - xs‖ < ε → (∀ v, B (π y, q) v = 0 → v = 0) → B (π y, q) (πd (P.dir y)) = Φ (π y, q)) →
        (∀ y, ‖π y - xs‖ < δ → ‖π (P.next y) - z‖ ≤ ρ * ‖π y - z‖) ∧
        ∀ x0, ‖π x0 - xs‖ < δ → ∀ tol, 0 < tol → ∀ n0 : ℕ, C * (‖π x0 - xs‖ + ‖q - qs‖) * ρ ^ n0 < tol →
          ∀ maxit, n0 < maxit →
            (newton P tol maxit x0).warned = false ∧ (newton P tol maxit x0).it ≤ n0 ∧
            ‖Φ (π (newton P tol maxit x0).x, q)‖ < tol ∧
            ‖π (newton P tol maxit x0).x - z‖ ≤ C * ‖Φ (π (newton P tol maxit x0).x, q)‖ := by
  set A1 := B (xs, qs) with hA1
  obtain ⟨Ai, hAi⟩ := exists_left_inverse A1 (fun v hv => hinj v (by rw [← hB0]; exact hv))
  obtain ⟨C1, hC1, hest⟩ := family_estimates Φ A xs qs hd A1 Ai (fun v => (hB0 v).symm) hAi
  obtain ⟨C2, hC2, δ2, hδ2, hsol⟩ := family_solutions Φ A xs qs h0 hd hinj
  set κ := min ρ (1 / (2 * (C1 * C1))) with hκ
  have hκ0 : 0 < κ := lt_min hρ0 (by positivity)
  have hκρ : κ ≤ ρ := min_le_left _ _
  have hκC : C1 * C1 * κ < 1 := by
    have h1 : κ ≤ 1 / (2 * (C1 * C1)) := min_le_right _ _
    have h2 : C1 * C1 * κ ≤ C1 * C1 * (1 / (2 * (C1 * C1))) := mul_le_mul_of_nonneg_left h1 (by positivity)
    have h3 : C1 * C1 * (1 / (2 * (C1 * C1))) = 1 / 2 := by field_simp
    linarith
  obtain ⟨η, hη, ε1, hε1, hker, heq, hstep⟩ := hest κ hκ0
  obtain ⟨ε2, hε2, hBε⟩ := Metric.continuousAt_iff.1 hB η hη
  have hBclose : ∀ u q, ‖u - xs‖ < ε2 → ‖q - qs‖ < ε2 → ‖B (u, q) - A1‖ ≤ η := by
    intro u q hu hq
    have := hBε (x := (u, q)) (by
      rw [Prod.dist_eq]
      simp only [dist_eq_norm]
      exact max_lt hu hq)
    rw [dist_eq_norm] at this
    exact this.le
  refine ⟨max C1 C2 + C1 * C2 + C1, by positivity, min ε1 ε2, lt_min hε1 hε2, fun ε hε hεle => ?_⟩
  have hε1' : ε ≤ ε1 := hεle.trans (min_le_left _ _)
  have hε2' : ε ≤ ε2 := hεle.trans (min_le_right _ _)
  refine ⟨min (min δ2 (ε / (4 * (C2 + 1)))) (ε / 4), lt_min (lt_min hδ2 (by positivity)) (by positivity),
    fun q hq => ?_⟩
  have hq2 : ‖q - qs‖ < δ2 := hq.trans_le ((min_le_left _ _).trans (min_le_left _ _))
  have hq3 : ‖q - qs‖ < ε / (4 * (C2 + 1)) := hq.trans_le ((min_le_left _ _).trans (min_le_right _ _))
  have hq4 : ‖q - qs‖ < ε / 4 := hq.trans_le (min_le_right _ _)
  obtain ⟨z, hz0, hz⟩ := hsol q hq2
  have hq0 := norm_nonneg (q - qs)
  have hzε : ‖z - xs‖ < ε / 4 := by
    rw [lt_div_iff₀ (by positivity)] at hq3
    nlinarith
  have hCC : C2 ≤ max C1 C2 + C1 * C2 + C1 := by
    have := le_max_right C1 C2
    have h2 := mul_pos hC1 hC2
    linarith
  have hCC1 : C1 ≤ max C1 C2 + C1 * C2 + C1 := by
    have := le_max_right C1 C2
    have h2 := mul_pos hC1 hC2
    linarith
  refine ⟨z, hz0, hz.trans (mul_le_mul_of_nonneg_right hCC hq0), ?_, ?_⟩
  · intro z' hz' hz'0
    have := (heq z' z q (hz'.trans_le hε1') (by linarith) (by linarith)).1
    rw [hz'0, hz0, sub_self, norm_zero, mul_zero] at this
    exact sub_eq_zero.1 (norm_le_zero_iff.1 this)
  · intro P π πd hP hdir
    have hin : ∀ u, ‖u - z‖ < ε / 2 → ‖u - xs‖ < ε := by
      intro u hu
      have := norm_add_le (u - z) (z - xs)
      rw [sub_add_sub_cancel] at this
      linarith
    obtain ⟨r1, r2⟩ := newton_run P (fun u => Φ (u, q)) π πd hP z (δ := ε / 2) hC1 hκ0.le hκρ hρ0 hρ1 hκC
      (fun u hu => by
        have := heq u z q ((hin u hu).trans_le hε1') (by linarith) (by linarith)
        rw [hz0, sub_zero] at this
        exact this)
      (fun y hy => by
        have hy' := hin _ hy
        have hb := hBclose (π y) q (hy'.trans_le hε2') (by linarith)
        have := hstep (π y) z (πd (P.dir y)) q (B (π y, q)) (hy'.trans_le hε1') (by linarith) (by linarith) hb hz0
          (hdir y hy' (hker _ hb))
        rw [show π y - z - πd (P.dir y) = π y - πd (P.dir y) - z by abel]
        exact this)
    have hst : ∀ y, ‖π y - xs‖ < min (min δ2 (ε / (4 * (C2 + 1)))) (ε / 4) → ‖π y - z‖ < ε / 2 := by
      intro y hy
      have h1 := hy.trans_le (min_le_right _ _)
      have := norm_sub_le (π y - xs) (z - xs)
      rw [sub_sub_sub_cancel_right] at this
      linarith
    refine ⟨fun y hy => ?_, fun x0 hx0 tol htol n0 hn0 maxit hmax => ?_⟩
    · exact (r1 y (hst y hy)).1.trans (mul_le_mul_of_nonneg_right hκρ (norm_nonneg _))
    · have hd0 : C1 * ‖π x0 - z‖ ≤ (max C1 C2 + C1 * C2 + C1) * (‖π x0 - xs‖ + ‖q - qs‖) := by
        have h1 := norm_sub_le (π x0 - xs) (z - xs)
        rw [sub_sub_sub_cancel_right] at h1
        have h2 : ‖π x0 - z‖ ≤ ‖π x0 - xs‖ + C2 * ‖q - qs‖ := h1.trans (by linarith)
        have h3 := mul_le_mul_of_nonneg_left h2 hC1.le
        have h4 : 0 ≤ max C1 C2 := hC1.le.trans (le_max_left _ _)
        have h5 := mul_nonneg h4 (norm_nonneg (π x0 - xs))
        have h6 := mul_nonneg h4 hq0
        have h7 := mul_nonneg (mul_pos hC1 hC2).le (norm_nonneg (π x0 - xs))
        have h8 := mul_nonneg hC1.le hq0
        nlinarith
      obtain ⟨a1, a2, a3, a4⟩ := r2 x0 (hst x0 hx0) tol htol n0
        (lt_of_le_of_lt (mul_le_mul_of_nonneg_right hd0 (by positivity)) hn0) maxit hmax
      exact ⟨a1, a2, a3, a4.trans (mul_le_mul_of_nonneg_right hCC1 (norm_nonneg _))⟩

end family

end Dolo
